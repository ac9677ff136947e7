import Verif.Lemmas.Lindblad
import Verif.Props.Pauli

/-! C23-C26, C29: the first order approaches with coherences. As in `Verif.Props.Pauli` the
position of the population of `b` is `la.lab c b b`, and `v.R c` is the set of considered states
of charge `c`. -/

namespace Verif

open Finset
open Complex (I)
open scoped ComplexConjugate

noncomputable section

section
variable {v : View} {la : Lab} (h : VOk v la)
include h

/-! ### Normalisation vector -/

theorem addOnes_ok (q : Nat) (l : List Nat) (hl : ∀ b ∈ l, b ∈ v.row q) (x : Vec)
    (hx : v.npauli ≤ x.size) :
    ∃ x', l.foldlM (fun x b => do
        let bb ← v.ind0 b b (q : Int)
        x.add bb 1) x = .ok x' ∧ x'.size = x.size ∧
      ∀ r, x'.val r = x.val r + (l.map fun b => if r = la.lab q b b then (1 : ℝ) else 0).sum := by
  induction l generalizing x with
  | nil => exact ⟨x, rfl, rfl, by simp⟩
  | cons b l ih =>
    have hb := hl b (by simp)
    obtain ⟨x1, g1, s1, e1⟩ := x.add_ok (r := la.lab q b b)
      (lt_of_lt_of_le (h.lab_diag q b hb) hx) 1
    obtain ⟨x2, g2, s2, e2⟩ := ih (fun b hb => hl b (by simp [hb])) x1 (by omega)
    refine ⟨x2, ?_, by omega, ?_⟩
    · rw [List.foldlM_cons, ind0_diag h hb]
      simp only [py_bind_ok]
      rw [g1]
      exact g2
    · intro r
      rw [e2, e1, List.map_cons, List.sum_cons, add_assoc]

/-- `generate_norm_vec` puts a one at every population and nothing else. -/
theorem genNormVec_ok (n : Nat) (hn : v.npauli ≤ n) :
    ∃ x, v.genNormVec (Vec.zeros n) = .ok x ∧ x.size = n ∧
      ∀ i, x.val i = if i < v.npauli then 1 else 0 := by
  have key : ∀ (cs : List Nat) (x : Vec), (∀ c ∈ cs, c < v.ncharge) → v.npauli ≤ x.size →
      ∃ x', cs.foldlM (fun x (c : Nat) => do
        let l ← v.states c
        l.foldlM (fun x b => do
          let bb ← v.ind0 b b c
          x.add bb 1) x) x = .ok x' ∧ x'.size = x.size ∧
      ∀ r, x'.val r = x.val r + (cs.map fun c =>
        ((v.row c).map fun b => if r = la.lab c b b then (1 : ℝ) else 0).sum).sum := by
    intro cs
    induction cs with
    | nil => intro x _ _; exact ⟨x, rfl, rfl, by simp⟩
    | cons c cs ih =>
      intro x hcs hx
      obtain ⟨x1, g1, s1, e1⟩ := addOnes_ok h c (v.row c) (fun b hb => hb) x hx
      obtain ⟨x2, g2, s2, e2⟩ := ih x1 (fun c hc => hcs c (by simp [hc])) (by omega)
      refine ⟨x2, ?_, by omega, ?_⟩
      · have := hcs c (by simp)
        rw [List.foldlM_cons, h.states (by omega)]
        simp only [py_bind_ok]
        rw [g1]
        exact g2
      · intro r
        rw [e2, e1, List.map_cons, List.sum_cons, add_assoc]
  obtain ⟨x, g, hs, e⟩ := key (List.range v.ncharge) (Vec.zeros n) (fun c hc => List.mem_range.1 hc) hn
  refine ⟨x, g, hs, ?_⟩
  intro i
  rw [e, sum_range_list]
  have hp := sum_pop h (fun k => if i = k then (1 : ℝ) else 0)
  rw [sum_ite_eq] at hp
  simp only [mem_range] at hp
  rw [hp]
  simp only [Vec.zeros, zero_add]
  refine sum_congr rfl fun q _ => ?_
  rw [View.R, List.sum_toFinset _ (h.nodup q)]

/-- The rows of the populations. -/
theorem pop_rows {m : Mat} {E : Nat → ℝ} {S : (Nat → ℝ) → Nat → Nat → Nat → ℂ}
    (rows : ∀ φ c b bp, (b, bp) ∈ combsR2 (v.row c) → la.inc c b bp = true →
        m.app φ (la.lab c b bp)
          = (((E b - E bp : ℝ) : ℂ) * dens v la φ c b bp + S φ c b bp).im ∧
        (b ≠ bp → m.app φ (v.imag (la.lab c b bp))
          = -(((E b - E bp : ℝ) : ℂ) * dens v la φ c b bp + S φ c b bp).re))
    (φ : Nat → ℝ) {c b : Nat} (hb : b ∈ v.R c) : m.app φ (la.lab c b b) = (S φ c b b).im := by
  have hb' := (mem_R h).1 hb
  rw [(rows φ c b b (combsR2_iff.2 (Or.inr ⟨rfl, hb'⟩)) (h.inc_diag c b hb')).1]
  simp

/-- A kernel whose population rows cancel is annihilated by the normalisation vector. -/
theorem norm_kern {m : Mat} (hc : m.cols = v.ndm0r)
    (hz : ∀ φ, ∑ q ∈ range v.ncharge, ∑ b ∈ v.R q, m.app φ (la.lab q b b) = 0) :
    ∃ nv, v.genNormVec (Vec.zeros v.ndm0r) = .ok nv ∧
      ∀ j, j < v.ndm0r → ∑ i ∈ range v.ndm0r, nv.val i * m.val i j = 0 := by
  obtain ⟨nv, g, hs, e⟩ := genNormVec_ok h v.ndm0r (by have := h.np_le; have := h.ndm0r; omega)
  refine ⟨nv, g, ?_⟩
  intro j hj
  have := hz (fun k => if k = j then 1 else 0)
  rw [← sum_pop h (fun i => m.app (fun k => if k = j then 1 else 0) i)] at this
  rw [← this]
  have hle : v.npauli ≤ v.ndm0r := by have := h.np_le; have := h.ndm0r; omega
  simp only [e, ite_mul, one_mul, zero_mul]
  rw [← sum_filter]
  apply sum_congr
  · ext i; simp only [mem_filter, mem_range]; omega
  · intro i _; exact m.val_eq_app (by rw [hc]; exact hj)

/-! ### Trace -/

/-- **C23** for 1vN. The normalisation vector annihilates the kernel, whatever the tunnelling
matrices and the factors. -/
theorem c23_trace_1vN (symq : Bool) (E : Nat → ℝ) (T : Nat → Nat → Nat → ℂ) (f : Nat → Nat → Amp) :
    ∃ m nv, VN1.kernel v symq E T f = .ok m ∧ m.cols = v.ndm0r ∧
      v.genNormVec (Vec.zeros v.ndm0r) = .ok nv ∧
      ∀ j, j < v.ndm0r → ∑ i ∈ range v.ndm0r, nv.val i * m.val i j = 0 := by
  obtain ⟨m, g, hc, _, rows⟩ := assemble_rows h symq E (VN1.coup v T f) _
    (fun c b bp hb hbp hi => VN1.coup_ok h T f hb hbp hi)
  obtain ⟨nv, gn, e⟩ := norm_kern h hc (fun φ => by
    have e : ∀ q b, b ∈ v.R q → m.app φ (la.lab q b b) = _ :=
      fun q b hb => pop_rows h rows φ hb
    rw [sum_congr rfl fun q _ => sum_congr rfl fun b hb => e q b hb]
    simp only [← Complex.im_sum]
    rw [Coh.trace h]; rfl)
  exact ⟨m, nv, g, hc, gn, e⟩

/-- **C23** for Redfield. -/
theorem c23_trace_redfield (symq : Bool) (E : Nat → ℝ) (T : Nat → Nat → Nat → ℂ)
    (f : Nat → Nat → Amp) :
    ∃ m nv, Redfield.kernel v symq E T f = .ok m ∧ m.cols = v.ndm0r ∧
      v.genNormVec (Vec.zeros v.ndm0r) = .ok nv ∧
      ∀ j, j < v.ndm0r → ∑ i ∈ range v.ndm0r, nv.val i * m.val i j = 0 := by
  obtain ⟨m, g, hc, _, rows⟩ := assemble_rows h symq E (Redfield.coup v T f) _
    (fun c b bp hb hbp hi => Redfield.coup_ok h T f hb hbp hi)
  obtain ⟨nv, gn, e⟩ := norm_kern h hc (fun φ => by
    have e : ∀ q b, b ∈ v.R q → m.app φ (la.lab q b b) = _ :=
      fun q b hb => pop_rows h rows φ hb
    rw [sum_congr rfl fun q _ => sum_congr rfl fun b hb => e q b hb]
    simp only [← Complex.im_sum]
    rw [Coh.trace h]; rfl)
  exact ⟨m, nv, g, hc, gn, e⟩

/-- The weighted population rows of the Lindblad kernel. -/
theorem Lindblad.app_weighted {m : Mat} {E : Nat → ℝ} {t : TMat}
    (rows : ∀ φ c b bp, (b, bp) ∈ combsR2 (v.row c) → la.inc c b bp = true →
        m.app φ (la.lab c b bp)
          = (((E b - E bp : ℝ) : ℂ) * dens v la φ c b bp + S v t (dens v la φ) c b bp).im ∧
        (b ≠ bp → m.app φ (v.imag (la.lab c b bp))
          = -(((E b - E bp : ℝ) : ℂ) * dens v la φ c b bp + S v t (dens v la φ) c b bp).re))
    (φ : Nat → ℝ) (w : Nat → Nat → ℝ) :
    ∑ q ∈ range v.ncharge, ∑ b ∈ v.R q, w q b * m.app φ (la.lab q b b)
      = ∑ l ∈ range v.nleads, (flow v t (dens v la φ) (fun q b => (w q b : ℂ)) l).re := by
  have := congrArg Complex.im (weighted h t (dens v la φ) (fun q b => (w q b : ℂ)))
  rw [Complex.im_sum, Complex.I_mul_im, Complex.re_sum] at this
  rw [← this]
  refine sum_congr rfl fun q _ => ?_
  rw [Complex.im_sum]
  refine sum_congr rfl fun b hb => ?_
  rw [pop_rows h (S := fun φ => S v t (dens v la φ)) rows φ hb, Complex.im_ofReal_mul]

/-- **C24**. The same for the Lindblad approach, whatever the jump matrices. -/
theorem c24_trace_lindblad (symq : Bool) (E : Nat → ℝ) (t : Nat → Nat → Nat → ℂ) :
    ∃ m nv, Lindblad.kernel v symq E t = .ok m ∧ m.cols = v.ndm0r ∧
      v.genNormVec (Vec.zeros v.ndm0r) = .ok nv ∧
      ∀ j, j < v.ndm0r → ∑ i ∈ range v.ndm0r, nv.val i * m.val i j = 0 := by
  obtain ⟨m, g, hc, _, rows⟩ := assemble_rows h symq E (Lindblad.coup v t) _
    (fun c b bp hb hbp hi => Lindblad.coup_ok h t hb hbp hi)
  obtain ⟨nv, gn, e⟩ := norm_kern h hc (fun φ => by
    have := Lindblad.app_weighted h rows φ (fun _ _ => 1)
    simp only [one_mul] at this
    rw [this]
    apply sum_eq_zero; intro l _
    have : Lindblad.flow v t (dens v la φ) (fun _ _ => ((1 : ℝ) : ℂ)) l = 0 := by
      unfold Lindblad.flow
      apply sum_eq_zero; intro q _
      apply sum_eq_zero; intro x _
      apply sum_eq_zero; intro b _
      rw [sum_eq_zero, sum_eq_zero, add_zero] <;> (intro y _; norm_num)
    rw [this]; rfl)
  exact ⟨m, nv, g, hc, gn, e⟩

/-! ### Currents -/

/-- **C25** for 1vN with Hermitian tunnelling matrices. -/
theorem c25_current_1vN (symq : Bool) (E : Nat → ℝ) (T : Nat → Nat → Nat → ℂ)
    (hT : ∀ l b c, T l b c = conj (T l c b)) (f : Nat → Nat → Amp) (φ : Vec)
    (hs : φ.size = v.ndm0r) :
    ∃ m evs, VN1.kernel v symq E T f = .ok m ∧ VN1.genCurrent v T f φ = .ok evs ∧
      ∑ l ∈ range v.nleads, current (evs.map (·.ev)) l
        = ∑ q ∈ range v.ncharge, ∑ b ∈ v.R q,
          (q : ℝ) * ∑ j ∈ range v.ndm0r, m.val (la.lab q b b) j * φ.val j ∧
      ((∀ i, i < v.npauli → ∑ j ∈ range v.ndm0r, m.val i j * φ.val j = 0) →
        ∑ l ∈ range v.nleads, current (evs.map (·.ev)) l = 0) := by
  obtain ⟨m, g, hc, _, rows⟩ := assemble_rows h symq E (VN1.coup v T f) _
    (fun c b bp hb hbp hi => VN1.coup_ok h T f hb hbp hi)
  obtain ⟨evs, ge, _, hev⟩ := VN1.genCurrent_ok h T f φ (by omega)
  have key : ∑ l ∈ range v.nleads, current (evs.map (·.ev)) l
        = ∑ q ∈ range v.ncharge, ∑ b ∈ v.R q,
          (q : ℝ) * ∑ j ∈ range v.ndm0r, m.val (la.lab q b b) j * φ.val j := by
    have e := Coh.weighted h T hT (fun l q x b _ => (f l (la.ix1 q x b)).cur0)
      (fun l q x _ b => (f l (la.ix1 q x b)).cur1) (dens v la φ.val)
      (fun q b bp hb hbp => h.dens_herm φ.val ((mem_R h).1 hbp) ((mem_R h).1 hb))
      (fun q _ => (q : ℝ))
    have e2 : ∀ q b, b ∈ v.R q → ∑ j ∈ range v.ndm0r, m.val (la.lab q b b) j * φ.val j
        = (Coh.S v T (fun l q x b _ => (f l (la.ix1 q x b)).cur0)
      (fun l q x _ b => (f l (la.ix1 q x b)).cur1) (dens v la φ.val) q b b).im := by
      intro q b hb
      rw [← hc]
      exact pop_rows h rows φ.val hb
    rw [sum_congr rfl fun q _ => sum_congr rfl fun b hb => congrArg _ (e2 q b hb), e,
      sum_congr rfl fun l hl => (hev l (mem_range.1 hl)).1, sum_comm]
    refine sum_congr rfl fun q _ => ?_
    rw [sum_comm]
    refine sum_congr rfl fun c _ => ?_
    rw [sum_comm]
    refine sum_congr rfl fun b _ => ?_
    push_cast
    ring
  refine ⟨m, evs, g, ge, key, ?_⟩
  intro hz
  rw [key]
  apply sum_eq_zero; intro q _
  apply sum_eq_zero; intro b hb
  rw [hz _ (h.lab_diag q b ((mem_R h).1 hb)), mul_zero]

/-- **C25** for Redfield with Hermitian tunnelling matrices. -/
theorem c25_current_redfield (symq : Bool) (E : Nat → ℝ) (T : Nat → Nat → Nat → ℂ)
    (hT : ∀ l b c, T l b c = conj (T l c b)) (f : Nat → Nat → Amp) (φ : Vec)
    (hs : φ.size = v.ndm0r) :
    ∃ m evs, Redfield.kernel v symq E T f = .ok m ∧ Redfield.genCurrent v T f φ = .ok evs ∧
      ∑ l ∈ range v.nleads, current (evs.map (·.ev)) l
        = ∑ q ∈ range v.ncharge, ∑ b ∈ v.R q,
          (q : ℝ) * ∑ j ∈ range v.ndm0r, m.val (la.lab q b b) j * φ.val j ∧
      ((∀ i, i < v.npauli → ∑ j ∈ range v.ndm0r, m.val i j * φ.val j = 0) →
        ∑ l ∈ range v.nleads, current (evs.map (·.ev)) l = 0) := by
  obtain ⟨m, g, hc, _, rows⟩ := assemble_rows h symq E (Redfield.coup v T f) _
    (fun c b bp hb hbp hi => Redfield.coup_ok h T f hb hbp hi)
  obtain ⟨evs, ge, _, hev⟩ := Redfield.genCurrent_ok h T f φ (by omega)
  have key : ∑ l ∈ range v.nleads, current (evs.map (·.ev)) l
        = ∑ q ∈ range v.ncharge, ∑ b ∈ v.R q,
          (q : ℝ) * ∑ j ∈ range v.ndm0r, m.val (la.lab q b b) j * φ.val j := by
    have e := Coh.weighted h T hT (fun l q x _ bp => (f l (la.ix1 q x bp)).cur0)
      (fun l q _ xp b => (f l (la.ix1 q xp b)).cur1) (dens v la φ.val)
      (fun q b bp hb hbp => h.dens_herm φ.val ((mem_R h).1 hbp) ((mem_R h).1 hb))
      (fun q _ => (q : ℝ))
    have e2 : ∀ q b, b ∈ v.R q → ∑ j ∈ range v.ndm0r, m.val (la.lab q b b) j * φ.val j
        = (Coh.S v T (fun l q x _ bp => (f l (la.ix1 q x bp)).cur0)
      (fun l q _ xp b => (f l (la.ix1 q xp b)).cur1) (dens v la φ.val) q b b).im := by
      intro q b hb
      rw [← hc]
      exact pop_rows h rows φ.val hb
    rw [sum_congr rfl fun q _ => sum_congr rfl fun b hb => congrArg _ (e2 q b hb), e,
      sum_congr rfl fun l hl => (hev l (mem_range.1 hl)).1, sum_comm]
    refine sum_congr rfl fun q _ => ?_
    rw [sum_comm]
    refine sum_congr rfl fun c _ => ?_
    rw [sum_comm]
    refine sum_congr rfl fun b _ => ?_
    push_cast
    ring
  refine ⟨m, evs, g, ge, key, ?_⟩
  intro hz
  rw [key]
  apply sum_eq_zero; intro q _
  apply sum_eq_zero; intro b hb
  rw [hz _ (h.lab_diag q b ((mem_R h).1 hb)), mul_zero]

/-- **C25** and **C26** for Lindblad, whatever the jump matrices. -/
theorem c25_c26_lindblad (symq : Bool) (E : Nat → ℝ) (t : Nat → Nat → Nat → ℂ) (φ : Vec)
    (hs : φ.size = v.ndm0r) :
    ∃ m evs, Lindblad.kernel v symq E t = .ok m ∧ Lindblad.genCurrent v E t φ = .ok evs ∧
      ∑ l ∈ range v.nleads, current evs l
        = ∑ q ∈ range v.ncharge, ∑ b ∈ v.R q,
          (q : ℝ) * ∑ j ∈ range v.ndm0r, m.val (la.lab q b b) j * φ.val j ∧
      ∑ l ∈ range v.nleads, energyCurrent evs l
        = ∑ q ∈ range v.ncharge, ∑ b ∈ v.R q,
          E b * ∑ j ∈ range v.ndm0r, m.val (la.lab q b b) j * φ.val j ∧
      ((∀ i, i < v.npauli → ∑ j ∈ range v.ndm0r, m.val i j * φ.val j = 0) →
        ∑ l ∈ range v.nleads, current evs l = 0 ∧
        ∑ l ∈ range v.nleads, energyCurrent evs l = 0) := by
  obtain ⟨m, g, hc, _, rows⟩ := assemble_rows h symq E (Lindblad.coup v t) _
    (fun c b bp hb hbp hi => Lindblad.coup_ok h t hb hbp hi)
  obtain ⟨evs, ge, hev⟩ := Lindblad.genCurrent_ok h E t φ (by omega)
  have k1 : ∑ l ∈ range v.nleads, current evs l
        = ∑ q ∈ range v.ncharge, ∑ b ∈ v.R q,
          (q : ℝ) * ∑ j ∈ range v.ndm0r, m.val (la.lab q b b) j * φ.val j := by
    have e := Lindblad.app_weighted h rows φ.val (fun q _ => (q : ℝ))
    unfold Mat.app at e
    rw [hc] at e
    rw [e]
    refine sum_congr rfl fun l hl => ?_
    rw [(hev l (mem_range.1 hl)).1]
    simp only [Complex.ofReal_natCast]
  have k2 : ∑ l ∈ range v.nleads, energyCurrent evs l
        = ∑ q ∈ range v.ncharge, ∑ b ∈ v.R q,
          E b * ∑ j ∈ range v.ndm0r, m.val (la.lab q b b) j * φ.val j := by
    have e := Lindblad.app_weighted h rows φ.val (fun _ b => E b)
    unfold Mat.app at e
    rw [hc] at e
    rw [e]
    refine sum_congr rfl fun l hl => ?_
    rw [(hev l (mem_range.1 hl)).2]
  refine ⟨m, evs, g, ge, k1, k2, ?_⟩
  intro hz
  rw [k1, k2]
  constructor
  · apply sum_eq_zero; intro q _
    apply sum_eq_zero; intro b hb
    rw [hz _ (h.lab_diag q b ((mem_R h).1 hb)), mul_zero]
  · apply sum_eq_zero; intro q _
    apply sum_eq_zero; intro b hb
    rw [hz _ (h.lab_diag q b ((mem_R h).1 hb)), mul_zero]

omit h in
/-- The energy factors of 1vN: the transition energy times the current factor plus a real number
that depends only on the lead. -/
theorem amp1vN_en (lib : NumLib) (L : Leads) (l : Nat) : ∃ c0 c1 : ℝ, ∀ (E : Nat → ℝ) (x b : Nat),
    (amp1vN lib E L l x b).en0 = c0 + ((E x - E b : ℝ) : ℂ) * (amp1vN lib E L l x b).cur0 ∧
    (amp1vN lib E L l x b).en1 = c1 + ((E x - E b : ℝ) : ℂ) * (amp1vN lib E L l x b).cur1 := by
  unfold amp1vN func1vN
  split
  · exact ⟨L.T l * (softPlus ((L.Dm l - L.mu l) / L.T l) - softPlus ((L.Dp l - L.mu l) / L.T l)),
      L.T l * (softPlus ((L.Dm l - L.mu l) / L.T l) - softPlus ((L.Dp l - L.mu l) / L.T l))
        + L.Dm l - L.Dp l, fun E x b => ⟨rfl, rfl⟩⟩
  · split
    · exact ⟨_, _, fun E x b => ⟨rfl, rfl⟩⟩
    · split
      · refine ⟨0, 0, fun E x b => ?_⟩
        simp only [func1vN2, Complex.ofReal_zero, zero_add, and_self]
      · split
        · refine ⟨0, 0, fun E x b => ?_⟩
          simp only [func1vN3, Complex.ofReal_zero, zero_add, and_self]
        · refine ⟨0, 0, fun E x b => ?_⟩
          simp

/-- **C26** for 1vN with Hermitian tunnelling matrices, for every `itype`. -/
theorem c26_energy_current_1vN (symq : Bool) (lib : NumLib) (E : Nat → ℝ) (L : Leads)
    (hT : L.Herm) (φ : Vec) (hs : φ.size = v.ndm0r) :
    ∃ f m evs, genFct1vN v lib E L = .ok f ∧ VN1.kernel v symq E L.Tba f = .ok m ∧
      VN1.genCurrent v L.Tba f φ = .ok evs ∧
      ∑ l ∈ range v.nleads, energyCurrent (evs.map (·.ev)) l
        = ∑ q ∈ range v.ncharge, ∑ b ∈ v.R q,
          E b * ∑ j ∈ range v.ndm0r, m.val (la.lab q b b) j * φ.val j ∧
      ((∀ i, i < v.npauli → ∑ j ∈ range v.ndm0r, m.val i j * φ.val j = 0) →
        ∑ l ∈ range v.nleads, energyCurrent (evs.map (·.ev)) l = 0) := by
  obtain ⟨f, gf, hf⟩ := fillFct_ok h (⟨0, 0, 0, 0⟩ : Amp) (amp1vN lib E L)
  have hf' : ∀ q c b l, c ∈ v.R (q + 1) → b ∈ v.R q → l < v.nleads →
      f l (la.ix1 q c b) = amp1vN lib E L l c b :=
    fun q c b l hc hb hl => hf q c b l ((mem_R h).1 hc) ((mem_R h).1 hb) hl
  obtain ⟨m, g, hc, _, rows⟩ := assemble_rows h symq E (VN1.coup v L.Tba f) _
    (fun c b bp hb hbp hi => VN1.coup_ok h L.Tba f hb hbp hi)
  obtain ⟨evs, ge, _, hev⟩ := VN1.genCurrent_ok h L.Tba f φ (by omega)
  set ρ := dens v la φ.val with hρd
  have hρ : ∀ q b bp, b ∈ v.R q → bp ∈ v.R q → ρ q b bp = conj (ρ q bp b) :=
    fun q b bp hb hbp => h.dens_herm φ.val ((mem_R h).1 hbp) ((mem_R h).1 hb)
  choose c0 c1 hen using amp1vN_en lib L
  have key : ∑ l ∈ range v.nleads, energyCurrent (evs.map (·.ev)) l
        = ∑ q ∈ range v.ncharge, ∑ b ∈ v.R q,
          E b * ∑ j ∈ range v.ndm0r, m.val (la.lab q b b) j * φ.val j := by
    have e := Coh.weighted h L.Tba hT (fun l q x b _ => (f l (la.ix1 q x b)).cur0)
      (fun l q x _ b => (f l (la.ix1 q x b)).cur1) ρ hρ (fun _ b => E b)
    have e2 : ∀ q b, b ∈ v.R q → ∑ j ∈ range v.ndm0r, m.val (la.lab q b b) j * φ.val j
        = (Coh.S v L.Tba (fun l q x b _ => (f l (la.ix1 q x b)).cur0)
      (fun l q x _ b => (f l (la.ix1 q x b)).cur1) ρ q b b).im := by
      intro q b hb
      rw [← hc]
      exact pop_rows h rows φ.val hb
    rw [sum_congr rfl fun q _ => sum_congr rfl fun b hb => congrArg _ (e2 q b hb), e,
      sum_congr rfl fun l hl => (hev l (mem_range.1 hl)).2, sum_comm]
    refine sum_congr rfl fun q _ => ?_
    -- the constants cancel in the sums over the pairs
    have im0 : ∀ l x, x ∈ v.R (q + 1) → (∑ b ∈ v.R q, ∑ bp ∈ v.R q,
        L.Tba l b x * L.Tba l x bp * ρ q bp b).im = 0 := by
      intro l x _
      rw [← Complex.conj_eq_iff_im, map_sum]
      simp only [map_sum, map_mul]
      rw [sum_comm]
      refine sum_congr rfl fun b hb => sum_congr rfl fun bp hbp => ?_
      rw [← hT l x bp, ← hT l b x, ← hρ q bp b hbp hb]; ring
    have im1 : ∀ l b, b ∈ v.R q → (∑ x ∈ v.R (q + 1), ∑ xp ∈ v.R (q + 1),
        L.Tba l b x * ρ (q + 1) x xp * L.Tba l xp b).im = 0 := by
      intro l b _
      rw [← Complex.conj_eq_iff_im, map_sum]
      simp only [map_sum, map_mul]
      rw [sum_comm]
      refine sum_congr rfl fun x hx => sum_congr rfl fun xp hxp => ?_
      rw [← hT l xp b, ← hT l b x, ← hρ (q + 1) x xp hx hxp]; ring
    have zen : ∀ l x b, l < v.nleads → x ∈ v.R (q + 1) → b ∈ v.R q →
        Coh.Z v L.Tba (fun l q x b _ => (f l (la.ix1 q x b)).en0)
          (fun l q x _ b => (f l (la.ix1 q x b)).en1) ρ l q x b
        = ((E x - E b : ℝ) : ℂ) * Coh.Z v L.Tba (fun l q x b _ => (f l (la.ix1 q x b)).cur0)
          (fun l q x _ b => (f l (la.ix1 q x b)).cur1) ρ l q x b +
        (c0 l * (∑ bp ∈ v.R q, L.Tba l b x * L.Tba l x bp * ρ q bp b) +
          c1 l * ∑ xp ∈ v.R (q + 1), L.Tba l b x * ρ (q + 1) x xp * L.Tba l xp b) := by
      intro l x b hl hx hb
      unfold Coh.Z
      simp only [hf' q x b l hx hb hl, (hen l E x b).1, (hen l E x b).2, mul_sum, mul_add,
        sum_add_distrib]
      rw [add_add_add_comm, add_comm (_ + _) (∑ y ∈ v.R q, _ + _)]
      congr 1
      · congr 1 <;> exact sum_congr rfl fun y _ => by ring
      · congr 1 <;> exact sum_congr rfl fun y _ => by ring
    have hl : ∀ l ∈ range v.nleads, ∑ x ∈ v.R (q + 1), ∑ b ∈ v.R q,
        -2 * (Coh.Z v L.Tba (fun l q x b _ => (f l (la.ix1 q x b)).en0)
          (fun l q x _ b => (f l (la.ix1 q x b)).en1) ρ l q x b).im
        = ∑ x ∈ v.R (q + 1), ∑ b ∈ v.R q, (E x - E b) *
          (-2 * (Coh.Z v L.Tba (fun l q x b _ => (f l (la.ix1 q x b)).cur0)
          (fun l q x _ b => (f l (la.ix1 q x b)).cur1) ρ l q x b).im) := by
      intro l hl
      rw [sum_congr rfl fun x hx => sum_congr rfl fun b hb => by
        rw [zen l x b (mem_range.1 hl) hx hb]]
      simp only [Complex.add_im, Complex.im_ofReal_mul, mul_add, sum_add_distrib]
      have r0 : ∑ x ∈ v.R (q + 1), ∑ b ∈ v.R q, -2 * (c0 l * (∑ bp ∈ v.R q,
          L.Tba l b x * L.Tba l x bp * ρ q bp b).im) = 0 := by
        apply sum_eq_zero; intro x hx
        have := im0 l x hx
        rw [Complex.im_sum] at this
        rw [← mul_sum, ← mul_sum, this, mul_zero, mul_zero]
      have r1 : ∑ x ∈ v.R (q + 1), ∑ b ∈ v.R q, -2 * (c1 l * (∑ xp ∈ v.R (q + 1),
          L.Tba l b x * ρ (q + 1) x xp * L.Tba l xp b).im) = 0 := by
        rw [sum_comm]
        apply sum_eq_zero; intro b hb
        have := im1 l b hb
        rw [Complex.im_sum] at this
        rw [← mul_sum, ← mul_sum, this, mul_zero, mul_zero]
      rw [r0, r1, add_zero, add_zero]
      exact sum_congr rfl fun x _ => sum_congr rfl fun b _ => by ring
    rw [sum_congr rfl hl, sum_comm]
    refine sum_congr rfl fun x _ => ?_
    rw [sum_comm]
    refine sum_congr rfl fun b _ => ?_
    rw [mul_sum]
  refine ⟨f, m, evs, gf, g, ge, key, ?_⟩
  intro hz
  rw [key]
  apply sum_eq_zero; intro q _
  apply sum_eq_zero; intro b hb
  rw [hz _ (h.lab_diag q b ((mem_R h).1 hb)), mul_zero]

/-! ### Populations only -/

/-- The density matrix of a vector without coherences. -/
theorem dens_pop {φ : Nat → ℝ} (hφ : ∀ i, v.npauli ≤ i → φ i = 0) {q b bp : Nat} (hb : b ∈ v.R q)
    (hbp : bp ∈ v.R q) : dens v la φ q b bp = if b = bp then (φ (la.lab q b b) : ℂ) else 0 := by
  have hb' := (mem_R h).1 hb
  have hbp' := (mem_R h).1 hbp
  unfold dens
  by_cases e : b = bp
  · subst e
    rw [if_pos (h.inc_diag q b hb'), if_pos rfl, if_pos rfl]
    apply Complex.ext <;> simp
  · rw [if_neg e]
    split
    · rename_i hi
      obtain ⟨h1, h2⟩ := h.lab_off q b bp hb' hbp' e hi
      have h3 : v.npauli ≤ v.imag (la.lab q b bp) := by
        have := h.np_le
        unfold View.imag; omega
      rw [hφ _ h1, hφ _ h3]
      apply Complex.ext <;> simp
    · rfl

/-- The amplitude of a transition when there are no coherences. -/
theorem Coh.Z_pop {T : TMat} (hT : ∀ l b c, T l b c = conj (T l c b)) (k0 k1 : KFct)
    {φ : Nat → ℝ} (hφ : ∀ i, v.npauli ≤ i → φ i = 0) {l q x b : Nat} (hx : x ∈ v.R (q + 1))
    (hb : b ∈ v.R q) : Coh.Z v T k0 k1 (dens v la φ) l q x b
      = (Complex.normSq (T l x b) : ℂ) * (φ (la.lab q b b) * k0 l q x b b
        + φ (la.lab (q + 1) x x) * k1 l q x x b) := by
  unfold Coh.Z
  rw [sum_eq_single b, sum_eq_single x]
  · rw [dens_pop h hφ hb hb, dens_pop h hφ hx hx, if_pos rfl, if_pos rfl, hT l b x,
      ← Complex.mul_conj]
    ring
  · intro y hy hne
    rw [dens_pop h hφ hx hy, if_neg (Ne.symm hne)]; ring
  · intro hh; exact absurd hx hh
  · intro y hy hne
    rw [dens_pop h hφ hy hb, if_neg hne]; ring
  · intro hh; exact absurd hb hh

omit h in
/-- The imaginary parts of the 1vN factors are the Pauli factors. -/
theorem amp1vN_rate (lib : NumLib) (E : Nat → ℝ) (L : Leads)
    (hi : L.itype = 0 ∨ L.itype = 1 ∨ L.itype = 2 ∨ L.itype = 3) (l x b : Nat) :
    -2 * (amp1vN lib E L l x b).cur0.im = (L.rate l (E x - E b)).1 ∧
    2 * (amp1vN lib E L l x b).cur1.im = (L.rate l (E x - E b)).2 := by
  unfold amp1vN func1vN Leads.rate funcPauli
  rcases hi with hi | hi | hi | hi
  · simp only [hi, func1vN0, if_true]
    by_cases hb : (L.Dm l - L.mu l) / L.T l < (E x - E b - L.mu l) / L.T l ∧
        (E x - E b - L.mu l) / L.T l < (L.Dp l - L.mu l) / L.T l
    · rw [if_pos hb, if_pos hb, if_pos (Or.inr (Or.inr hb))]
      constructor <;> simp <;> ring
    · rw [if_neg hb, if_neg hb, if_neg (by rintro (h | h | h) <;> first | omega | exact hb h)]
      constructor <;> simp
  · simp only [hi, func1vN1, if_true, one_ne_zero, if_false, true_or]
    constructor <;> simp <;> ring
  · simp only [hi, func1vN2, if_true, show ¬ ((2 : Int) = 0) by decide,
      show ¬ ((2 : Int) = 1) by decide, if_false]
    by_cases hb : (L.Dm l - L.mu l) / L.T l < (E x - E b - L.mu l) / L.T l ∧
        (E x - E b - L.mu l) / L.T l < (L.Dp l - L.mu l) / L.T l
    · rw [if_pos hb, if_pos hb, if_pos (Or.inr (Or.inr hb))]
      constructor <;> simp <;> ring
    · rw [if_neg hb, if_neg hb, if_neg (by rintro (h | h | h) <;> first | omega | exact hb h)]
      constructor <;> simp
  · simp only [hi, func1vN3, if_true, show ¬ ((3 : Int) = 0) by decide,
      show ¬ ((3 : Int) = 1) by decide, show ¬ ((3 : Int) = 2) by decide, if_false, true_or, or_true]
    constructor <;> simp <;> ring

/-- Two kernels with the same population rows on vectors without coherences. -/
theorem pop_block {m mP : Mat} (hc : m.cols = v.ndm0r) (hcP : mP.cols = v.npauli)
    (e : ∀ φ : Nat → ℝ, (∀ i, v.npauli ≤ i → φ i = 0) → ∀ c b, b ∈ v.R c →
      m.app φ (la.lab c b b) = mP.app φ (la.lab c b b)) :
    ∀ i j, i < v.npauli → j < v.npauli → m.val i j = mP.val i j := by
  intro i j hi hj
  have hle : v.npauli ≤ v.ndm0r := by have := h.np_le; have := h.ndm0r; omega
  rw [m.val_eq_app (by omega), mP.val_eq_app (by omega)]
  obtain ⟨c, b, bp, hb, hbp, hin, el⟩ := h.lab_surj i (lt_of_lt_of_le hi h.np_le)
  have hbb : b = bp := by
    by_contra hne
    have := (h.lab_off c b bp hb hbp hne hin).1
    omega
  subst hbb
  rw [← el]
  exact e _ (fun k hk => if_neg (by omega)) c b ((mem_R h).2 hb)

/-- The Pauli row of a population. -/
theorem pauli_row_eq {fct : Nat → Nat → ℝ × ℝ} {φ : Nat → ℝ} {G : Nat → Nat → Nat → ℝ}
    (hG : ∀ q x b, x ∈ v.R (q + 1) → b ∈ v.R q → G q x b =
      Pauli.up v la fct q x b * φ (la.lab q b b)
        - Pauli.down v la fct q x b * φ (la.lab (q + 1) x x)) {c b : Nat} (hb : b ∈ v.R c) :
    ∑ a ∈ v.Lo c, G (c - 1) b a - ∑ x ∈ v.R (c + 1), G c x b
      = ∑ a ∈ v.Lo c, (Pauli.up v la fct (c - 1) b a * φ (la.lab (c - 1) a a)
          - Pauli.down v la fct (c - 1) b a * φ (la.lab c b b)) +
        ∑ x ∈ v.R (c + 1), (Pauli.down v la fct c x b * φ (la.lab (c + 1) x x)
          - Pauli.up v la fct c x b * φ (la.lab c b b)) := by
  rw [sub_eq_add_neg, ← sum_neg_distrib]
  congr 1
  · refine sum_congr rfl fun a ha => ?_
    obtain ⟨h0, ha', _⟩ := h.low_mem (by simpa [View.Lo] using ha)
    have ec : c - 1 + 1 = c := Nat.sub_add_cancel h0
    rw [hG (c - 1) b a (by rw [ec]; exact hb) ((mem_R h).2 ha'), ec]
  · refine sum_congr rfl fun x hx => ?_
    rw [hG c x b hx hb]; ring

/-- The population row of a 1vN or Redfield kernel on a vector without coherences. -/
theorem Coh.row_pop (lib : NumLib) (E : Nat → ℝ) (L : Leads) (hT : L.Herm)
    (hi : L.itype = 0 ∨ L.itype = 1 ∨ L.itype = 2 ∨ L.itype = 3) {fct : Nat → Nat → ℝ × ℝ}
    (hfct : ∀ q c b l, c ∈ v.R (q + 1) → b ∈ v.R q → l < v.nleads →
      fct l (la.ix1 q c b) = Pauli.amp E L l c b) (k0 k1 : KFct)
    (hk : ∀ l q x b, l < v.nleads → x ∈ v.R (q + 1) → b ∈ v.R q →
      k0 l q x b b = (amp1vN lib E L l x b).cur0 ∧ k1 l q x x b = (amp1vN lib E L l x b).cur1)
    {φ : Nat → ℝ} (hφ : ∀ i, v.npauli ≤ i → φ i = 0) {c b : Nat} (hb : b ∈ v.R c) :
    (S v L.Tba k0 k1 (dens v la φ) c b b).im
      = ∑ a ∈ v.Lo c, (Pauli.up v la fct (c - 1) b a * φ (la.lab (c - 1) a a)
          - Pauli.down v la fct (c - 1) b a * φ (la.lab c b b)) +
        ∑ x ∈ v.R (c + 1), (Pauli.down v la fct c x b * φ (la.lab (c + 1) x x)
          - Pauli.up v la fct c x b * φ (la.lab c b b)) := by
  have hG : ∀ q x b, x ∈ v.R (q + 1) → b ∈ v.R q →
      ∑ l ∈ range v.nleads, -2 * (Z v L.Tba k0 k1 (dens v la φ) l q x b).im =
      Pauli.up v la fct q x b * φ (la.lab q b b)
        - Pauli.down v la fct q x b * φ (la.lab (q + 1) x x) := by
    intro q x b hx hb
    unfold Pauli.up Pauli.down
    rw [sum_mul, sum_mul, ← sum_sub_distrib]
    refine sum_congr rfl fun l hl => ?_
    have hl := mem_range.1 hl
    rw [Coh.Z_pop h hT k0 k1 hφ hx hb, (hk l q x b hl hx hb).1, (hk l q x b hl hx hb).2,
      hfct q x b l hx hb hl, Complex.im_ofReal_mul, Complex.add_im, Complex.im_ofReal_mul,
      Complex.im_ofReal_mul]
    obtain ⟨r1, r2⟩ := amp1vN_rate lib E L hi l x b
    unfold Leads.rate at r1 r2
    simp only [Pauli.amp, hT.re]
    rw [← r1, ← r2]
    ring
  rw [← pauli_row_eq h hG hb, Coh.S_herm h L.Tba hT k0 k1 (dens v la φ)
    (fun q b bp hb hbp => h.dens_herm φ ((mem_R h).1 hbp) ((mem_R h).1 hb)) hb,
    Complex.add_im, Complex.im_sum, Complex.im_sum, sub_eq_add_neg, ← sum_neg_distrib]
  congr 1
  · refine sum_congr rfl fun a _ => ?_
    rw [Complex.im_sum]
    refine sum_congr rfl fun l _ => ?_
    rw [Complex.sub_im, Complex.conj_im]; ring
  · refine sum_congr rfl fun a _ => ?_
    rw [Complex.im_sum, ← sum_neg_distrib]
    refine sum_congr rfl fun l _ => ?_
    rw [Complex.sub_im, Complex.conj_im]; ring

/-- **C29**. For Hermitian tunnelling matrices the population block of the 1vN, Redfield and
Lindblad kernels is the Pauli kernel, for every `itype` from 0 to 3, whatever the values of the
principal parts. -/
theorem c29_populations (symq : Bool) (lib : NumLib) (E : Nat → ℝ) (L : Leads) (hT : L.Herm)
    (hi : L.itype = 0 ∨ L.itype = 1 ∨ L.itype = 2 ∨ L.itype = 3) :
    ∃ fct mP f t m1 m2 m3, Pauli.genFct v E L = .ok fct ∧ Pauli.kernel v symq fct = .ok mP ∧
      genFct1vN v lib E L = .ok f ∧ Lindblad.genFct v E L = .ok t ∧
      VN1.kernel v symq E L.Tba f = .ok m1 ∧ Redfield.kernel v symq E L.Tba f = .ok m2 ∧
      Lindblad.kernel v symq E t = .ok m3 ∧
      ∀ i j, i < v.npauli → j < v.npauli →
        m1.val i j = mP.val i j ∧ m2.val i j = mP.val i j ∧ m3.val i j = mP.val i j := by
  obtain ⟨fct, gP, hfct⟩ := Pauli.genFct_ok h E L
  obtain ⟨mP, gmP, hcP, _, rowsP⟩ := Pauli.kernel_rows h fct symq
  obtain ⟨f, gf, hf⟩ := fillFct_ok h (⟨0, 0, 0, 0⟩ : Amp) (amp1vN lib E L)
  obtain ⟨t, gt, ht⟩ := Lindblad.genFct_ok h E L
  obtain ⟨m1, g1, hc1, _, rows1⟩ := assemble_rows h symq E (VN1.coup v L.Tba f) _
    (fun c b bp hb hbp hi => VN1.coup_ok h L.Tba f hb hbp hi)
  obtain ⟨m2, g2, hc2, _, rows2⟩ := assemble_rows h symq E (Redfield.coup v L.Tba f) _
    (fun c b bp hb hbp hi => Redfield.coup_ok h L.Tba f hb hbp hi)
  obtain ⟨m3, g3, hc3, _, rows3⟩ := assemble_rows h symq E (Lindblad.coup v t) _
    (fun c b bp hb hbp hi => Lindblad.coup_ok h t hb hbp hi)
  have hk : ∀ l q x b, l < v.nleads → x ∈ v.R (q + 1) → b ∈ v.R q →
      f l (la.ix1 q x b) = amp1vN lib E L l x b :=
    fun l q x b hl hx hb => hf q x b l ((mem_R h).1 hx) ((mem_R h).1 hb) hl
  refine ⟨fct, mP, f, t, m1, m2, m3, gP, gmP, gf, gt, g1, g2, g3, ?_⟩
  have b1 := pop_block h hc1 hcP (fun φ hφ c b hb => by
    rw [pop_rows h rows1 φ hb, rowsP φ c b ((mem_R h).1 hb)]
    exact Coh.row_pop h lib E L hT hi hfct _ _
      (fun l q x b hl hx hb => ⟨congrArg _ (hk l q x b hl hx hb),
        congrArg _ (hk l q x b hl hx hb)⟩) hφ hb)
  have b2 := pop_block h hc2 hcP (fun φ hφ c b hb => by
    rw [pop_rows h rows2 φ hb, rowsP φ c b ((mem_R h).1 hb)]
    exact Coh.row_pop h lib E L hT hi hfct _ _
      (fun l q x b hl hx hb => ⟨congrArg _ (hk l q x b hl hx hb),
        congrArg _ (hk l q x b hl hx hb)⟩) hφ hb)
  have b3 := pop_block h hc3 hcP (fun φ hφ c b hb => by
    rw [pop_rows h (S := fun φ => Lindblad.S v t (dens v la φ)) rows3 φ hb,
      rowsP φ c b ((mem_R h).1 hb)]
    have hP : ∀ l q z x y, x ∈ v.R q → y ∈ v.R q → Lindblad.P t (dens v la φ) l q z x y
        = if x = y then ((Complex.normSq (t l z x) * φ (la.lab q x x) : ℝ) : ℂ) else 0 := by
      intro l q z x y hx hy
      unfold Lindblad.P
      rw [dens_pop h hφ hx hy]
      split
      · rename_i e
        subst e
        rw [Complex.mul_conj]; push_cast; ring
      · ring
    have hup : ∀ l q x b, l < v.nleads → x ∈ v.R (q + 1) → b ∈ v.R q →
        Complex.normSq (t l x b) = (fct l (la.ix1 q x b)).1 ∧
        Complex.normSq (t l b x) = (fct l (la.ix1 q x b)).2 := by
      intro l q x b hl hx hb
      obtain ⟨e1, e2⟩ := ht q x b l ((mem_R h).1 hx) ((mem_R h).1 hb) hl
      rw [hfct q x b l hx hb hl, e1, e2]
      simp only [Pauli.amp, hT.re, Complex.normSq_mul, Complex.normSq_ofReal]
      rw [Real.mul_self_sqrt (c32_pauli _ _ _ _ _ _).1,
        Real.mul_self_sqrt (c32_pauli _ _ _ _ _ _).2.1, hT l b x, Complex.normSq_conj]
      constructor <;> ring
    have one : ∀ q z x (r : Nat → ℝ), x ∈ v.R q →
        (∀ l, l < v.nleads → Complex.normSq (t l z x) = r l) →
        ∑ y ∈ v.R q, ∑ l ∈ range v.nleads, Lindblad.P t (dens v la φ) l q z x y
          = (((∑ l ∈ range v.nleads, r l) * φ (la.lab q x x) : ℝ) : ℂ) := by
      intro q z x r hx hr
      rw [sum_eq_single_of_mem x hx]
      · rw [sum_mul]
        push_cast
        refine sum_congr rfl fun l hl => ?_
        rw [hP l q z x x hx hx, if_pos rfl, hr l (mem_range.1 hl)]
        push_cast; rfl
      · intro y hy hne
        exact sum_eq_zero fun l _ => by rw [hP l q z x y hx hy, if_neg (Ne.symm hne)]
    have two : ∀ q z x (r : Nat → ℝ), x ∈ v.R q →
        (∀ l, l < v.nleads → Complex.normSq (t l z x) = r l) →
        ∑ y ∈ v.R q, ∑ l ∈ range v.nleads, -(1 / 2) * (Lindblad.P t (dens v la φ) l q z y x
            + Lindblad.P t (dens v la φ) l q z x y)
          = -(((∑ l ∈ range v.nleads, r l) * φ (la.lab q x x) : ℝ) : ℂ) := by
      intro q z x r hx hr
      rw [sum_eq_single_of_mem x hx]
      · rw [sum_mul]
        push_cast
        rw [← sum_neg_distrib]
        refine sum_congr rfl fun l hl => ?_
        rw [hP l q z x x hx hx, if_pos rfl, hr l (mem_range.1 hl)]
        push_cast; ring
      · intro y hy hne
        exact sum_eq_zero fun l _ => by
          rw [hP l q z x y hx hy, hP l q z y x hy hx, if_neg (Ne.symm hne), if_neg hne]; ring
    have hD : ∀ q x b, x ∈ v.R (q + 1) → b ∈ v.R q → Lindblad.D v t (dens v la φ) q x b
        = ((Pauli.up v la fct q x b * φ (la.lab q b b)
        - Pauli.down v la fct q x b * φ (la.lab (q + 1) x x) : ℝ) : ℂ) := by
      intro q x b hx hb
      unfold Lindblad.D
      rw [one q x b _ hb (fun l hl => (hup l q x b hl hx hb).1),
        two (q + 1) b x _ hx (fun l hl => (hup l q x b hl hx hb).2)]
      unfold Pauli.up Pauli.down
      rw [Complex.ofReal_sub, sub_eq_add_neg]
    have hU : ∀ q x b, x ∈ v.R (q + 1) → b ∈ v.R q → Lindblad.U v t (dens v la φ) q x b
        = -((Pauli.up v la fct q x b * φ (la.lab q b b)
        - Pauli.down v la fct q x b * φ (la.lab (q + 1) x x) : ℝ) : ℂ) := by
      intro q x b hx hb
      unfold Lindblad.U
      rw [one (q + 1) b x _ hx (fun l hl => (hup l q x b hl hx hb).2),
        two q x b _ hb (fun l hl => (hup l q x b hl hx hb).1)]
      unfold Pauli.up Pauli.down
      rw [Complex.ofReal_sub]
      ring
    rw [Lindblad.S_diag h, ← pauli_row_eq h (G := fun q x b => Pauli.up v la fct q x b *
      φ (la.lab q b b) - Pauli.down v la fct q x b * φ (la.lab (q + 1) x x))
      (fun q x b _ _ => rfl) hb, Complex.I_mul_im, Complex.add_re, Complex.re_sum, Complex.re_sum,
      sub_eq_add_neg, ← sum_neg_distrib]
    congr 1
    · refine sum_congr rfl fun a ha => ?_
      obtain ⟨h0, ha', _⟩ := h.low_mem (by simpa [View.Lo] using ha)
      rw [hD (c - 1) b a (by rw [Nat.sub_add_cancel h0]; exact hb) ((mem_R h).2 ha'),
        Complex.ofReal_re]
    · refine sum_congr rfl fun x hx => ?_
      rw [hU c x b hx hb, Complex.neg_re, Complex.ofReal_re])
  exact fun i j hi' hj => ⟨b1 i j hi' hj, b2 i j hi' hj, b3 i j hi' hj⟩

end

/-- The hypotheses are met by a system of two single particle states and two leads in which
the two states of charge one have a coherence. -/
example : ∃ (v : View) (la : Lab) (L : Leads), VOk v la ∧ v.npauli = 4 ∧ v.ndm0r = 6 ∧
    v.R 1 = {1, 2} ∧ L.Herm ∧ L.itype = 0 ∧ L.Tba 0 0 1 ≠ 0 ∧ v.nleads = 2 := by
  obtain ⟨d, _, hv, hs, hp, hn⟩ := view_example
  refine ⟨d.view 2, d.labOf, ⟨fun _ => 0, fun _ => 1, fun _ => -60, fun _ => 60,
    fun _ b c => if b = c then 0 else if b < c then Complex.I else -Complex.I, 0, 10000⟩,
    hv, hp, hn, ?_, ?_, rfl, by simp, rfl⟩
  · ext x; simp [View.R, View.row, DM.view, hs]
  · intro l b c
    simp only
    rcases lt_trichotomy b c with h1 | h1 | h1
    · rw [if_neg (by omega), if_pos h1, if_neg (by omega), if_neg (by omega)]; simp
    · subst h1; simp
    · rw [if_neg (by omega), if_neg (by omega), if_neg (by omega), if_pos h1]; simp

end

end Verif
