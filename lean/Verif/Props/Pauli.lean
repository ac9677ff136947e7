import Verif.Lemmas.Pauli
import Verif.Lemmas.Stationary
import Verif.Props.Specfunc
import Verif.Props.View

/-! C17-C21, C48: the Pauli master equation. The positions of the populations in the kernel are
given by the labels `la.lab c b b` of `Verif.Spec.Labels`; the labels below `npauli` are exactly
these. `v.R c` is the set of considered states of charge `c`. -/

namespace Verif

open Finset
open scoped ComplexConjugate

noncomputable section

/-- Rate factor of lead `l` for a transition with energy `x`: electrons (`.1`) and holes (`.2`). -/
def Leads.rate (L : Leads) (l : Nat) (x : ℝ) : ℝ × ℝ :=
  funcPauli x (L.mu l) (L.T l) (L.Dm l) (L.Dp l) L.itype

/-- The tunnelling matrices are Hermitian. -/
def Leads.Herm (L : Leads) : Prop := ∀ l b c, L.Tba l b c = conj (L.Tba l c b)

theorem Leads.Herm.re {L : Leads} (hT : L.Herm) (l b c : Nat) :
    (L.Tba l b c * L.Tba l c b).re = Complex.normSq (L.Tba l c b) := by
  rw [hT l b c, mul_comm, Complex.mul_conj]
  simp

/-- All transition energies between considered states are below the cut-off of `fermi_func`. -/
def BelowCut (v : View) (E : Nat → ℝ) (L : Leads) : Prop :=
  ∀ l q c b, l < v.nleads → c ∈ v.R (q + 1) → b ∈ v.R q → (E c - E b - L.mu l) / L.T l ≤ 709.77

/-- Detailed balance of the rate factors. -/
theorem Leads.rate_balance (L : Leads) (l : Nat) (x : ℝ) (hx : (x - L.mu l) / L.T l ≤ 709.77) :
    (L.rate l x).2 = (L.rate l x).1 * Real.exp ((x - L.mu l) / L.T l) := by
  unfold Leads.rate funcPauli
  simp only
  split
  · simp only
    rw [c32_fermi.2.2.2.2.1 _ hx]
    have := Real.exp_pos ((x - L.mu l) / L.T l)
    have : Real.exp ((x - L.mu l) / L.T l) + 1 ≠ 0 := by positivity
    field_simp
    ring
  · simp

section
variable {v : View} {la : Lab} (h : VOk v la)
include h

theorem Pauli.genFct_ok (E : Nat → ℝ) (L : Leads) :
    ∃ fct, Pauli.genFct v E L = .ok fct ∧ ∀ q c b l, c ∈ v.R (q + 1) → b ∈ v.R q → l < v.nleads →
      fct l (la.ix1 q c b) = Pauli.amp E L l c b := by
  obtain ⟨fct, g, hf⟩ := fillFct_ok h (0, 0) (Pauli.amp E L)
  exact ⟨fct, g, fun q c b l hc hb hl => hf q c b l ((mem_R h).1 hc) ((mem_R h).1 hb) hl⟩

/-- **C17**. Every column of the Pauli kernel sums to zero, whatever the factors; hence the total
probability does not change for any vector. -/
theorem c17_probability (symq : Bool) (fct : Nat → Nat → ℝ × ℝ) :
    ∃ m, Pauli.kernel v symq fct = .ok m ∧ m.cols = v.npauli ∧
      m.rows = (if symq then v.npauli else v.npauli + 1) ∧
      (∀ j, j < v.npauli → ∑ i ∈ range v.npauli, m.val i j = 0) ∧
      (∀ φ : Nat → ℝ, ∑ i ∈ range v.npauli, ∑ j ∈ range v.npauli, m.val i j * φ j = 0) := by
  obtain ⟨m, g, hc, hr, rows⟩ := Pauli.kernel_rows h fct symq
  have key : ∀ φ : Nat → ℝ, ∑ i ∈ range v.npauli, m.app φ i = 0 := by
    intro φ
    have := Pauli.kernel_weighted h rows (fun _ _ => 1) φ
    simp only [one_mul, sub_self, zero_mul, sum_const_zero] at this
    rw [sum_pop h, this]
  refine ⟨m, g, hc, hr, ?_, ?_⟩
  · intro j hj
    rw [← key (fun k => if k = j then 1 else 0)]
    exact sum_congr rfl fun i _ => m.val_eq_app (by rw [hc]; exact hj)
  · intro φ
    rw [← key φ]
    apply sum_congr rfl; intro i _
    unfold Mat.app; rw [hc]

/-- **C18**. With Hermitian tunnelling matrices the entry of the Pauli kernel for `a → b` is the
sum over leads of `|T|²` times the electron or hole factor, and zero unless the charges differ
by one; off-diagonal entries are nonnegative and diagonal ones nonpositive. -/
theorem c18_rate_matrix (symq : Bool) (E : Nat → ℝ) (L : Leads) (hT : L.Herm) :
    ∃ fct m, Pauli.genFct v E L = .ok fct ∧ Pauli.kernel v symq fct = .ok m ∧
      (∀ c b c' a, b ∈ v.R c → a ∈ v.R c' → (c, b) ≠ (c', a) →
        (c = c' + 1 → m.val (la.lab c b b) (la.lab c' a a) =
          ∑ l ∈ range v.nleads, Complex.normSq (L.Tba l b a) * (L.rate l (E b - E a)).1) ∧
        (c' = c + 1 → m.val (la.lab c b b) (la.lab c' a a) =
          ∑ l ∈ range v.nleads, Complex.normSq (L.Tba l b a) * (L.rate l (E a - E b)).2) ∧
        (c ≠ c' + 1 → c' ≠ c + 1 → m.val (la.lab c b b) (la.lab c' a a) = 0) ∧
        0 ≤ m.val (la.lab c b b) (la.lab c' a a)) ∧
      (∀ c b, b ∈ v.R c → m.val (la.lab c b b) (la.lab c b b) ≤ 0) := by
  obtain ⟨fct, gf, hf⟩ := Pauli.genFct_ok h E L
  obtain ⟨m, g, hc, hr, rows⟩ := Pauli.kernel_rows h fct symq
  have hsym : ∀ l b a, Complex.normSq (L.Tba l b a) = Complex.normSq (L.Tba l a b) := by
    intro l b a; rw [hT l b a, Complex.normSq_conj]
  have hup : ∀ q c b, c ∈ v.R (q + 1) → b ∈ v.R q → Pauli.up v la fct q c b =
      ∑ l ∈ range v.nleads, Complex.normSq (L.Tba l c b) * (L.rate l (E c - E b)).1 := by
    intro q c b hc hb
    refine sum_congr rfl fun l hl => ?_
    rw [hf q c b l hc hb (mem_range.1 hl)]
    simp only [Pauli.amp, hT.re]
    rfl
  have hdn : ∀ q c b, c ∈ v.R (q + 1) → b ∈ v.R q → Pauli.down v la fct q c b =
      ∑ l ∈ range v.nleads, Complex.normSq (L.Tba l c b) * (L.rate l (E c - E b)).2 := by
    intro q c b hc hb
    refine sum_congr rfl fun l hl => ?_
    rw [hf q c b l hc hb (mem_range.1 hl)]
    simp only [Pauli.amp, hT.re]
    rfl
  have p1 : ∀ l x, 0 ≤ (L.rate l x).1 := fun l x => (c32_pauli _ _ _ _ _ _).1
  have p2 : ∀ l x, 0 ≤ (L.rate l x).2 := fun l x => (c32_pauli _ _ _ _ _ _).2.1
  have hup0 : ∀ q c b, c ∈ v.R (q + 1) → b ∈ v.R q → 0 ≤ Pauli.up v la fct q c b := by
    intro q c b hc hb
    rw [hup q c b hc hb]
    exact sum_nonneg fun l _ => mul_nonneg (Complex.normSq_nonneg _) (p1 _ _)
  have hdn0 : ∀ q c b, c ∈ v.R (q + 1) → b ∈ v.R q → 0 ≤ Pauli.down v la fct q c b := by
    intro q c b hc hb
    rw [hdn q c b hc hb]
    exact sum_nonneg fun l _ => mul_nonneg (Complex.normSq_nonneg _) (p2 _ _)
  refine ⟨fct, m, gf, g, ?_, ?_⟩
  · intro c b c' a hb ha hne
    have ent := Pauli.kernel_entries h hc rows ((mem_R h).1 hb) ((mem_R h).1 ha)
    have hne' : ¬ (c = c' ∧ b = a) := fun e => hne (by rw [e.1, e.2])
    rw [if_neg hne', sub_zero] at ent
    refine ⟨?_, ?_, ?_, ?_⟩
    · rintro rfl
      rw [ent, if_pos rfl, if_neg (by omega), add_zero, hup c' b a hb ha]
    · rintro rfl
      rw [ent, if_pos rfl, if_neg (by omega), zero_add, hdn c a b ha hb]
      exact sum_congr rfl fun l _ => by rw [hsym l b a]
    · intro h1 h2
      rw [ent, if_neg (by omega), if_neg h2, add_zero]
    · rw [ent]
      apply add_nonneg
      · split
        · rename_i e; subst e; exact hup0 c' b a hb ha
        · exact le_refl _
      · split
        · rename_i e; subst e; exact hdn0 c a b ha hb
        · exact le_refl _
  · intro c b hb
    have ent := Pauli.kernel_entries h hc rows ((mem_R h).1 hb) ((mem_R h).1 hb)
    rw [if_neg (by omega), if_neg (by omega), if_pos ⟨rfl, rfl⟩] at ent
    rw [ent]
    have s1 : 0 ≤ ∑ y ∈ v.Lo c, Pauli.down v la fct (c - 1) b y := by
      apply sum_nonneg
      intro y hy
      obtain ⟨h0, hy', _⟩ := h.low_mem (by simpa [View.Lo] using hy)
      exact hdn0 (c - 1) b y (by rw [Nat.sub_add_cancel h0]; exact hb) ((mem_R h).2 hy')
    have s2 : 0 ≤ ∑ x ∈ v.R (c + 1), Pauli.up v la fct c x b :=
      sum_nonneg fun x hx => hup0 c x b hx hb
    linarith

/-- **C19**. The particle currents add up to the time derivative of the mean electron number,
and to zero in any vector annihilated by the kernel. -/
theorem c19_particle_current (symq : Bool) (E : Nat → ℝ) (fct : Nat → Nat → ℝ × ℝ) (φ : Vec)
    (hs : φ.size = v.npauli) :
    ∃ m evs, Pauli.kernel v symq fct = .ok m ∧ Pauli.genCurrent v E fct φ = .ok evs ∧
      ∑ l ∈ range v.nleads, current evs l
        = ∑ q ∈ range v.ncharge, ∑ b ∈ v.R q,
          (q : ℝ) * ∑ j ∈ range v.npauli, m.val (la.lab q b b) j * φ.val j ∧
      ((∀ i, i < v.npauli → ∑ j ∈ range v.npauli, m.val i j * φ.val j = 0) →
        ∑ l ∈ range v.nleads, current evs l = 0) := by
  obtain ⟨m, g, hc, hr, rows⟩ := Pauli.kernel_rows h fct symq
  obtain ⟨evs, ge, hev⟩ := Pauli.genCurrent_ok h E fct φ (by omega)
  have key : ∑ l ∈ range v.nleads, current evs l
        = ∑ q ∈ range v.ncharge, ∑ b ∈ v.R q,
          (q : ℝ) * ∑ j ∈ range v.npauli, m.val (la.lab q b b) j * φ.val j := by
    have e := Pauli.kernel_weighted h rows (fun q _ => (q : ℝ)) φ.val
    unfold Mat.app at e
    rw [hc] at e
    rw [e, sum_congr rfl fun l hl => (hev l (mem_range.1 hl)).1, sum_comm]
    refine sum_congr rfl fun q _ => ?_
    rw [sum_comm]
    refine sum_congr rfl fun c _ => ?_
    rw [sum_comm]
    refine sum_congr rfl fun b _ => ?_
    simp only [Pauli.up, Pauli.down, mul_sum, ← sum_sub_distrib]
    refine sum_congr rfl fun l _ => ?_
    push_cast
    ring
  refine ⟨m, evs, g, ge, key, ?_⟩
  intro hz
  rw [key]
  apply sum_eq_zero; intro q _
  apply sum_eq_zero; intro b hb
  rw [hz _ (h.lab_diag q b ((mem_R h).1 hb)), mul_zero]

/-- **C20**. The energy currents add up to the time derivative of the mean energy, and to zero in
any vector annihilated by the kernel; in that case the heat currents add up to
`-∑ mu_l I_l`. -/
theorem c20_energy_current (symq : Bool) (E : Nat → ℝ) (L : Leads) (fct : Nat → Nat → ℝ × ℝ)
    (φ : Vec) (hs : φ.size = v.npauli) :
    ∃ m evs, Pauli.kernel v symq fct = .ok m ∧ Pauli.genCurrent v E fct φ = .ok evs ∧
      ∑ l ∈ range v.nleads, energyCurrent evs l
        = ∑ q ∈ range v.ncharge, ∑ b ∈ v.R q,
          E b * ∑ j ∈ range v.npauli, m.val (la.lab q b b) j * φ.val j ∧
      ((∀ i, i < v.npauli → ∑ j ∈ range v.npauli, m.val i j * φ.val j = 0) →
        ∑ l ∈ range v.nleads, energyCurrent evs l = 0 ∧
        ∑ l ∈ range v.nleads, heatCurrent L evs l
          = -∑ l ∈ range v.nleads, L.mu l * current evs l) := by
  obtain ⟨m, g, hc, hr, rows⟩ := Pauli.kernel_rows h fct symq
  obtain ⟨evs, ge, hev⟩ := Pauli.genCurrent_ok h E fct φ (by omega)
  have key : ∑ l ∈ range v.nleads, energyCurrent evs l
        = ∑ q ∈ range v.ncharge, ∑ b ∈ v.R q,
          E b * ∑ j ∈ range v.npauli, m.val (la.lab q b b) j * φ.val j := by
    have e := Pauli.kernel_weighted h rows (fun _ b => E b) φ.val
    unfold Mat.app at e
    rw [hc] at e
    rw [e, sum_congr rfl fun l hl => (hev l (mem_range.1 hl)).2, sum_comm]
    refine sum_congr rfl fun q _ => ?_
    rw [sum_comm]
    refine sum_congr rfl fun c _ => ?_
    rw [sum_comm]
    refine sum_congr rfl fun b _ => ?_
    simp only [Pauli.up, Pauli.down, mul_sum, ← sum_sub_distrib]
  refine ⟨m, evs, g, ge, key, ?_⟩
  intro hz
  have h0 : ∑ l ∈ range v.nleads, energyCurrent evs l = 0 := by
    rw [key]
    apply sum_eq_zero; intro q _
    apply sum_eq_zero; intro b hb
    rw [hz _ (h.lab_diag q b ((mem_R h).1 hb)), mul_zero]
  refine ⟨h0, ?_⟩
  simp only [heatCurrent, sum_sub_distrib, h0, zero_sub]
  congr 1
  exact sum_congr rfl fun l _ => mul_comm _ _

/-- **C21**. If all leads have the same temperature `T > 0` and chemical potential `mu`, and no
transition energy is above the cut-off of `fermi_func`, then the grand canonical distribution is
annihilated by the Pauli kernel, and in it every particle, energy and heat current is zero. -/
theorem c21_equilibrium (symq : Bool) (E : Nat → ℝ) (L : Leads) (T mu Z : ℝ) (hT : 0 < T)
    (hTl : ∀ l, l < v.nleads → L.T l = T) (hmu : ∀ l, l < v.nleads → L.mu l = mu)
    (hcut : BelowCut v E L) (φ : Vec) (hs : φ.size = v.npauli)
    (hφ : ∀ c b, b ∈ v.R c → φ.val (la.lab c b b) = Real.exp (-(E b - mu * c) / T) / Z) :
    ∃ fct m evs, Pauli.genFct v E L = .ok fct ∧ Pauli.kernel v symq fct = .ok m ∧
      Pauli.genCurrent v E fct φ = .ok evs ∧
      (∀ i, i < v.npauli → ∑ j ∈ range v.npauli, m.val i j * φ.val j = 0) ∧
      ∀ l, l < v.nleads → current evs l = 0 ∧ energyCurrent evs l = 0 ∧ heatCurrent L evs l = 0 := by
  obtain ⟨fct, gf, hf⟩ := Pauli.genFct_ok h E L
  obtain ⟨m, g, hc, hr, rows⟩ := Pauli.kernel_rows h fct symq
  obtain ⟨evs, ge, hev⟩ := Pauli.genCurrent_ok h E fct φ (by omega)
  -- detailed balance lead by lead
  have db : ∀ q c b l, c ∈ v.R (q + 1) → b ∈ v.R q → l < v.nleads →
      φ.val (la.lab q b b) * (fct l (la.ix1 q c b)).1
        = φ.val (la.lab (q + 1) c c) * (fct l (la.ix1 q c b)).2 := by
    intro q c b l hcc hb hl
    have hx := hcut l q c b hl hcc hb
    have hr := L.rate_balance l (E c - E b) hx
    rw [hf q c b l hcc hb hl, hφ q b hb, hφ (q + 1) c hcc]
    simp only [Pauli.amp]
    unfold Leads.rate at hr
    rw [hr, hTl l hl, hmu l hl]
    have : Real.exp (-(E c - mu * ((q + 1 : Nat) : ℝ)) / T) * Real.exp ((E c - E b - mu) / T)
        = Real.exp (-(E b - mu * q) / T) := by
      rw [← Real.exp_add]
      congr 1
      field_simp
      push_cast
      ring
    rw [← this]
    ring
  have dbs : ∀ q c b, c ∈ v.R (q + 1) → b ∈ v.R q →
      Pauli.up v la fct q c b * φ.val (la.lab q b b)
        = Pauli.down v la fct q c b * φ.val (la.lab (q + 1) c c) := by
    intro q c b hcc hb
    simp only [Pauli.up, Pauli.down, sum_mul]
    refine sum_congr rfl fun l hl => ?_
    have := db q c b l hcc hb (mem_range.1 hl)
    linarith
  have cur0 : ∀ l, l < v.nleads → current evs l = 0 := by
    intro l hl
    rw [(hev l hl).1]
    apply sum_eq_zero; intro q _
    apply sum_eq_zero; intro c hcc
    apply sum_eq_zero; intro b hb
    rw [db q c b l hcc hb hl, sub_self]
  have en0 : ∀ l, l < v.nleads → energyCurrent evs l = 0 := by
    intro l hl
    rw [(hev l hl).2]
    apply sum_eq_zero; intro q _
    apply sum_eq_zero; intro c hcc
    apply sum_eq_zero; intro b hb
    rw [db q c b l hcc hb hl, sub_self, mul_zero]
  refine ⟨fct, m, evs, gf, g, ge, ?_, ?_⟩
  · intro i hi
    obtain ⟨c, b, bp, hb, hbp, hin, e⟩ := h.lab_surj i (lt_of_lt_of_le hi h.np_le)
    have hbb : b = bp := by
      by_contra hne
      have := (h.lab_off c b bp hb hbp hne hin).1
      omega
    subst hbb
    have := rows φ.val c b hb
    unfold Mat.app at this
    rw [hc, e] at this
    rw [this]
    have s1 : ∑ a ∈ v.Lo c, (Pauli.up v la fct (c - 1) b a * φ.val (la.lab (c - 1) a a)
          - Pauli.down v la fct (c - 1) b a * φ.val i) = 0 := by
      apply sum_eq_zero
      intro a ha
      obtain ⟨h0, ha', _⟩ := h.low_mem (by simpa [View.Lo] using ha)
      have ec : c - 1 + 1 = c := Nat.sub_add_cancel h0
      have := dbs (c - 1) b a (by rw [ec]; exact (mem_R h).2 hb) ((mem_R h).2 ha')
      rw [ec, e] at this
      rw [this, sub_self]
    have s2 : ∑ x ∈ v.R (c + 1), (Pauli.down v la fct c x b * φ.val (la.lab (c + 1) x x)
          - Pauli.up v la fct c x b * φ.val i) = 0 := by
      apply sum_eq_zero
      intro x hx
      have := dbs c x b hx ((mem_R h).2 hb)
      rw [e] at this
      rw [this, sub_self]
    rw [s1, s2, add_zero]
  · intro l hl
    exact ⟨cur0 l hl, en0 l hl, by rw [heatCurrent, cur0 l hl, en0 l hl]; ring⟩

/-- **C48**. Second law: in a vector of positive probabilities annihilated by the Pauli kernel,
with Hermitian tunnelling matrices, positive temperatures and transition energies below the
cut-off of `fermi_func`, the sum of `heat_current[l] / T_l` is not positive. -/
theorem c48_second_law (symq : Bool) (E : Nat → ℝ) (L : Leads) (hT : L.Herm)
    (hTl : ∀ l, l < v.nleads → 0 < L.T l) (hcut : BelowCut v E L) (φ : Vec)
    (hs : φ.size = v.npauli) (hpos : ∀ i, i < v.npauli → 0 < φ.val i) :
    ∃ fct m evs, Pauli.genFct v E L = .ok fct ∧ Pauli.kernel v symq fct = .ok m ∧
      Pauli.genCurrent v E fct φ = .ok evs ∧
      ((∀ i, i < v.npauli → ∑ j ∈ range v.npauli, m.val i j * φ.val j = 0) →
        ∑ l ∈ range v.nleads, heatCurrent L evs l / L.T l ≤ 0) := by
  obtain ⟨fct, gf, hf⟩ := Pauli.genFct_ok h E L
  obtain ⟨m, g, hc, hr, rows⟩ := Pauli.kernel_rows h fct symq
  obtain ⟨evs, ge, hev⟩ := Pauli.genCurrent_ok h E fct φ (by omega)
  refine ⟨fct, m, evs, gf, g, ge, ?_⟩
  intro hz
  let P : Nat → Nat → ℝ := fun q b => φ.val (la.lab q b b)
  have hP : ∀ q b, b ∈ v.R q → 0 < P q b := fun q b hb =>
    hpos _ (h.lab_diag q b ((mem_R h).1 hb))
  -- one transition in one lead
  have one : ∀ q c b l, c ∈ v.R (q + 1) → b ∈ v.R q → l < v.nleads →
      (E c - E b - L.mu l) / L.T l *
        (P q b * (fct l (la.ix1 q c b)).1 - P (q + 1) c * (fct l (la.ix1 q c b)).2)
      ≤ (Real.log (P q b) - Real.log (P (q + 1) c)) *
        (P q b * (fct l (la.ix1 q c b)).1 - P (q + 1) c * (fct l (la.ix1 q c b)).2) := by
    intro q c b l hcc hb hl
    have hx := hcut l q c b hl hcc hb
    have hr := L.rate_balance l (E c - E b) hx
    have hw1 : 0 ≤ (fct l (la.ix1 q c b)).1 := by
      rw [hf q c b l hcc hb hl]
      simp only [Pauli.amp, hT.re]
      exact mul_nonneg (Complex.normSq_nonneg _) (c32_pauli _ _ _ _ _ _).1
    have hw2 : (fct l (la.ix1 q c b)).2
        = (fct l (la.ix1 q c b)).1 * Real.exp ((E c - E b - L.mu l) / L.T l) := by
      rw [hf q c b l hcc hb hl]
      simp only [Pauli.amp]
      unfold Leads.rate at hr
      rw [hr]; ring
    generalize (fct l (la.ix1 q c b)).1 = w1 at *
    generalize (fct l (la.ix1 q c b)).2 = w2 at *
    generalize (E c - E b - L.mu l) / L.T l = x at *
    have hp := hP q b hb
    have hp' := hP (q + 1) c hcc
    rcases hw1.eq_or_lt with e | hw1
    · subst e; rw [hw2]; simp
    · have hex := Real.exp_pos x
      have hw2' : 0 < w2 := by rw [hw2]; positivity
      have hlog : Real.log (P q b * w1) - Real.log (P (q + 1) c * w2)
          = Real.log (P q b) - Real.log (P (q + 1) c) - x := by
        rw [Real.log_mul hp.ne' hw1.ne', Real.log_mul hp'.ne' hw2'.ne', hw2,
          Real.log_mul hw1.ne' hex.ne', Real.log_exp]
        ring
      have hu : 0 < P q b * w1 := mul_pos hp hw1
      have hw : 0 < P (q + 1) c * w2 := mul_pos hp' hw2'
      have : 0 ≤ (Real.log (P q b * w1) - Real.log (P (q + 1) c * w2))
          * (P q b * w1 - P (q + 1) c * w2) := by
        rcases le_total (P q b * w1) (P (q + 1) c * w2) with h1 | h1
        · exact mul_nonneg_of_nonpos_of_nonpos (by linarith [Real.log_le_log hu h1]) (by linarith)
        · exact mul_nonneg (by linarith [Real.log_le_log hw h1]) (by linarith)
      rw [hlog] at this
      linarith
  have hl : ∀ l ∈ range v.nleads, heatCurrent L evs l / L.T l ≤
      ∑ q ∈ range (v.ncharge - 1), ∑ c ∈ v.R (q + 1), ∑ b ∈ v.R q,
        (Real.log (P q b) - Real.log (P (q + 1) c)) *
          (P q b * (fct l (la.ix1 q c b)).1 - P (q + 1) c * (fct l (la.ix1 q c b)).2) := by
    intro l hl
    have hl' := mem_range.1 hl
    have : heatCurrent L evs l / L.T l = ∑ q ∈ range (v.ncharge - 1), ∑ c ∈ v.R (q + 1),
        ∑ b ∈ v.R q, (E c - E b - L.mu l) / L.T l *
          (P q b * (fct l (la.ix1 q c b)).1 - P (q + 1) c * (fct l (la.ix1 q c b)).2) := by
      rw [heatCurrent, (hev l hl').1, (hev l hl').2, sum_mul, ← sum_sub_distrib, sum_div]
      refine sum_congr rfl fun q _ => ?_
      rw [sum_mul, ← sum_sub_distrib, sum_div]
      refine sum_congr rfl fun c _ => ?_
      rw [sum_mul, ← sum_sub_distrib, sum_div]
      refine sum_congr rfl fun b _ => ?_
      simp only [P]
      ring
    rw [this]
    exact sum_le_sum fun q _ => sum_le_sum fun c hcc => sum_le_sum fun b hb =>
      one q c b l hcc hb hl'
  refine (sum_le_sum hl).trans (le_of_eq ?_)
  have e := Pauli.kernel_weighted h rows (fun q b => -Real.log (P q b)) φ.val
  have z : ∑ q ∈ range v.ncharge, ∑ b ∈ v.R q,
      -Real.log (P q b) * m.app φ.val (la.lab q b b) = 0 := by
    apply sum_eq_zero; intro q _
    apply sum_eq_zero; intro b hb
    have := hz _ (h.lab_diag q b ((mem_R h).1 hb))
    unfold Mat.app
    rw [hc, this, mul_zero]
  rw [z] at e
  rw [e, sum_comm]
  refine sum_congr rfl fun q _ => ?_
  rw [sum_comm]
  refine sum_congr rfl fun c _ => ?_
  rw [sum_comm]
  refine sum_congr rfl fun b _ => ?_
  simp only [Pauli.up, Pauli.down, mul_sum, ← sum_sub_distrib, P]
  refine sum_congr rfl fun l _ => ?_
  ring

/-- **C22**. Every Pauli kernel with Hermitian tunnelling matrices and at least one considered
state annihilates a probability distribution. -/
theorem c22_stationary (symq : Bool) (E : Nat → ℝ) (L : Leads) (hT : L.Herm)
    (hne : 0 < v.npauli) :
    ∃ fct m, Pauli.genFct v E L = .ok fct ∧ Pauli.kernel v symq fct = .ok m ∧
      ∃ p : Nat → ℝ, (∀ i, i < v.npauli → 0 ≤ p i) ∧ ∑ i ∈ range v.npauli, p i = 1 ∧
        ∀ i, i < v.npauli → ∑ j ∈ range v.npauli, m.val i j * p j = 0 := by
  obtain ⟨fct, m, gf, g, hoff, _⟩ := c18_rate_matrix h symq E L hT
  obtain ⟨m', g', hc, _, hcol, _⟩ := c17_probability h symq fct
  rw [g] at g'
  simp only [Except.ok.injEq] at g'
  subst g'
  refine ⟨fct, m, gf, g, exists_stationary hne m.val hcol ?_⟩
  intro i j hi hj hij
  have diag : ∀ k, k < v.npauli → ∃ c b, b ∈ v.row c ∧ la.lab c b b = k := by
    intro k hk
    obtain ⟨c, b, bp, hb, hbp, hin, e⟩ := h.lab_surj k (lt_of_lt_of_le hk h.np_le)
    have hbb : b = bp := by
      by_contra hne
      have := (h.lab_off c b bp hb hbp hne hin).1
      omega
    subst hbb
    exact ⟨c, b, hb, e⟩
  obtain ⟨c, b, hb, rfl⟩ := diag i hi
  obtain ⟨c', a, ha, rfl⟩ := diag j hj
  refine (hoff c b c' a ((mem_R h).2 hb) ((mem_R h).2 ha) ?_).2.2.2
  intro e
  simp only [Prod.mk.injEq] at e
  obtain ⟨rfl, rfl⟩ := e
  exact hij rfl

end

/-- The hypotheses are met by a system of two single particle states and two leads. -/
example : ∃ (v : View) (la : Lab) (E : Nat → ℝ) (L : Leads), VOk v la ∧ v.npauli = 4 ∧
    v.R 1 = {1, 2} ∧ L.Herm ∧ BelowCut v E L ∧ (∀ l, l < v.nleads → 0 < L.T l) ∧
    L.Tba 0 0 1 ≠ 0 ∧ v.nleads = 2 := by
  obtain ⟨d, _, hv, hs, hp, _⟩ := view_example
  refine ⟨d.view 2, d.labOf, fun b => b, ⟨fun _ => 0, fun _ => 1, fun _ => -60, fun _ => 60,
    fun _ b c => if b = c then 0 else if b < c then Complex.I else -Complex.I, 2, 10000⟩,
    hv, hp, ?_, ?_, ?_, by simp, by simp, rfl⟩
  · ext x; simp [View.R, View.row, DM.view, hs]
  · intro l b c
    simp only
    rcases lt_trichotomy b c with h1 | h1 | h1
    · rw [if_neg (by omega), if_pos h1, if_neg (by omega), if_neg (by omega)]; simp
    · subst h1; simp
    · rw [if_neg (by omega), if_neg (by omega), if_neg (by omega), if_pos h1]; simp
  · intro l q c b _ hc hb
    have hc' : c ≤ 3 := by
      simp only [View.R, View.row, DM.view, hs, List.mem_toFinset] at hc
      rcases q with _ | _ | _ | q <;> simp at hc <;> omega
    have : (c : ℝ) ≤ 3 := by exact_mod_cast hc'
    have : (0 : ℝ) ≤ b := by positivity
    simp only [sub_zero, div_one]
    linarith

end

end Verif
