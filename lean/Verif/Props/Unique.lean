import Verif.Lemmas.Markov
import Verif.Spec.Hops
import Verif.Props.Solve

/-! C93: when the stationary state of the Pauli approach is unique. -/

namespace Verif

open Finset

noncomputable section

section
variable {v : View} {la : Lab} (h : VOk v la)
include h

theorem pop_label {k : Nat} (hk : k < v.npauli) : ∃ c b, b ∈ v.row c ∧ la.lab c b b = k := by
  obtain ⟨c, b, bp, hb, hbp, hin, e⟩ := h.lab_surj k (lt_of_lt_of_le hk h.np_le)
  have hbb : b = bp := by
    by_contra hne
    have := (h.lab_off c b bp hb hbp hne hin).1
    omega
  subst hbb
  exact ⟨c, b, hb, e⟩

theorem pop_inj {c b c' a : Nat} (hb : b ∈ v.row c) (ha : a ∈ v.row c') (e : la.lab c b b = la.lab c' a a) :
    c = c' ∧ b = a := by
  have := h.lab_inj c b b c' a a hb hb (h.inc_diag c b hb) ha ha (h.inc_diag c' a ha) e
  omega

variable {E : Nat → ℝ} {L : Leads} {m : Mat}
  (hoff : ∀ c b c' a, b ∈ v.R c → a ∈ v.R c' → (c, b) ≠ (c', a) →
    (c = c' + 1 → m.val (la.lab c b b) (la.lab c' a a) =
      ∑ l ∈ range v.nleads, Complex.normSq (L.Tba l b a) * (L.rate l (E b - E a)).1) ∧
    (c' = c + 1 → m.val (la.lab c b b) (la.lab c' a a) =
      ∑ l ∈ range v.nleads, Complex.normSq (L.Tba l b a) * (L.rate l (E a - E b)).2) ∧
    (c ≠ c' + 1 → c' ≠ c + 1 → m.val (la.lab c b b) (la.lab c' a a) = 0) ∧
    0 ≤ m.val (la.lab c b b) (la.lab c' a a))
include hoff

omit hoff in
theorem sum_rate_pos (p : Nat → ℝ) (T : Nat → ℂ) (hp : ∀ l, 0 ≤ p l) :
    0 < ∑ l ∈ range v.nleads, Complex.normSq (T l) * p l ↔ ∃ l, l < v.nleads ∧ T l ≠ 0 ∧ 0 < p l := by
  rw [sum_pos_iff_of_nonneg fun l _ => mul_nonneg (Complex.normSq_nonneg _) (hp l)]
  constructor
  · rintro ⟨l, hl, hpos⟩
    refine ⟨l, mem_range.1 hl, ?_, ?_⟩
    · intro e; rw [e, map_zero, zero_mul] at hpos; exact lt_irrefl _ hpos
    · exact lt_of_le_of_ne (hp l) fun e => by rw [← e, mul_zero] at hpos; exact lt_irrefl _ hpos
  · rintro ⟨l, hl, hT, hpos⟩
    exact ⟨l, mem_range.2 hl, mul_pos (Complex.normSq_pos.2 hT) hpos⟩

omit h hoff in
theorem rate_pos {l : Nat} (hT : 0 < L.T l) (x : ℝ) :
    (0 < (L.rate l x).1 ↔ L.InBand l x ∧ (x - L.mu l) / L.T l ≤ 709.77) ∧ (0 < (L.rate l x).2 ↔ L.InBand l x) := by
  have e : L.InBand l x ↔ (L.itype = 1 ∨ L.itype = 3 ∨
      ((L.Dm l - L.mu l) / L.T l < (x - L.mu l) / L.T l ∧ (x - L.mu l) / L.T l < (L.Dp l - L.mu l) / L.T l)) := by
    unfold Leads.InBand
    rw [div_lt_div_iff_of_pos_right hT, div_lt_div_iff_of_pos_right hT, sub_lt_sub_iff_right, sub_lt_sub_iff_right]
  have he := Real.exp_pos ((x - L.mu l) / L.T l)
  have hf : (0 < fermiFunc ((x - L.mu l) / L.T l) ↔ (x - L.mu l) / L.T l ≤ 709.77) ∧
      fermiFunc ((x - L.mu l) / L.T l) < 1 := by
    unfold fermiFunc
    split
    · rename_i hx
      exact ⟨⟨fun h => absurd h (lt_irrefl _), fun h => absurd hx (not_lt.2 h)⟩, one_pos⟩
    · rename_i hx
      refine ⟨⟨fun _ => not_lt.1 hx, fun _ => by positivity⟩, ?_⟩
      rw [div_lt_one (by linarith)]
      linarith
  unfold Leads.rate funcPauli
  dsimp only
  rw [e]
  split
  · rename_i hc
    have h2 : (0 : ℝ) < 2 * Real.pi := by positivity
    exact ⟨by rw [mul_pos_iff_of_pos_left h2, hf.1]; exact ⟨fun h => ⟨hc, h⟩, fun h => h.2⟩,
      by rw [mul_pos_iff_of_pos_left h2]; exact ⟨fun _ => hc, fun _ => sub_pos.2 hf.2⟩⟩
  · rename_i hc
    exact ⟨⟨fun h => absurd h (lt_irrefl _), fun h => absurd h.1 hc⟩,
      ⟨fun h => absurd h (lt_irrefl _), fun h => absurd h hc⟩⟩

/-- The transitions of the matrix are the tunnelling events. -/
theorem step_hop (hT : L.Herm) (ht : ∀ l, l < v.nleads → 0 < L.T l) {c b c' a : Nat} (hb : b ∈ v.row c) (ha : a ∈ v.row c') :
    Step v.npauli m.val (la.lab c' a a) (la.lab c b b) ↔ Hop v E L (c', a) (c, b) := by
  have hTs : ∀ l b a, L.Tba l b a ≠ 0 ↔ L.Tba l a b ≠ 0 := by
    intro l b a
    rw [hT l b a, ne_eq, map_eq_zero_iff _ (RingHom.injective _)]
  have p1 : ∀ l x, 0 ≤ (L.rate l x).1 := fun l x => (c32_pauli _ _ _ _ _ _).1
  have p2 : ∀ l x, 0 ≤ (L.rate l x).2 := fun l x => (c32_pauli _ _ _ _ _ _).2.1
  constructor
  · rintro ⟨_, _, hne, hpos⟩
    have hne' : (c, b) ≠ (c', a) := by
      intro e
      simp only [Prod.mk.injEq] at e
      obtain ⟨rfl, rfl⟩ := e
      exact hne rfl
    obtain ⟨h1, h2, h3, _⟩ := hoff c b c' a ((mem_R h).2 hb) ((mem_R h).2 ha) hne'
    by_cases e1 : c = c' + 1
    · rw [h1 e1, sum_rate_pos h _ _ fun l => p1 l _] at hpos
      obtain ⟨l, hl, hTl, hr⟩ := hpos
      subst e1
      obtain ⟨r1, r2⟩ := (rate_pos (ht l hl) _).1.1 hr
      exact .enter ha hb hl hTl r1 r2
    · by_cases e2 : c' = c + 1
      · rw [h2 e2, sum_rate_pos h _ _ fun l => p2 l _] at hpos
        obtain ⟨l, hl, hTl, hr⟩ := hpos
        subst e2
        exact .leave hb ha hl ((hTs l b a).1 hTl) ((rate_pos (ht l hl) _).2.1 hr)
      · rw [h3 e1 e2] at hpos
        exact absurd hpos (lt_irrefl _)
  · intro hh
    refine ⟨h.lab_diag c b hb, h.lab_diag c' a ha, ?_, ?_⟩
    · intro e
      obtain ⟨e1, e2⟩ := pop_inj h hb ha e
      subst e1
      cases hh
    · cases hh with
      | enter hb' hc' hl hTl r1 r2 =>
        rw [(hoff _ b _ a ((mem_R h).2 hb) ((mem_R h).2 ha) (by simp)).1 rfl, sum_rate_pos h _ _ fun l => p1 l _]
        exact ⟨_, hl, hTl, (rate_pos (ht _ hl) _).1.2 ⟨r1, r2⟩⟩
      | leave hb' hc' hl hTl hr =>
        rw [(hoff _ b _ a ((mem_R h).2 hb) ((mem_R h).2 ha) (by simp)).2.1 rfl, sum_rate_pos h _ _ fun l => p2 l _]
        exact ⟨_, hl, (hTs _ _ _).1 hTl, (rate_pos (ht _ hl) _).2.2 hr⟩

theorem hub_attained (hT : L.Herm) (ht : ∀ l, l < v.nleads → 0 < L.T l) {c b : Nat} (hb : b ∈ v.row c) :
    IsHub v.npauli m.val (la.lab c b b) ↔ Attained v E L (c, b) := by
  constructor
  · rintro ⟨_, hr⟩
    refine ⟨hb, fun c' a ha => ?_⟩
    have key : ∀ i, Relation.ReflTransGen (Step v.npauli m.val) (la.lab c' a a) i →
        ∀ c b, b ∈ v.row c → la.lab c b b = i → Relation.ReflTransGen (Hop v E L) (c', a) (c, b) := by
      intro i hi
      induction hi with
      | refl =>
        intro c b hb e
        obtain ⟨rfl, rfl⟩ := pop_inj h hb ha e
        exact .refl
      | tail _ hs ih =>
        intro c b hb e
        obtain ⟨c1, b1, hb1, e1⟩ := pop_label h hs.2.1
        refine (ih c1 b1 hb1 e1).tail ((step_hop h hoff hT ht hb hb1).1 ?_)
        rw [e, e1]; exact hs
    exact key _ (hr _ (h.lab_diag c' a ha)) c b hb rfl
  · rintro ⟨_, hr⟩
    refine ⟨h.lab_diag c b hb, fun j hj => ?_⟩
    obtain ⟨c', a, ha, rfl⟩ := pop_label h hj
    have key : ∀ s, Relation.ReflTransGen (Hop v E L) (c', a) s → s.2 ∈ v.row s.1 ∧
        Relation.ReflTransGen (Step v.npauli m.val) (la.lab c' a a) (la.lab s.1 s.2 s.2) := by
      intro s hs
      induction hs with
      | refl => exact ⟨ha, .refl⟩
      | @tail x y _ hh ih =>
        have hy : y.2 ∈ v.row y.1 := by cases hh <;> assumption
        exact ⟨hy, ih.2.tail ((step_hop h hoff hT ht hy ih.1).2 hh)⟩
    exact (key _ (hr c' a ha)).2

omit hoff in
/-- **C93**. The Pauli equations together with the normalisation have exactly one solution if and only if some state can
be reached by tunnelling from all states. Then the solution is a probability distribution, and the states with a positive
probability are those that can be reached from all states. -/
theorem c93_unique (symq : Bool) (E : Nat → ℝ) (L : Leads) (hT : L.Herm) (ht : ∀ l, l < v.nleads → 0 < L.T l)
    (hne : 0 < v.npauli) :
    ∃ fct m, Pauli.genFct v E L = .ok fct ∧ Pauli.kernel v symq fct = .ok m ∧
      ((∀ φ φ' : Nat → ℝ, (∀ i, i < v.npauli → ∑ j ∈ range v.npauli, m.val i j * φ j = 0) →
          (∀ i, i < v.npauli → ∑ j ∈ range v.npauli, m.val i j * φ' j = 0) →
          ∑ j ∈ range v.npauli, φ j = 1 → ∑ j ∈ range v.npauli, φ' j = 1 → ∀ j, j < v.npauli → φ j = φ' j) ↔
        ∃ s, Attained v E L s) ∧
      ((∃ s, Attained v E L s) → ∀ φ : Nat → ℝ,
        (∀ i, i < v.npauli → ∑ j ∈ range v.npauli, m.val i j * φ j = 0) → ∑ j ∈ range v.npauli, φ j = 1 →
        ∀ c b, b ∈ v.row c → 0 ≤ φ (la.lab c b b) ∧ (0 < φ (la.lab c b b) ↔ Attained v E L (c, b))) := by
  obtain ⟨fct, m, gf, g, hoff, _⟩ := c18_rate_matrix h symq E L hT
  obtain ⟨m', g', hc, _, hcol, _⟩ := c17_probability h symq fct
  rw [g] at g'
  simp only [Except.ok.injEq] at g'
  subst g'
  have hoff' : ∀ i j, i < v.npauli → j < v.npauli → i ≠ j → 0 ≤ m.val i j := by
    intro i j hi hj hij
    obtain ⟨c, b, hb, rfl⟩ := pop_label h hi
    obtain ⟨c', a, ha, rfl⟩ := pop_label h hj
    refine (hoff c b c' a ((mem_R h).2 hb) ((mem_R h).2 ha) ?_).2.2.2
    intro e
    simp only [Prod.mk.injEq] at e
    obtain ⟨rfl, rfl⟩ := e
    exact hij rfl
  have hub : ∀ s, Attained v E L s → IsHub v.npauli m.val (la.lab s.1 s.2 s.2) :=
    fun s hs => (hub_attained h hoff hT ht hs.1).2 hs
  refine ⟨fct, m, gf, g, ⟨?_, ?_⟩, ?_⟩
  · intro hu
    obtain ⟨i, hi⟩ := unique_hub hcol hoff' hne fun p p' _ _ a1 b1 a2 b2 => hu p p' a2 b2 a1 b1
    obtain ⟨c, b, hb, rfl⟩ := pop_label h hi.1
    exact ⟨(c, b), (hub_attained h hoff hT ht hb).1 hi⟩
  · rintro ⟨s, hs⟩ φ φ' a b a1 b1
    exact hub_unique hcol hoff' (hub s hs) a b (a1.trans b1.symm)
  · rintro ⟨s, hs⟩ φ hφ h1 c b hb
    obtain ⟨p, p0, p1, pA⟩ := exists_stationary hne m.val hcol hoff'
    have e := hub_unique hcol hoff' (hub s hs) hφ pA (h1.trans p1.symm) _ (h.lab_diag c b hb)
    rw [e]
    exact ⟨p0 _ (h.lab_diag c b hb), (hub_support hcol hoff' (hub s hs) p0 p1 pA (h.lab_diag c b hb)).trans
      (hub_attained h hoff hT ht hb)⟩

omit hoff in
/-- **C93** for `solve`. If some state can be reached from all states and the linear solver solves the systems with one
solution, then `phi0` is the stationary probability distribution, whatever `norm_row`, `symq` and the history of the
object are: no probability is negative, and the positive ones are those of the states that can be reached from all
states. The stored currents are those of this distribution. -/
theorem c93_solve (num : NumLib) (E : Nat → ℝ) (L : Leads) (hT : L.Herm) (ht : ∀ l, l < v.nleads → 0 < L.T l)
    {s : AState}
    (hs0 : Reached Kind.pauli.size false s) (hv : s.v = v)
    (hap : s.ap = Kind.pauli.ap num E L) (hm : s.opts.mfreeq = false)
    (hs : s.opts.prepareSolver.solmethod = some "solve" ∨ s.opts.prepareSolver.solmethod = some "lsqr")
    (hrow : s.opts.symq = true → ∃ r, pyIdx v.npauli s.opts.normRow = .ok r)
    (lib : LinLib) (hlib : lib.Solves) (run : RootRun) (c : Bool) (hub : ∃ st, Attained v E L st) :
    ∃ φ : Vec, (s.solve lib run c).1.phi0 = some φ ∧ (s.solve lib run c).1.success = some true ∧
      φ.size = v.npauli ∧ ∑ j ∈ range v.npauli, φ.val j = 1 ∧
      (∀ c b, b ∈ v.row c → 0 ≤ φ.val (la.lab c b b) ∧ (0 < φ.val (la.lab c b b) ↔ Attained v E L (c, b))) ∧
      ∃ fct K, Pauli.genFct v E L = .ok fct ∧ Pauli.kernel v s.opts.symq fct = .ok K ∧
        (∀ i, i < v.npauli → ∑ j ∈ range v.npauli, K.val i j * φ.val j = 0) ∧
        (c = true → ∃ evs, Pauli.genCurrent v E fct φ = .ok evs ∧ (s.solve lib run c).1.cur = some evs) := by
  have hne : 0 < v.npauli := by
    obtain ⟨st, hst⟩ := hub
    exact lt_of_le_of_lt (Nat.zero_le _) (h.lab_diag _ _ hst.1)
  obtain ⟨K, S, b, gK, heq, -, -, g6, g7, ⟨d1, d2, d3⟩, evs, g8, g9⟩ := c31_solve h .pauli num E L hs0 hv hap hm hs
    (fun hsy => by
      obtain ⟨r, hr⟩ := hrow hsy
      exact ⟨r, hr, pyIdx_ok_lt hr⟩) lib run c
  obtain ⟨fct, m, gf, gm, hu, hpos⟩ := c93_unique h s.opts.symq E L hT ht hne
  obtain ⟨fct', m', gf', gm', p, p0, p1, pA⟩ := c22_stationary h s.opts.symq E L hT hne
  rw [gf] at gf'
  obtain rfl := Except.ok.inj gf'
  rw [gm] at gm'
  obtain rfl := Except.ok.inj gm'
  have hKm : K = m := by
    simp only [Kind.ap, Appr.pauli, gf, py_bind_ok] at gK
    have : v.assemble v.npauli s.opts.symq (Pauli.genKern v fct) = .ok m := gm
    exact Except.ok.inj (gK.symm.trans this)
  subst hKm
  simp only [Kind.size] at heq g6 g7 d1 d2 d3
  have hun := hu.2 hub
  have hsys : S.OneSolution b := by
    refine ⟨p, ?_, ?_⟩
    · intro i hi
      rw [d2]
      exact (heq p).2 ⟨pA, p1⟩ i (by rw [d1] at hi; exact hi)
    · intro φ hφ j hj
      rw [d2] at hj hφ
      rw [d1] at hφ
      have := (heq φ).1 hφ
      exact hun φ p this.1 pA this.2 p1 j hj
  have hx : ∃ x, Ref.answer s.opts.prepareSolver lib S b = some x ∧ x.size = S.cols ∧
      ∀ i, i < S.rows → ∑ j ∈ range S.cols, S.val i j * x.val j = b.val i := by
    unfold Ref.answer
    split
    · rename_i hsol
      have hsq : S.rows = S.cols := by
        rw [d1, d2]
        unfold Ref.rows
        cases hsy : s.opts.symq with
        | true => rfl
        | false =>
          exfalso
          unfold Opts.prepareSolver at hsol
          rw [hm, hsy] at hsol
          simp only [Bool.false_eq_true, if_false, Bool.not_false, Bool.true_and] at hsol
          split at hsol
          · simp at hsol
          · rename_i hn
            simp only [Option.some.injEq] at hsol
            rw [hsol] at hn
            exact hn (by decide)
      exact hlib.solve S b hsq (by rw [d1]; exact d3) hsys
    · exact hlib.lstsq S b (by rw [d1]; exact d3) hsys
  obtain ⟨x, hx1, hx2, hx3⟩ := hx
  rw [d2] at hx2 hx3
  rw [d1] at hx3
  rw [hx1] at g6 g7 g8
  simp only [Kind.size, Ref.result, hx2, if_true] at g6 g7 g8
  have := (heq x.val).1 hx3
  refine ⟨x, g6, g7, hx2, this.2, hpos hub x.val this.1 this.2, fct, K, gf, gm, this.1, fun hc => ⟨evs, ?_, g9⟩⟩
  subst hc
  simpa only [Ref.currents, if_true, Kind.ap, Appr.pauli, gf, py_bind_ok] using g8

omit h hoff in
/-- **C93** for connected systems. If all transition energies are in the bands and below the cut-off, and any two states
are connected by a chain of states with nonzero tunnelling elements between neighbours, then all states can be reached
from all states. By `c93_unique` and `c93_solve` the stationary state is unique and all its probabilities are positive. -/
theorem c93_connected (hb : ∀ l q c b, l < v.nleads → c ∈ v.row (q + 1) → b ∈ v.row q →
      L.InBand l (E c - E b) ∧ (E c - E b - L.mu l) / L.T l ≤ 709.77)
    (hc : ∀ c b c' b', b ∈ v.row c → b' ∈ v.row c' → Relation.EqvGen (fun s t : Nat × Nat =>
      s.2 ∈ v.row s.1 ∧ t.2 ∈ v.row t.1 ∧ t.1 = s.1 + 1 ∧ ∃ l, l < v.nleads ∧ L.Tba l t.2 s.2 ≠ 0) (c, b) (c', b'))
    {c b : Nat} (hbr : b ∈ v.row c) : Attained v E L (c, b) := by
  have hop_symm : ∀ s t, Hop v E L s t → Hop v E L t s := by
    intro s t hh
    cases hh with
    | enter h1 h2 h3 h4 h5 _ => exact .leave h1 h2 h3 h4 h5
    | leave h1 h2 h3 h4 h5 => exact .enter h1 h2 h3 h4 h5 (hb _ _ _ _ h3 h2 h1).2
  have hsym : ∀ s t, Relation.ReflTransGen (Hop v E L) s t → Relation.ReflTransGen (Hop v E L) t s := by
    intro s t hst
    induction hst with
    | refl => exact .refl
    | tail _ hh ih => exact .head (hop_symm _ _ hh) ih
  refine ⟨hbr, fun c' a ha => ?_⟩
  have := hc c' a c b ha hbr
  generalize (c', a) = s0, (c, b) = t0 at this
  induction this with
  | rel s t hst =>
    obtain ⟨h1, h2, h3, l, hl, hTl⟩ := hst
    obtain ⟨q, x⟩ := s
    obtain ⟨q', y⟩ := t
    dsimp only at h1 h2 h3 hTl
    subst h3
    have := hb l q y x hl h2 h1
    exact .single (.enter h1 h2 hl hTl this.1 this.2)
  | refl s => exact .refl
  | symm s t _ ih => exact hsym _ _ ih
  | trans s t u _ _ i1 i2 => exact i1.trans i2

end

/-- The hypotheses of the theorems for C93 hold for two orbitals and two leads with different chemical potentials, and a
linear solver as in `Solves` exists. -/
example : ∃ (v : View) (la : Lab) (E : Nat → ℝ) (L : Leads) (lib : LinLib), VOk v la ∧ L.Herm ∧ v.nleads = 2 ∧
    L.mu 0 ≠ L.mu 1 ∧ v.npauli = 4 ∧ lib.Solves ∧ (∀ l, l < v.nleads → 0 < L.T l) ∧
    (∀ l q c b, l < v.nleads → c ∈ v.row (q + 1) → b ∈ v.row q →
      L.InBand l (E c - E b) ∧ (E c - E b - L.mu l) / L.T l ≤ 709.77) ∧
    ∀ c b c' b', b ∈ v.row c → b' ∈ v.row c' → Relation.EqvGen (fun s t : Nat × Nat =>
      s.2 ∈ v.row s.1 ∧ t.2 ∈ v.row t.1 ∧ t.1 = s.1 + 1 ∧ ∃ l, l < v.nleads ∧ L.Tba l t.2 s.2 ≠ 0) (c, b) (c', b') := by
  classical
  obtain ⟨d, _, hv, hst, hp, hn⟩ := view_example' 2
  let S : Mat → Vec → Option Vec := fun S b =>
    if hS : S.OneSolution b then some ⟨S.cols, Classical.choose hS⟩ else none
  have hS : ∀ (M : Mat) (b : Vec), M.OneSolution b → ∃ x, S M b = some x ∧ x.size = M.cols ∧
      ∀ i, i < M.rows → ∑ j ∈ range M.cols, M.val i j * x.val j = b.val i := fun M b hM =>
    ⟨⟨M.cols, Classical.choose hM⟩, dif_pos hM, rfl, (Classical.choose_spec hM).1⟩
  have row : ∀ q b, b ∈ (d.view 2).row q → (q = 0 ∧ b = 0) ∨ (q = 1 ∧ (b = 1 ∨ b = 2)) ∨ (q = 2 ∧ b = 3) := by
    intro q b hb
    simp only [View.row, DM.view, hst] at hb
    rcases q with _ | _ | _ | _ | q <;> simp at hb <;> omega
  have row' : 0 ∈ (d.view 2).row 0 ∧ 1 ∈ (d.view 2).row 1 ∧ 2 ∈ (d.view 2).row 1 ∧ 3 ∈ (d.view 2).row 2 := by
    simp [View.row, DM.view, hst]
  refine ⟨d.view 2, d.labOf, fun b => b, ⟨fun l => l, fun _ => 1, fun _ => -60, fun _ => 60,
    fun _ b c => 1, 0, 10000⟩, ⟨S, S⟩, hv, fun _ _ _ => by simp, rfl, by simp, hp,
    ⟨fun M b _ _ => hS M b, fun M b _ => hS M b⟩, fun _ _ => one_pos, ?_, ?_⟩
  · intro l q c b hl hc hb
    have hl2 : (l : ℝ) ≤ 1 := by
      have : l < 2 := hl
      exact_mod_cast (by omega : l ≤ 1)
    have hc3 : (c : ℝ) ≤ 3 := by
      exact_mod_cast (by have := row _ _ hc; omega : c ≤ 3)
    have hb3 : (b : ℝ) ≤ 3 := by
      exact_mod_cast (by have := row _ _ hb; omega : b ≤ 3)
    have h0 : (0 : ℝ) ≤ l := Nat.cast_nonneg l
    have h1 : (0 : ℝ) ≤ c := Nat.cast_nonneg c
    have h2 : (0 : ℝ) ≤ b := Nat.cast_nonneg b
    refine ⟨.inr (.inr ⟨?_, ?_⟩), ?_⟩ <;> dsimp only
    · linarith
    · linarith
    · rw [div_one]; norm_num; linarith
  · intro c b c' b' hb hb'
    have r : ∀ q x y, x ∈ (d.view 2).row q → y ∈ (d.view 2).row (q + 1) → Relation.EqvGen (fun s t : Nat × Nat =>
      s.2 ∈ (d.view 2).row s.1 ∧ t.2 ∈ (d.view 2).row t.1 ∧ t.1 = s.1 + 1 ∧ ∃ l, l < (d.view 2).nleads ∧ (1 : ℂ) ≠ 0)
        (q, x) (q + 1, y) := fun q x y hx hy => .rel _ _ ⟨hx, hy, rfl, 0, two_pos, one_ne_zero⟩
    have all : ∀ q b, b ∈ (d.view 2).row q → Relation.EqvGen (fun s t : Nat × Nat =>
      s.2 ∈ (d.view 2).row s.1 ∧ t.2 ∈ (d.view 2).row t.1 ∧ t.1 = s.1 + 1 ∧ ∃ l, l < (d.view 2).nleads ∧ (1 : ℂ) ≠ 0)
        (0, 0) (q, b) := by
      intro q b hb
      rcases row q b hb with ⟨rfl, rfl⟩ | ⟨rfl, rfl | rfl⟩ | ⟨rfl, rfl⟩
      · exact .refl _
      · exact r 0 0 1 row'.1 row'.2.1
      · exact r 0 0 2 row'.1 row'.2.2.1
      · exact .trans _ _ _ (r 0 0 1 row'.1 row'.2.1) (r 1 1 3 row'.2.1 row'.2.2.2)
    exact .trans _ _ _ (.symm _ _ (all c b hb)) (all c' b' hb')

end

end Verif
