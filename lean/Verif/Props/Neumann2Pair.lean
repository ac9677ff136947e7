import Verif.Props.Neumann2Level

/-!
C89: for density matrices with an imaginary coherence the 2vN approach does not iterate the integral equation.
-/

namespace Verif

open Finset

noncomputable section

namespace VN2

/-! ### Two degenerate states -/

/-- The empty state 0 and two states 1, 2 with one electron, all at the energy zero, and one lead with the amplitudes `1`, `i`. -/
structure Dot.Pair (D : Dot) : Prop where
  states : D.states = {0, 1, 2}
  c0 : D.charge 0 = 0
  c1 : D.charge 1 = 1
  c2 : D.charge 2 = 1
  E : ∀ b, D.E b = 0
  nleads : D.nleads = 1
  T10 : D.T 0 1 0 = 1
  T01 : D.T 0 0 1 = 1
  T20 : D.T 0 2 0 = Complex.I
  T02 : D.T 0 0 2 = -Complex.I

variable {D : Dot}

theorem pair_sum (f : Nat → ℂ) : ∑ r ∈ ({0, 1, 2} : Finset Nat), f r = f 0 + (f 1 + f 2) := by
  rw [sum_insert (by decide), sum_insert (by decide), sum_singleton]

theorem pair_local (h : D.Pair) (A : Dot.Leads) (Ek : ℝ) {X : Mx} (hX : First D X) :
    D.localTerm A Ek X 1 0 = A.G 0 Ek * (X 1 0 - Complex.I * X 2 0) + 2 * A.F 0 Ek * X 1 0 ∧
    D.localTerm A Ek X 2 0 = A.G 0 Ek * Complex.I * (X 1 0 - Complex.I * X 2 0) + 2 * A.F 0 Ek * X 2 0 := by
  have x00 : X 0 0 = 0 := hX _ _ (by rw [h.c0]; omega)
  have x01 : X 0 1 = 0 := hX _ _ (by rw [h.c0, h.c1]; omega)
  have x02 : X 0 2 = 0 := hX _ _ (by rw [h.c0, h.c2]; omega)
  have x11 : X 1 1 = 0 := hX _ _ (by rw [h.c1]; omega)
  have x12 : X 1 2 = 0 := hX _ _ (by rw [h.c1, h.c2]; omega)
  have x21 : X 2 1 = 0 := hX _ _ (by rw [h.c1, h.c2]; omega)
  have x22 : X 2 2 = 0 := hX _ _ (by rw [h.c2]; omega)
  have hI := Complex.I_sq
  constructor
  · unfold Dot.localTerm
    rw [h.nleads, sum_range_one]
    simp only [Dot.anti, Dot.two, Dot.mix, h.states, pair_sum, h.c0, h.c1, h.c2, h.E, x00, x01, x02, x11, x12, x21, x22, h.T10, h.T01,
      h.T20, h.T02, sub_zero, add_zero, mul_zero, zero_mul, zero_add]
    norm_num
    linear_combination (-A.F 0 Ek * X 1 0) * hI
  · unfold Dot.localTerm
    rw [h.nleads, sum_range_one]
    simp only [Dot.anti, Dot.two, Dot.mix, h.states, pair_sum, h.c0, h.c1, h.c2, h.E, x00, x01, x02, x11, x12, x21, x22, h.T10, h.T01,
      h.T20, h.T02, sub_zero, add_zero, mul_zero, zero_mul, zero_add]
    norm_num
    linear_combination (-A.F 0 Ek * X 2 0) * hI

theorem pair_nonlocal (h : D.Pair) (A : Dot.Leads) (Ek : ℝ) {U V : Nat → ℝ → Mx}
    (hU : ∀ l e c b, D.charge c ≠ D.charge b + 1 → U l e b c = 0) :
    D.nonlocalTerm A Ek 0 U V 1 0 = -(U 0 Ek 0 1 + Complex.I * U 0 Ek 0 2) ∧
    D.nonlocalTerm A Ek 0 U V 2 0 = -Complex.I * (U 0 Ek 0 1 + Complex.I * U 0 Ek 0 2) := by
  have x00 : U 0 Ek 0 0 = 0 := hU _ _ _ _ (by rw [h.c0]; omega)
  have x01 : U 0 Ek 1 0 = 0 := hU _ _ _ _ (by rw [h.c0, h.c1]; omega)
  have x02 : U 0 Ek 2 0 = 0 := hU _ _ _ _ (by rw [h.c0, h.c2]; omega)
  have x11 : U 0 Ek 1 1 = 0 := hU _ _ _ _ (by rw [h.c1]; omega)
  have x12 : U 0 Ek 1 2 = 0 := hU _ _ _ _ (by rw [h.c1, h.c2]; omega)
  have x21 : U 0 Ek 2 1 = 0 := hU _ _ _ _ (by rw [h.c1, h.c2]; omega)
  have x22 : U 0 Ek 2 2 = 0 := hU _ _ _ _ (by rw [h.c2]; omega)
  constructor
  · unfold Dot.nonlocalTerm
    rw [h.nleads, sum_range_one]
    simp only [Dot.anti, Dot.two, Dot.mix, h.states, pair_sum, h.c0, h.c1, h.c2, h.E, x00, x01, x02, x11, x12, x21, x22, h.T10, h.T01,
      h.T20, h.T02, sub_zero, add_zero, mul_zero, zero_mul, zero_add]
    norm_num
    ring
  · unfold Dot.nonlocalTerm
    rw [h.nleads, sum_range_one]
    simp only [Dot.anti, Dot.two, Dot.mix, h.states, pair_sum, h.c0, h.c1, h.c2, h.E, x00, x01, x02, x11, x12, x21, x22, h.T10, h.T01,
      h.T20, h.T02, sub_zero, add_zero, mul_zero, zero_mul, zero_add]
    norm_num
    ring

/-- The density matrix: only an imaginary coherence of the states 1 and 2. -/
def cohMx (z : ℂ) : Mx := fun b c => if b = 1 ∧ c = 2 then z else if b = 2 ∧ c = 1 then -z else 0

theorem cohMx_herm (b bp : Nat) : cohMx Complex.I b bp = (starRingEnd ℂ) (cohMx Complex.I bp b) := by
  unfold cohMx
  by_cases h1 : b = 1 ∧ bp = 2
  · rw [if_pos h1, if_neg (by omega), if_pos (by tauto)]; simp
  · rw [if_neg h1]
    by_cases h2 : b = 2 ∧ bp = 1
    · rw [if_pos h2, if_pos (by tauto)]; simp
    · rw [if_neg h2, if_neg (by tauto), if_neg (by tauto), map_zero]

theorem cohMx_conj : (fun b bp => (starRingEnd ℂ) (cohMx Complex.I b bp)) = cohMx (-Complex.I) := by
  funext b bp
  unfold cohMx
  by_cases h1 : b = 1 ∧ bp = 2
  · rw [if_pos h1, if_pos h1, Complex.conj_I]
  · rw [if_neg h1, if_neg h1]
    by_cases h2 : b = 2 ∧ bp = 1
    · rw [if_pos h2, if_pos h2, map_neg, Complex.conj_I]
    · rw [if_neg h2, if_neg h2, map_zero]

theorem pair_source (h : D.Pair) (A : Dot.Leads) (z : ℂ) :
    D.source A 0 (cohMx z) 1 0 = -(1 - A.f 0) * (z * Complex.I) ∧ D.source A 0 (cohMx z) 2 0 = (1 - A.f 0) * z := by
  constructor
  · simp [Dot.source, Dot.mix, h.states, pair_sum, cohMx, h.T10, h.T20]
  · simp [Dot.source, Dot.mix, h.states, pair_sum, cohMx, h.T10, h.T20]
    ring

/-- The equation for the combination of the elements that couples to the lead. -/
theorem pair_equation (h : D.Pair) {A : Dot.Leads} {Ek : ℝ} {z : ℂ} {X : Mx} {U V : Nat → ℝ → Mx} (hX : First D X)
    (hU : ∀ l e c b, D.charge c ≠ D.charge b + 1 → U l e b c = 0) (e1 : D.Equation A Ek 0 (cohMx z) X U V 1 0)
    (e2 : D.Equation A Ek 0 (cohMx z) X U V 2 0) :
    ((Ek : ℂ) - 2 * (A.F 0 Ek + A.G 0 Ek)) * (X 1 0 - Complex.I * X 2 0) =
      -2 * Complex.I * z * (1 - A.f 0) - 2 * (U 0 Ek 0 1 + Complex.I * U 0 Ek 0 2) := by
  unfold Dot.Equation at e1 e2
  rw [(pair_source h A z).1, (pair_local h A Ek hX).1, (pair_nonlocal h A Ek hU).1, h.E, h.E, sub_zero, add_zero] at e1
  rw [(pair_source h A z).2, (pair_local h A Ek hX).2, (pair_nonlocal h A Ek hU).2, h.E, h.E, sub_zero, add_zero] at e2
  have hI := Complex.I_sq
  linear_combination e1 - Complex.I * e2 + (-A.G 0 Ek * (X 1 0 - Complex.I * X 2 0) + (U 0 Ek 0 1 + Complex.I * U 0 Ek 0 2)) * hI

/-! ### The transforms -/

theorem pair_point {g : Grid} (hh : 0 < g.h) (h2 : 2 ≤ g.len) {f : Nat → ℂ} {w t : ℝ → ℂ} (hp : g.Pair f w t) {k : Nat} (hk : k < g.len) :
    w (g.x + k * g.h) = f k ∧ t (g.x + k * g.h) = g.t f (g.x + k * g.h) := by
  obtain ⟨hw, z, hz, ht, hi⟩ := hp
  constructor
  · rw [hw, ← (g.pair hh (by omega) f).1, g.w_point hh h2 f hk]
  · have i1 := g.t_point hh h2 f hk
    have i2 := hi (k + g.left) (by omega)
    rw [show g.x + (((k + g.left : ℕ) : ℝ) - g.left) * g.h = g.x + k * g.h by push_cast; ring] at i2
    have hl : (List.range z.length).map (fun i => z.getD i 0) = z := by
      apply List.ext_getElem
      · simp
      · intro i i1 i2
        simp [i2]
    have hs := samp_point (x := g.x - g.left * g.h) hh (N := z.length) (by omega) (fun i => z.getD i 0) (i := k + g.left) (by omega)
    unfold samp at hs
    rw [hl, show g.x - g.left * g.h + ((k + g.left : ℕ) : ℝ) * g.h = g.x + k * g.h by push_cast; ring] at hs
    rw [ht, hs]
    exact Complex.ext (tendsto_nhds_unique i2.1 i1.1) (tendsto_nhds_unique i2.2 i1.2)

/-- The combination of the moved elements that couples to the lead. -/
theorem pair_moved (h : D.Pair) {g : Grid} (hh : 0 < g.h) (h2 : 2 ≤ g.len) {X : Nat → Nat → Mx} {U V : Nat → ℝ → Mx}
    (m : IsMoved g D X U V) {k : Nat} (hk : k < g.len) : U 0 (g.x + k * g.h) 0 1 + Complex.I * U 0 (g.x + k * g.h) 0 2 =
      (starRingEnd ℂ) (Real.pi * (g.t (fun k => X k 0 1 0 - Complex.I * X k 0 2 0) (g.x + k * g.h) +
        Complex.I * (X k 0 1 0 - Complex.I * X k 0 2 0))) := by
  have hl : 0 < D.nleads := by rw [h.nleads]; omega
  obtain ⟨w1, t1, p1, _, u1⟩ := m.moved 0 hl 1 (by rw [h.states]; decide) 0 (by rw [h.states]; decide) (by rw [h.c0, h.c1])
  obtain ⟨w2, t2, p2, _, u2⟩ := m.moved 0 hl 2 (by rw [h.states]; decide) 0 (by rw [h.states]; decide) (by rw [h.c0, h.c2])
  obtain ⟨a1, b1⟩ := pair_point hh h2 p1 hk
  obtain ⟨a2, b2⟩ := pair_point hh h2 p2 hk
  have ht := g.t_sum (univ : Finset (Fin 2)) ![fun k => X k 0 1 0, fun k => X k 0 2 0] ![1, -Complex.I] (g.x + k * g.h)
  simp only [Fin.sum_univ_two, Matrix.cons_val_zero, Matrix.cons_val_one, mul_one] at ht
  have e : (fun k => X k 0 1 0 - Complex.I * X k 0 2 0) = fun i => X i 0 1 0 + X i 0 2 0 * -Complex.I := by
    funext i
    ring
  rw [u1, u2, a1, a2, b1, b2, e, ht]
  simp only [map_mul, map_add, map_sub, Complex.conj_I, Complex.conj_ofReal, map_neg]
  ring

theorem two_points {g : Grid} (hh : 0 < g.h) (hl : g.len = 2) (f : Nat → ℂ) :
    g.t f (g.x + (0 : ℕ) * g.h) = -((2 * Real.log 2 / Real.pi : ℝ) * f 1) ∧ g.t f (g.x + (1 : ℕ) * g.h) = (2 * Real.log 2 / Real.pi : ℝ) * f 0 := by
  have w0 : htWeight 0 = 0 := by
    unfold htWeight
    norm_num
  have w1 : htWeight 1 = 2 * Real.log 2 := by
    unfold htWeight
    norm_num
  have key : ∀ k : Nat, k < 2 → g.t f (g.x + k * g.h) = f 0 * (htWeight ((k : ℤ)) / Real.pi : ℝ) + f 1 * (htWeight ((k : ℤ) - 1) / Real.pi : ℝ) := by
    intro k hk
    unfold Grid.t
    have := samp_point (x := g.x - g.left * g.h) hh (N := g.len + g.left + g.right) (by omega)
      (ht (g.len + g.left + g.right) (padf g.len g.left f)) (i := k + g.left) (by omega)
    rw [show g.x - g.left * g.h + ((k + g.left : ℕ) : ℝ) * g.h = g.x + k * g.h by push_cast; ring] at this
    rw [this]
    unfold ht
    have hs : ({g.left, g.left + 1} : Finset Nat) ⊆ range (g.len + g.left + g.right) := by
      intro j hj
      rw [mem_insert, mem_singleton] at hj
      rw [mem_range]
      omega
    rw [← sum_subset hs, sum_pair (by omega)]
    · unfold padf
      rw [if_pos (by omega), if_pos (by omega), Nat.sub_self, Nat.add_sub_cancel_left]
      congr 4
      · push_cast; ring_nf
      · push_cast; ring_nf
    · intro j _ hj
      unfold padf
      rw [if_neg, zero_mul]
      intro hq
      apply hj
      rw [mem_insert, mem_singleton]
      omega
  constructor
  · rw [key 0 (by omega)]
    have : htWeight (((0 : ℕ) : ℤ) - 1) = -htWeight 1 := by
      rw [← htWeight_neg]
      rfl
    rw [this, show (((0 : ℕ) : ℤ)) = 0 from rfl, w0, w1]
    push_cast
    ring
  · rw [key 1 (by omega), show (((1 : ℕ) : ℤ)) - 1 = 0 from rfl, show (((1 : ℕ) : ℤ)) = 1 from rfl, w0, w1]
    push_cast
    ring

/-- The Hilbert transform of two values does not cancel them. -/
theorem two_zero {g : Grid} (hh : 0 < g.h) (hl : g.len = 2) {f : Nat → ℂ}
    (h : ∀ k < 2, g.t f (g.x + (k : ℕ) * g.h) + Complex.I * f k = 0) : f 0 = 0 := by
  have h0 := h 0 (by omega)
  have h1 := h 1 (by omega)
  rw [(two_points hh hl f).1] at h0
  rw [(two_points hh hl f).2] at h1
  set κ : ℝ := 2 * Real.log 2 / Real.pi with hκ
  have b0 : 0 ≤ κ := div_nonneg (mul_nonneg (by norm_num) (Real.log_nonneg (by norm_num))) Real.pi_pos.le
  have b1 : κ < 1 := by
    rw [hκ, div_lt_one Real.pi_pos]
    have := Real.log_le_sub_one_of_pos (show (0 : ℝ) < 2 by norm_num)
    have := Real.pi_gt_three
    linarith
  have hI := Complex.I_sq
  have : (((κ ^ 2 - 1 : ℝ)) : ℂ) * f 0 = 0 := by
    push_cast
    linear_combination Complex.I * h0 + (κ : ℂ) * h1 - f 0 * hI
  rcases mul_eq_zero.1 this with h | h
  · have h' : κ ^ 2 - 1 = 0 := by exact_mod_cast h
    nlinarith
  · exact h

/-! ### The kernel -/

theorem pair_factor {y : Sys} {g : Grid} (hh : 0 < g.h) (h2 : 2 ≤ g.len) {k : Nat} (hk : k < g.len) (e : ℝ) :
    0 < ((e : ℂ) - 2 * (y.leads g k).F 0 (g.x + k * g.h)).im ∧
    0 < ((e : ℂ) - 2 * ((y.leads g k).F 0 (g.x + k * g.h) + (y.leads g k).G 0 (g.x + k * g.h))).im := by
  have r1 : ∀ f : Nat → ℝ, (g.F f (g.x + k * g.h)).im = -(Real.pi * f k) := by
    intro f
    unfold Grid.F
    rw [g.w_point hh h2 _ hk, Complex.im_ofReal_mul, Complex.sub_im, g.t_real (fun _ => Complex.ofReal_im _)]
    simp
  have hf : 0 < y.occ g 0 k := by unfold Sys.occ; positivity
  have e1 : ((y.leads g k).F 0 (g.x + k * g.h)).im = -(Real.pi * y.occ g 0 k) := r1 _
  have e2 : ((y.leads g k).G 0 (g.x + k * g.h)).im = -(Real.pi * (1 - y.occ g 0 k)) := r1 _
  have two : ∀ z : ℂ, (2 * z).im = 2 * z.im := fun z => by simp
  constructor
  · rw [Complex.sub_im, Complex.ofReal_im, two, e1]
    have := mul_pos Real.pi_pos hf
    linarith
  · rw [Complex.sub_im, Complex.ofReal_im, two, Complex.add_im, e1, e2]
    have := Real.pi_pos
    linarith

theorem pair_alg {e F G a0 a1 r : ℂ} (n1 : e - 2 * F ≠ 0) (h : (e - 2 * F) * a0 - G * (a0 - Complex.I * a1) = (e - 2 * F) * r) :
    e * (a0 / (e - 2 * F)) - (G * (a0 / (e - 2 * F) - Complex.I * (a1 / (e - 2 * F))) + 2 * F * (a0 / (e - 2 * F))) = r := by
  rw [show e * (a0 / (e - 2 * F)) - (G * (a0 / (e - 2 * F) - Complex.I * (a1 / (e - 2 * F))) + 2 * F * (a0 / (e - 2 * F))) =
    ((e - 2 * F) * a0 - G * (a0 - Complex.I * a1)) / (e - 2 * F) by ring, h, mul_div_cancel_left₀ _ n1]

theorem pair_alg' {e F G a0 a1 r : ℂ} (n1 : e - 2 * F ≠ 0) (h : (e - 2 * F) * a1 - G * Complex.I * (a0 - Complex.I * a1) = (e - 2 * F) * r) :
    e * (a1 / (e - 2 * F)) - (G * Complex.I * (a0 / (e - 2 * F) - Complex.I * (a1 / (e - 2 * F))) + 2 * F * (a1 / (e - 2 * F))) = r := by
  rw [show e * (a1 / (e - 2 * F)) - (G * Complex.I * (a0 / (e - 2 * F) - Complex.I * (a1 / (e - 2 * F))) + 2 * F * (a1 / (e - 2 * F))) =
    ((e - 2 * F) * a1 - G * Complex.I * (a0 - Complex.I * a1)) / (e - 2 * F) by ring, h, mul_div_cancel_left₀ _ n1]

theorem pair_zeroth {inv : CMat → Option CMat} (hi : IsInverse inv) (hf : Finds inv) {y : Sys} {lab ix1 : Nat → Nat → Nat → Nat}
    (ok : VOkC y.v lab ix1) (h : D.Pair) (hD : IsDot D y.v y.E y.T) (m0 : 0 ∈ y.v.row 0) (m1 : 1 ∈ y.v.row (0 + 1)) (m2 : 2 ∈ y.v.row (0 + 1))
    (hm : y.v.ndm1 = 2) (i1 : ix1 0 1 0 = 0) (i2 : ix1 0 2 0 = 1) {g : Grid} (hh : 0 < g.h) (h2 : 2 ≤ g.len) {t : Terms} (A : TermsAt t y g) :
    ∃ r, t.zeroth inv g.len = .ok r := by
  have nl : y.v.nleads = 1 := by rw [← hD.nleads, h.nleads]
  have key : ∀ k < g.len, ∀ l < t.v.nleads, ∃ r, t.phi1kLocal inv k l = .ok r := by
    intro k hk l hl
    rw [A.v] at hl
    obtain ⟨m, z1, z2, z3, z4, z5, z6⟩ := localKern_ok A ok hk hl
    rw [hm] at z2 z3 z4 z6
    have hD' := A.dot hD
    have m0' : 0 ∈ t.v.row 0 := by rw [A.v]; exact m0
    have m1' : 1 ∈ t.v.row (0 + 1) := by rw [A.v]; exact m1
    have m2' : 2 ∈ t.v.row (0 + 1) := by rw [A.v]; exact m2
    obtain ⟨b1, b2⟩ := pair_factor (y := y) hh h2 hk (g.x + k * g.h)
    set F := (y.leads g k).F 0 (g.x + k * g.h) with hF
    set G := (y.leads g k).G 0 (g.x + k * g.h) with hG
    set e : ℂ := ((g.x + k * g.h : ℝ) : ℂ) with he
    have n1 : e - 2 * F ≠ 0 := fun hz => by rw [hz] at b1; simp at b1
    have n2 : e - 2 * (F + G) ≠ 0 := fun hz => by rw [hz] at b2; simp at b2
    have act : ∀ x : Nat → ℂ,
        m.1.val 0 0 * x 0 + m.1.val 0 1 * x 1 = e * x 0 - (G * (x 0 - Complex.I * x 1) + 2 * F * x 0) ∧
        m.1.val 1 0 * x 0 + m.1.val 1 1 * x 1 = e * x 1 - (G * Complex.I * (x 0 - Complex.I * x 1) + 2 * F * x 1) := by
      intro x
      have a1 := (z6 0 1 0 m1 m0 x).1
      have a2 := (z6 0 2 0 m2 m0 x).1
      have v1 : firstMx D ix1 x 1 0 = x 0 := by rw [firstMx_val hD' _ m1' m0', i1]
      have v2 : firstMx D ix1 x 2 0 = x 1 := by rw [firstMx_val hD' _ m2' m0', i2]
      rw [locSum_eq hD' (by rw [A.v]; exact ok) (y.leads g k) _ (firstMx_first (ix1 := ix1) x) x
        (fun q c b hc hb => firstMx_val hD' _ hc hb) m1' m0', (pair_local h _ _ (firstMx_first _)).1, v1, v2, ← hD'.E, h.E, h.E, sub_zero,
        add_zero, i1, sum_range_succ, sum_range_one] at a1
      rw [locSum_eq hD' (by rw [A.v]; exact ok) (y.leads g k) _ (firstMx_first (ix1 := ix1) x) x
        (fun q c b hc hb => firstMx_val hD' _ hc hb) m2' m0', (pair_local h _ _ (firstMx_first _)).2, v1, v2, ← hD'.E, h.E, h.E, sub_zero,
        add_zero, i2, sum_range_succ, sum_range_one] at a2
      exact ⟨a1, a2⟩
    obtain ⟨i, hi'⟩ := hf m.1 ⟨2, 2, fun p q => ((if p = q then 1 else 0) + G / (e - 2 * (F + G)) *
        ((if p = 0 then 1 else Complex.I) * (if q = 0 then 1 else -Complex.I))) / (e - 2 * F)⟩ z3.symm z2.symm (by
      intro p hp q hq
      rw [z2] at hp hq
      rw [z3, sum_range_succ, sum_range_one]
      dsimp only
      have hI := Complex.I_sq
      obtain ⟨a1, a2⟩ := act fun p => ((if p = q then 1 else 0) + G / (e - 2 * (F + G)) *
        ((if p = 0 then 1 else Complex.I) * (if q = 0 then 1 else -Complex.I))) / (e - 2 * F)
      have hδ : G / (e - 2 * (F + G)) * (e - 2 * (F + G)) = G := div_mul_cancel₀ _ n2
      obtain rfl | rfl : p = 0 ∨ p = 1 := by omega
      · rw [a1]
        refine pair_alg n1 ?_
        obtain rfl | rfl : q = 0 ∨ q = 1 := by omega
        · norm_num
          linear_combination hδ + G * (G / (e - 2 * (F + G))) * hI
        · norm_num
          linear_combination -Complex.I * hδ
      · rw [a2]
        refine pair_alg' n1 ?_
        obtain rfl | rfl : q = 0 ∨ q = 1 := by omega
        · norm_num
          linear_combination Complex.I * hδ + Complex.I * G * (G / (e - 2 * (F + G))) * hI
        · norm_num
          linear_combination hδ + (G + 2 * G * (G / (e - 2 * (F + G)))) * hI)
    obtain ⟨s1, s2, _⟩ := hi _ _ hi'
    unfold Terms.phi1kLocal CMat.mul
    rw [z1, py_bind_ok, hi']
    dsimp only
    rw [if_pos (by rw [s2, z2, z4])]
    exact ⟨_, rfl⟩
  obtain ⟨r, hr⟩ := table_ok (z := (CMat.zeros t.v.ndm1 t.v.ndm0, CMat.zeros t.v.ndm1 t.v.ndm1)) key
  unfold Terms.zeroth
  dsimp only
  rw [hr]
  exact ⟨_, rfl⟩

/-- Successive approximations and what the code has instead cannot agree. -/
theorem pair_contra (h : D.Pair) {g : Grid} (hh : 0 < g.h) (hl : g.len = 2) {o : Nat → Nat → ℝ} {A : Nat → Dot.Leads} (hA : IsLeads g 1 o A)
    (ho : o 0 0 ≠ 1) {X Y Z : Nat → Nat → Nat → Mx} (hX : D.Successive g A (cohMx Complex.I) 1 X) (fY : ∀ i k l, First D (Y i k l))
    (fZ : ∀ i k l, First D (Z i k l))
    (y0 : ∀ k < 2, ∀ l < D.nleads, ∀ c ∈ D.states, ∀ b ∈ D.states, D.charge c = D.charge b + 1 →
      D.Equation (A k) (g.x + k * g.h) l (cohMx Complex.I) (Y 0 k l) (fun _ _ _ _ => 0) (fun _ _ _ _ => 0) c b ∧
      D.Equation (A k) (g.x + k * g.h) l (cohMx (-Complex.I)) (Z 0 k l) (fun _ _ _ _ => 0) (fun _ _ _ _ => 0) c b)
    {U V : Nat → ℝ → Mx} (hU : IsMoved g D (Z 0) U V) {V' : Nat → ℝ → Mx}
    (y1 : ∀ k < 2, ∀ l < D.nleads, ∀ c ∈ D.states, ∀ b ∈ D.states, D.charge c = D.charge b + 1 →
      D.Equation (A k) (g.x + k * g.h) l (cohMx Complex.I) (Y 1 k l) U V' c b)
    (he : ∀ k < 2, ∀ c, c = 1 ∨ c = 2 → X 1 k 0 c 0 = Y 1 k 0 c 0) : False := by
  have h2 : 2 ≤ g.len := by omega
  have l0 : 0 < D.nleads := by rw [h.nleads]; omega
  have s0 : 0 ∈ D.states := by rw [h.states]; decide
  have s1 : 1 ∈ D.states := by rw [h.states]; decide
  have s2 : 2 ∈ D.states := by rw [h.states]; decide
  have c1 : D.charge 1 = D.charge 0 + 1 := by rw [h.c0, h.c1]
  have c2 : D.charge 2 = D.charge 0 + 1 := by rw [h.c0, h.c2]
  -- the factor
  have q0 : ∀ k < 2, ((g.x + (k : ℕ) * g.h : ℝ) : ℂ) - 2 * ((A k).F 0 (g.x + k * g.h) + (A k).G 0 (g.x + k * g.h)) ≠ 0 := by
    intro k hk hz
    obtain ⟨w, t, P, hF⟩ := hA.F 0 (by omega)
    obtain ⟨w', t', P', hG⟩ := hA.G 0 (by omega)
    obtain ⟨a1, a2⟩ := pair_point hh h2 P (k := k) (by omega)
    obtain ⟨b1, b2⟩ := pair_point hh h2 P' (k := k) (by omega)
    have i1 : ((A k).F 0 (g.x + k * g.h)).im = -(Real.pi * o 0 k) := by
      rw [hF]
      dsimp only
      rw [a1, a2, Complex.im_ofReal_mul, Complex.sub_im, g.t_real (fun _ => Complex.ofReal_im _)]
      simp
    have i2 : ((A k).G 0 (g.x + k * g.h)).im = -(Real.pi * (1 - o 0 k)) := by
      rw [hG]
      dsimp only
      rw [b1, b2, Complex.im_ofReal_mul, Complex.sub_im, g.t_real (fun i => by simp)]
      simp
      ring
    have two : ∀ z : ℂ, (2 * z).im = 2 * z.im := fun z => by simp
    have := congrArg Complex.im hz
    rw [Complex.sub_im, Complex.ofReal_im, two, Complex.add_im, i1, i2, Complex.zero_im] at this
    have := Real.pi_pos
    linarith
  let x : Nat → Nat → ℂ := fun i k => X i k 0 1 0 - Complex.I * X i k 0 2 0
  let y : Nat → Nat → ℂ := fun i k => Y i k 0 1 0 - Complex.I * Y i k 0 2 0
  let z : Nat → Nat → ℂ := fun i k => Z i k 0 1 0 - Complex.I * Z i k 0 2 0
  have hI := Complex.I_sq
  have z0 : ∀ (l : Nat) (e : ℝ) (c b : Nat), D.charge c ≠ D.charge b + 1 → (fun (_ : Nat) (_ : ℝ) (_ _ : Nat) => (0 : ℂ)) l e b c = 0 :=
    fun _ _ _ _ _ => rfl
  have ex : ∀ k < 2, (((g.x + (k : ℕ) * g.h : ℝ) : ℂ) - 2 * ((A k).F 0 (g.x + k * g.h) + (A k).G 0 (g.x + k * g.h))) * x 0 k = 2 * (1 - (A k).f 0) := by
    intro k hk
    have := pair_equation h (hX.first 0 k 0) z0 (hX.zeroth k (by omega) 0 l0 1 s1 0 s0 c1) (hX.zeroth k (by omega) 0 l0 2 s2 0 s0 c2)
    linear_combination this - 2 * (1 - (A k).f 0) * hI
  have ez : ∀ k < 2, (((g.x + (k : ℕ) * g.h : ℝ) : ℂ) - 2 * ((A k).F 0 (g.x + k * g.h) + (A k).G 0 (g.x + k * g.h))) * z 0 k = -2 * (1 - (A k).f 0) := by
    intro k hk
    have := pair_equation h (fZ 0 k 0) z0 (y0 k hk 0 l0 1 s1 0 s0 c1).2 (y0 k hk 0 l0 2 s2 0 s0 c2).2
    linear_combination this + 2 * (1 - (A k).f 0) * hI
  have hzx : ∀ k < 2, z 0 k = -x 0 k := by
    intro k hk
    have := mul_left_cancel₀ (q0 k hk) (show _ * z 0 k = _ * -x 0 k by linear_combination ez k hk + ex k hk)
    exact this
  obtain ⟨U', V'', hU', n1⟩ := hX.next 0 (by omega)
  have hm : ∀ k < 2, g.t (x 0) (g.x + (k : ℕ) * g.h) + Complex.I * x 0 k = 0 := by
    intro k hk
    have a1 := pair_equation h (hX.first 1 k 0) hU'.zeroU (n1 k (by omega) 0 l0 1 s1 0 s0 c1) (n1 k (by omega) 0 l0 2 s2 0 s0 c2)
    have a2 := pair_equation h (fY 1 k 0) hU.zeroU (y1 k hk 0 l0 1 s1 0 s0 c1) (y1 k hk 0 l0 2 s2 0 s0 c2)
    rw [he k hk 1 (Or.inl rfl), he k hk 2 (Or.inr rfl), a2, pair_moved h hh h2 hU' (by omega), pair_moved h hh h2 hU (by omega)] at a1
    have e1 : (fun k => Z 0 k 0 1 0 - Complex.I * Z 0 k 0 2 0) = z 0 := rfl
    have e2 : (fun k => X 0 k 0 1 0 - Complex.I * X 0 k 0 2 0) = x 0 := rfl
    have e3 : g.t (z 0) (g.x + (k : ℕ) * g.h) = -g.t (x 0) (g.x + (k : ℕ) * g.h) := by
      rw [g.t_congr (f' := fun k => -x 0 k) (fun k hk => hzx k (by omega))]
      have ht := g.t_sum (univ : Finset (Fin 1)) ![x 0] ![-1] (g.x + (k : ℕ) * g.h)
      simp only [univ_unique, sum_singleton, Fin.default_eq_zero, Matrix.cons_val_fin_one, mul_neg, mul_one] at ht
      exact ht
    rw [e1, e2, e3, show Z 0 k 0 1 0 - Complex.I * Z 0 k 0 2 0 = -x 0 k from hzx k hk,
      show X 0 k 0 1 0 - Complex.I * X 0 k 0 2 0 = x 0 k from rfl] at a1
    have a3 : (starRingEnd ℂ) (Real.pi * (g.t (x 0) (g.x + (k : ℕ) * g.h) + Complex.I * x 0 k)) = 0 := by
      have e4 : (Real.pi * (-g.t (x 0) (g.x + (k : ℕ) * g.h) + Complex.I * -x 0 k) : ℂ) =
          -(Real.pi * (g.t (x 0) (g.x + (k : ℕ) * g.h) + Complex.I * x 0 k)) := by ring
      rw [e4, map_neg] at a1
      linear_combination a1 / 4
    rw [map_eq_zero] at a3
    rcases mul_eq_zero.1 a3 with h | h
    · exact absurd (Complex.ofReal_eq_zero.1 h) Real.pi_pos.ne'
    · exact h
  have x0 := two_zero hh hl hm
  have := ex 0 (by omega)
  rw [x0, mul_zero, hA.f 0 0 (by omega)] at this
  apply ho
  have h3 : ((1 - o 0 0 : ℝ) : ℂ) = 0 := by
    push_cast
    linear_combination -this / 2
  have : 1 - o 0 0 = 0 := by exact_mod_cast h3
  linarith

/-! ### The concrete system -/

/-- Two degenerate states, one lead, two grid points. -/
def exPair (v : View) : Sys :=
  ⟨v, fun _ => 0, fun _ b c => if b = 1 ∧ c = 0 ∨ b = 0 ∧ c = 1 then 1 else if b = 2 ∧ c = 0 then Complex.I
    else if b = 0 ∧ c = 2 then -Complex.I else 0, fun _ => 0, fun _ => 1, [(-1, 1)], some 2, 11 / 10⟩

theorem viewC_pair (nleads : Nat) : ∃ d : DM, VOkC (d.view nleads) d.lab0 d.lab1 ∧ d.statesdm = [[0], [1, 2], [], []] ∧
    d.ndm0 = 5 ∧ d.npauli = 3 ∧ d.ndm1 = 2 ∧ d.lab1 0 1 0 = 0 ∧ d.lab1 0 2 0 = 1 := by
  have key : (SI.init 2 "charge" >>= fun si => DM.init .dmc 2 "charge" >>= fun d0 => d0.setStatesdm [[0], [1, 2], []] >>= fun d =>
      .ok (d.statesdm, [d.ndm0, d.npauli, d.ndm1, d.lab1 0 1 0, d.lab1 0 2 0], [d0.si.ncharge, d0.si.nmany], decide (d.si.indexing = .charge))) =
      .ok ([[0], [1, 2], [], []], [5, 3, 2, 0, 1], [3, 4], true) := by decide +kernel
  obtain ⟨si, h1, key⟩ := bind_inv key
  obtain ⟨d0, h2, key⟩ := bind_inv key
  obtain ⟨d, h3, key⟩ := bind_inv key
  simp only [Except.ok.injEq, Prod.mk.injEq, decide_eq_true_iff, List.cons.injEq, and_true] at key
  obtain ⟨k1, ⟨k2, k3, k4, k5, k6⟩, ⟨k7, k8⟩, k9⟩ := key
  have leg : Legal d0.si [[0], [1, 2], []] := by
    refine ⟨by rw [k7]; rfl, ?_, ?_, ?_⟩
    · rw [k7]; decide
    · rw [k7]
      intro c c' h h'
      interval_cases c <;> interval_cases c' <;> simp
    · rw [k7, k8]; decide
  exact ⟨d, view_okC (Reach.set (Reach.init h1 h2) leg h3) (Or.inr k9) rfl, k1, k2, k3, k4, k5, k6⟩

/-- C89 does not hold for all density matrices: two iterations for two degenerate states with the amplitudes `1`, `i`. The
hypotheses of `c89_successive_partial` are met, but for the Hermitian matrix with the coherence `i` the result is not the next approximation. -/
theorem c89_false (solve lstsq : CMat → CVec → Option CVec) : ∃ (s s' : St) (lab ix1 : Nat → Nat → Nat → Nat) (D : Dot) (g : Grid)
    (A : Nat → Dot.Leads) (p : C4), Hist (Num.of exInv solve lstsq) s ∧ VOkC s.sys.v lab ix1 ∧ HermT s.sys.T ∧
    s.solve (Num.of exInv solve lstsq) true (some 2) = (s', none) ∧ IsDot D s.sys.v s.sys.E s.sys.T ∧ g.x = s.sys.band.1 ∧
    g.h = s.sys.band.2 - s.sys.band.1 ∧ g.len = 2 ∧ s'.grid = (List.range 2).map (fun k : Nat => g.x + k * g.h) ∧ s'.ext.left = g.left ∧
    s'.ext.right = g.right ∧ s'.phi1k = some p ∧
    IsLeads g s.sys.v.nleads (fun l k => 1 / (Real.exp ((g.x + k * g.h - s.sys.mu l) / s.sys.temp l) + 1)) A ∧
    ∃ (ρ : Mx) (φ : Nat → ℂ), (∀ m n, D.charge m ≠ D.charge n → ρ m n = 0) ∧
      (∀ c b bp, b ∈ s.sys.v.row c → bp ∈ s.sys.v.row c → ρ b bp = φ (lab c b bp)) ∧ (∀ b bp, ρ b bp = (starRingEnd ℂ) (ρ bp b)) ∧
      ¬ ∃ X, D.Successive g A ρ 1 X ∧ ∀ k l q c b, c ∈ s.sys.v.row (q + 1) → b ∈ s.sys.v.row q →
        X 1 k l c b = ∑ j ∈ range s.sys.v.ndm0, p k l (ix1 q c b) j * φ j := by
  obtain ⟨d, ok, hs, hn0, hnp, hn1, x1, x2⟩ := viewC_pair 1
  have rows : ∀ c, (d.view 1).row c = if c = 0 then [0] else if c = 1 then [1, 2] else [] := by
    intro c
    show d.statesdm[c]?.getD [] = _
    rw [hs]
    match c with
    | 0 => rfl
    | 1 => rfl
    | 2 => rfl
    | 3 => rfl
    | c + 4 => simp
  have r0 : (d.view 1).row 0 = [0] := rows 0
  have r1 : (d.view 1).row (0 + 1) = [1, 2] := rows 1
  have hb : (exPair (d.view 1)).band = (-1, 1) := by simp [Sys.band, exPair, lmin, lmax]
  have hT : HermT (exPair (d.view 1)).T := by
    intro l b c
    show (if _ then _ else _) = (starRingEnd ℂ) (if _ then _ else _)
    by_cases h1 : b = 1 ∧ c = 0 ∨ b = 0 ∧ c = 1
    · rw [if_pos h1, if_pos (by tauto), map_one]
    · rw [if_neg h1, if_neg (by tauto)]
      by_cases h2 : b = 2 ∧ c = 0
      · rw [if_pos h2, if_neg (by omega), if_pos (by tauto)]; simp
      · rw [if_neg h2]
        by_cases h3 : b = 0 ∧ c = 2
        · rw [if_pos h3, if_pos (by tauto)]; simp
        · rw [if_neg h3, if_neg (by tauto), if_neg (by tauto), map_zero]
  let D : Dot := ⟨{0, 1, 2}, fun m => if m = 0 then 0 else 1, fun _ => 0, 1, (exPair (d.view 1)).T⟩
  have pr : D.Pair := by
    refine ⟨rfl, rfl, rfl, rfl, fun _ => rfl, rfl, ?_, ?_, ?_, ?_⟩ <;> simp [D, exPair]
  have hD : IsDot D (d.view 1) (exPair (d.view 1)).E (exPair (d.view 1)).T := by
    refine ⟨fun m => ?_, fun c m hm => ?_, rfl, rfl, rfl⟩
    · show m ∈ ({0, 1, 2} : Finset Nat) ↔ _
      simp only [mem_insert, mem_singleton]
      constructor
      · rintro (rfl | rfl | rfl)
        · exact ⟨0, by rw [r0]; simp⟩
        · exact ⟨0 + 1, by rw [r1]; simp⟩
        · exact ⟨0 + 1, by rw [r1]; simp⟩
      · rintro ⟨c, hm⟩
        rw [rows] at hm
        split_ifs at hm
        · simp at hm; omega
        · simp at hm; omega
        · simp at hm
    · show (if m = 0 then 0 else 1) = c
      rw [rows] at hm
      split_ifs at hm with h1 h2
      · simp at hm; subst hm; subst h1; rfl
      · simp at hm; rw [if_neg (by omega), h2]
      · simp at hm
  have m0 : 0 ∈ (d.view 1).row 0 := by rw [r0]; simp
  have m1 : 1 ∈ (d.view 1).row (0 + 1) := by rw [r1]; simp
  have m2 : 2 ∈ (d.view 1).row (0 + 1) := by rw [r1]; simp
  have hi : Hist (Num.of exInv solve lstsq) (.fresh ⟨true, false, 0, some "solve", none⟩ (exPair (d.view 1))) := .new _ _
  have hv0 : (d.view 1).ndm0 = 5 := hn0
  have ho : OptOk (⟨true, false, 0, some "solve", none⟩ : Opts) (d.view 1) := ⟨rfl, fun _ => by
    change -((d.view 1).ndm0 : Int) ≤ 0 ∧ (0 : Int) < (d.view 1).ndm0
    omega⟩
  have hlt : (exPair (d.view 1)).band.1 < (exPair (d.view 1)).band.2 := by rw [hb]; norm_num
  obtain ⟨s', e⟩ := solve_ok hi ok (Nat.zero_lt_one) (n := 2) rfl le_rfl hlt (by simp [St.fresh]) ho
    (fun g hh h2 t A => pair_zeroth exInv_inverse exInv_finds ok pr hD m0 m1 m2 hn1 x1 x2 hh h2 A) 1
  obtain ⟨g, A, p, g1, g2, g3, g4, g5, g6, g7, g8, key⟩ := c89_code exInv_inverse hi ok (Nat.zero_lt_one) (n := 2) rfl le_rfl hlt
    (by simp [St.fresh]) e hD
  have g2' : g.h = (exPair (d.view 1)).band.2 - (exPair (d.view 1)).band.1 := by rw [g2]; simp [St.fresh]; norm_num
  have hbl : ∀ m n, D.charge m ≠ D.charge n → cohMx Complex.I m n = 0 := by
    intro m n h
    unfold cohMx
    rw [if_neg, if_neg]
    · rintro ⟨rfl, rfl⟩
      exact h (by rw [pr.c1, pr.c2])
    · rintro ⟨rfl, rfl⟩
      exact h (by rw [pr.c1, pr.c2])
  have hlab : ∀ c b bp, b ∈ (d.view 1).row c → bp ∈ (d.view 1).row c → cohMx Complex.I b bp =
      (fun j => if j = d.lab0 1 1 2 then Complex.I else if j = d.lab0 1 2 1 then -Complex.I else 0) (d.lab0 c b bp) := by
    intro c b bp hb hbp
    have k1 : d.lab0 c b bp = d.lab0 1 1 2 ↔ b = 1 ∧ bp = 2 := by
      constructor
      · intro h
        exact (ok.lab_inj _ _ _ _ _ _ hb hbp m1 m2 h).2
      · rintro ⟨rfl, rfl⟩
        rw [ok.disj _ _ _ hb m1]
    have k2 : d.lab0 c b bp = d.lab0 1 2 1 ↔ b = 2 ∧ bp = 1 := by
      constructor
      · intro h
        exact (ok.lab_inj _ _ _ _ _ _ hb hbp m2 m1 h).2
      · rintro ⟨rfl, rfl⟩
        rw [ok.disj _ _ _ hb m2]
    show cohMx Complex.I b bp = if d.lab0 c b bp = d.lab0 1 1 2 then _ else if d.lab0 c b bp = d.lab0 1 2 1 then _ else _
    unfold cohMx
    simp only [k1, k2]
  refine ⟨_, s', _, _, D, g, A, p, hi, ok, hT, e, hD, g1, g2', g3, g4, g5, g6, g7, g8, cohMx Complex.I,
    fun j => if j = d.lab0 1 1 2 then Complex.I else if j = d.lab0 1 2 1 then -Complex.I else 0, hbl, hlab, cohMx_herm, ?_⟩
  · rintro ⟨X, hX, hv⟩
    obtain ⟨Y, Z, f, y0, y1, yv⟩ := key (cohMx Complex.I)
      (fun j => if j = d.lab0 1 1 2 then Complex.I else if j = d.lab0 1 2 1 then -Complex.I else 0) hbl hlab
    simp only [cohMx_conj] at y0 y1
    obtain ⟨U, V, U', V', _, hU, y1⟩ := y1 0 (by omega)
    have hh : 0 < g.h := by rw [g2', hb]; norm_num
    refine pair_contra pr hh g3 g8 ?_ hX (fun i k l m n h => (f i k l m n h).1) (fun i k l m n h => (f i k l m n h).2) y0 hU
      (fun k hk l hl c hc b hb hq => (y1 k hk l hl c hc b hb hq).1) ?_
    · have := Real.exp_pos ((g.x + ((0 : ℕ) : ℝ) * g.h - (exPair (d.view 1)).mu 0) / (exPair (d.view 1)).temp 0)
      have h1 : 1 / (Real.exp ((g.x + ((0 : ℕ) : ℝ) * g.h - (exPair (d.view 1)).mu 0) / (exPair (d.view 1)).temp 0) + 1) < 1 := by
        rw [div_lt_one (by linarith)]
        linarith
      exact h1.ne
    · rintro k hk c (rfl | rfl)
      · rw [hv k 0 0 1 0 m1 m0, (yv k 0 0 1 0 m1 m0).1]
      · rw [hv k 0 0 2 0 m2 m0, (yv k 0 0 2 0 m2 m0).1]

end VN2

end

end Verif
