import Mathlib.Analysis.SpecialFunctions.Gamma.Digamma
import Mathlib.Analysis.Calculus.SmoothSeries
import Mathlib.Analysis.SpecialFunctions.Complex.LogDeriv
import Mathlib.Analysis.PSeries

/-! The derivatives of the digamma function as sums over the poles. -/

namespace Verif.Digamma

open Complex Filter Topology Finset

/-- A bounded part of the half-plane of positive real part. -/
def box (M : ℝ) : Set ℂ := {z | 0 < z.re} ∩ Metric.ball 0 M

theorem box_open (M : ℝ) : IsOpen (box M) :=
  (isOpen_lt continuous_const Complex.continuous_re).inter Metric.isOpen_ball

theorem box_pre (M : ℝ) : IsPreconnected (box M) :=
  ((convex_halfSpace_re_gt 0).inter (convex_ball 0 M)).isPreconnected

theorem mem_box {M : ℝ} {z : ℂ} : z ∈ box M ↔ 0 < z.re ∧ ‖z‖ < M := by simp [box]

theorem re_add_nat (z : ℂ) (n : ℕ) : (z + n).re = z.re + n := by simp

theorem le_norm_add {z : ℂ} (hz : 0 < z.re) (n : ℕ) : (n : ℝ) ≤ ‖z + n‖ := by
  have := Complex.re_le_norm (z + n)
  rw [re_add_nat] at this
  linarith

theorem add_ne {z : ℂ} (hz : 0 < z.re) (n : ℕ) : z + n ≠ 0 := by
  intro h
  have := congrArg Complex.re h
  rw [re_add_nat, Complex.zero_re] at this
  have : (0 : ℝ) ≤ n := Nat.cast_nonneg n
  linarith

/-- The terms of the logarithm of `z Γ(z)`; the number `n` stands for `n + 1`. -/
noncomputable def lgTerm (n : ℕ) (z : ℂ) : ℂ :=
  z * (Real.log (1 + 1 / ((n : ℝ) + 1)) : ℝ) - log (1 + z / ((n : ℂ) + 1))

noncomputable def psTerm (n : ℕ) (z : ℂ) : ℂ := (Real.log (1 + 1 / ((n : ℝ) + 1)) : ℝ) - 1 / (z + ((n + 1 : ℕ) : ℂ))

theorem lg_slit {z : ℂ} (hz : 0 < z.re) (n : ℕ) : 1 + z / ((n : ℂ) + 1) ∈ slitPlane := by
  left
  have e : z / ((n : ℂ) + 1) = z / (((n : ℝ) + 1 : ℝ) : ℂ) := by push_cast; rfl
  rw [e, Complex.add_re, Complex.one_re, Complex.div_ofReal_re]
  positivity

theorem lgTerm_deriv (n : ℕ) {z : ℂ} (hz : 0 < z.re) : HasDerivAt (lgTerm n) (psTerm n z) z := by
  have h1 : HasDerivAt (fun z : ℂ => z * ((Real.log (1 + 1 / ((n : ℝ) + 1)) : ℝ) : ℂ))
      (Real.log (1 + 1 / ((n : ℝ) + 1)) : ℝ) z := by
    simpa using (hasDerivAt_id z).mul_const ((Real.log (1 + 1 / ((n : ℝ) + 1)) : ℝ) : ℂ)
  have h2 : HasDerivAt (fun z : ℂ => log (1 + z / ((n : ℂ) + 1))) ((1 / ((n : ℂ) + 1)) / (1 + z / ((n : ℂ) + 1))) z :=
    (((hasDerivAt_id z).div_const _).const_add 1).clog (lg_slit hz n)
  have h3 := h1.sub h2
  have hn : ((n : ℂ) + 1) ≠ 0 := by exact_mod_cast Nat.succ_ne_zero n
  have hz1 : z + ((n + 1 : ℕ) : ℂ) ≠ 0 := add_ne hz (n + 1)
  have hz2 : 1 + z / ((n : ℂ) + 1) ≠ 0 := slitPlane_ne_zero (lg_slit hz n)
  have e : psTerm n z = (Real.log (1 + 1 / ((n : ℝ) + 1)) : ℝ) - (1 / ((n : ℂ) + 1)) / (1 + z / ((n : ℂ) + 1)) := by
    unfold psTerm
    congr 1
    push_cast at hz1 ⊢
    have h4 : ((n : ℂ) + 1) + z ≠ 0 := by rwa [show ((n : ℂ) + 1) + z = z + (n + 1) by ring]
    field_simp
    rw [add_comm]
  rw [e]
  exact h3

theorem log_bound (n : ℕ) : |Real.log (1 + 1 / ((n : ℝ) + 1)) - 1 / ((n : ℝ) + 1)| ≤ 1 / ((n : ℝ) + 1) ^ 2 := by
  have hx : 0 < 1 / ((n : ℝ) + 1) := by positivity
  set x := 1 / ((n : ℝ) + 1) with hxd
  have h1 : Real.log (1 + x) ≤ x := by
    have := Real.log_le_sub_one_of_pos (x := 1 + x) (by linarith)
    linarith
  have h2 : 1 - (1 + x)⁻¹ ≤ Real.log (1 + x) := Real.one_sub_inv_le_log_of_pos (by linarith)
  have h3 : x - x ^ 2 ≤ 1 - (1 + x)⁻¹ := by
    have : (1 + x)⁻¹ ≤ 1 - x + x ^ 2 := by
      rw [inv_le_iff_one_le_mul₀ (by linarith)]
      nlinarith [pow_pos hx 3]
    linarith
  have e : 1 / ((n : ℝ) + 1) ^ 2 = x ^ 2 := by rw [hxd, div_pow, one_pow]
  rw [e, abs_le]
  constructor <;> nlinarith

theorem psTerm_bound (n : ℕ) {z : ℂ} {M : ℝ} (hz : z ∈ box M) : ‖psTerm n z‖ ≤ (1 + M) * (1 / ((n : ℝ) + 1) ^ 2) := by
  obtain ⟨hz0, hM⟩ := mem_box.mp hz
  have hn : ((n : ℂ) + 1) ≠ 0 := by exact_mod_cast Nat.succ_ne_zero n
  have hz1 : z + ((n + 1 : ℕ) : ℂ) ≠ 0 := add_ne hz0 (n + 1)
  have hnb := le_norm_add hz0 (n + 1)
  have e : psTerm n z = ((Real.log (1 + 1 / ((n : ℝ) + 1)) - 1 / ((n : ℝ) + 1) : ℝ) : ℂ) +
      z / (((n : ℂ) + 1) * (z + ((n + 1 : ℕ) : ℂ))) := by
    unfold psTerm
    push_cast at hz1 ⊢
    field_simp
    ring
  rw [e]
  refine (norm_add_le _ _).trans ?_
  rw [Complex.norm_real, Real.norm_eq_abs, norm_div, norm_mul, add_mul, one_mul]
  refine add_le_add (log_bound n) ?_
  have h1 : ‖((n : ℂ) + 1)‖ = (n : ℝ) + 1 := by
    rw [show ((n : ℂ) + 1) = (((n : ℝ) + 1 : ℝ) : ℂ) by push_cast; rfl, Complex.norm_real, Real.norm_eq_abs,
      abs_of_pos (by positivity)]
  rw [h1, mul_one_div, sq]
  push_cast at hnb ⊢
  have hp : (0 : ℝ) < (n : ℝ) + 1 := by positivity
  have hM0 : 0 ≤ M := (norm_nonneg z).trans hM.le
  gcongr

theorem sum_bound (c : ℝ) : Summable fun n : ℕ => c * (1 / ((n : ℝ) + 1) ^ 2) := by
  refine Summable.mul_left _ ?_
  have := (summable_nat_add_iff (f := fun n : ℕ => 1 / (n : ℝ) ^ 2) 1).mpr (Real.summable_one_div_nat_pow.mpr one_lt_two)
  simpa using this

theorem lgTerm_one (n : ℕ) : lgTerm n 1 = 0 := by
  unfold lgTerm
  rw [one_mul, Complex.ofReal_log (by positivity)]
  push_cast
  ring

theorem lg_hasDeriv {z : ℂ} (hz : 0 < z.re) : Summable (fun n => lgTerm n z) ∧
    HasDerivAt (fun z => ∑' n, lgTerm n z) (∑' n, psTerm n z) z := by
  set M := ‖z‖ + 2
  have hb : z ∈ box M := mem_box.mpr ⟨hz, by simp [M]⟩
  have h1 : (1 : ℂ) ∈ box M := mem_box.mpr ⟨by simp, by simp [M]; linarith [norm_nonneg z]⟩
  have hs : Summable fun n => lgTerm n 1 := by simp only [lgTerm_one]; exact summable_zero
  exact ⟨summable_of_summable_hasDerivAt_of_isPreconnected (sum_bound (1 + M)) (box_open M) (box_pre M)
      (fun n y hy => lgTerm_deriv n (mem_box.mp hy).1) (fun n y hy => psTerm_bound n hy) h1 hs hb,
    hasDerivAt_tsum_of_isPreconnected (sum_bound (1 + M)) (box_open M) (box_pre M)
      (fun n y hy => lgTerm_deriv n (mem_box.mp hy).1) (fun n y hy => psTerm_bound n hy) h1 hs hb⟩

theorem exp_partial {z : ℂ} (hz : 0 < z.re) : ∀ n : ℕ, exp (∑ k ∈ range n, lgTerm k z) * ∏ j ∈ range (n + 1), (z + j) =
    exp (z * (Real.log ((n : ℝ) + 1) : ℝ)) * n.factorial * z
  | 0 => by simp
  | n + 1 => by
    have ih := exp_partial hz n
    rw [sum_range_succ, prod_range_succ, exp_add]
    have hn : ((n : ℂ) + 1) ≠ 0 := by exact_mod_cast Nat.succ_ne_zero n
    have hz1 : z + ((n + 1 : ℕ) : ℂ) ≠ 0 := add_ne hz (n + 1)
    have hz2 : 1 + z / ((n : ℂ) + 1) ≠ 0 := slitPlane_ne_zero (lg_slit hz n)
    have e1 : exp (lgTerm n z) * (z + ((n + 1 : ℕ) : ℂ)) =
        exp (z * (Real.log (1 + 1 / ((n : ℝ) + 1)) : ℝ)) * ((n : ℂ) + 1) := by
      unfold lgTerm
      rw [exp_sub, exp_log hz2]
      push_cast
      push_cast at hz1
      have hz3 : ((n : ℂ) + 1) + z ≠ 0 := by rwa [show ((n : ℂ) + 1) + z = z + (n + 1) by ring]
      field_simp
      ring
    have e2 : Real.log (((n + 1 : ℕ) : ℝ) + 1) = Real.log ((n : ℝ) + 1) + Real.log (1 + 1 / ((n : ℝ) + 1)) := by
      rw [← Real.log_mul (by positivity) (by positivity)]
      congr 1
      push_cast
      field_simp
    rw [e2, Complex.ofReal_add, mul_add z, exp_add (z * _), Nat.factorial_succ]
    calc _ = (exp (∑ k ∈ range n, lgTerm k z) * ∏ j ∈ range (n + 1), (z + j)) *
          (exp (lgTerm n z) * (z + ((n + 1 : ℕ) : ℂ))) := by ring
      _ = _ := by rw [ih, e1]; push_cast; ring

theorem gamma_exp {z : ℂ} (hz : 0 < z.re) : Gamma z = exp (∑' n, lgTerm n z) / z := by
  have hz0 : z ≠ 0 := by rintro rfl; simp at hz
  have h1 : Tendsto (fun n => exp (∑ k ∈ range n, lgTerm k z) / z) atTop (𝓝 (exp (∑' n, lgTerm n z) / z)) :=
    ((Complex.continuous_exp.tendsto _).comp (lg_hasDeriv hz).1.hasSum.tendsto_sum_nat).div_const z
  have h2 : Tendsto (fun n : ℕ => GammaSeq z n * exp (z * (Real.log (1 + 1 / (n : ℝ)) : ℝ))) atTop (𝓝 (Gamma z * 1)) := by
    refine (GammaSeq_tendsto_Gamma z).mul ?_
    have : Tendsto (fun n : ℕ => 1 + 1 / (n : ℝ)) atTop (𝓝 (1 + 0)) :=
      tendsto_const_nhds.add tendsto_one_div_atTop_nhds_zero_nat
    rw [add_zero] at this
    have := (Real.continuousAt_log one_ne_zero).tendsto.comp this
    rw [Real.log_one] at this
    have := ((Complex.continuous_ofReal.tendsto 0).comp this).const_mul z
    have := (Complex.continuous_exp.tendsto _).comp this
    simpa [Function.comp_def] using this
  rw [mul_one] at h2
  refine tendsto_nhds_unique h2 (h1.congr' ?_)
  filter_upwards [eventually_ge_atTop 1] with n hn
  have hp : ∏ j ∈ range (n + 1), (z + j) ≠ 0 := prod_ne_zero_iff.mpr fun j _ => add_ne hz j
  have h := exp_partial hz n
  have hn0 : (n : ℂ) ≠ 0 := by exact_mod_cast (by omega : n ≠ 0)
  have hnr : (0 : ℝ) < n := by exact_mod_cast hn
  have e : exp (z * (Real.log ((n : ℝ) + 1) : ℝ)) = (n : ℂ) ^ z * exp (z * (Real.log (1 + 1 / (n : ℝ)) : ℝ)) := by
    rw [Complex.cpow_def_of_ne_zero hn0, ← exp_add, ← Complex.natCast_log, mul_comm _ z, ← mul_add, ← Complex.ofReal_add,
      ← Real.log_mul (by positivity) (by positivity)]
    congr 4
    field_simp
  rw [e] at h
  unfold GammaSeq
  rw [div_eq_iff hz0, div_mul_eq_mul_div, div_mul_eq_mul_div, eq_div_iff hp, h]
  ring

/-- The digamma function as a sum over its poles. -/
theorem digamma_eq {z : ℂ} (hz : 0 < z.re) : digamma z = (∑' n, psTerm n z) - 1 / z := by
  have hz0 : z ≠ 0 := by rintro rfl; simp at hz
  have hd : HasDerivAt (fun z => exp (∑' n, lgTerm n z) / z)
      ((exp (∑' n, lgTerm n z) * (∑' n, psTerm n z) * z - exp (∑' n, lgTerm n z) * 1) / z ^ 2) z :=
    ((lg_hasDeriv hz).2.cexp).div (hasDerivAt_id z) hz0
  have he : Gamma =ᶠ[𝓝 z] fun z => exp (∑' n, lgTerm n z) / z := by
    filter_upwards [(isOpen_lt continuous_const Complex.continuous_re).mem_nhds hz] with y hy
    exact gamma_exp hy
  rw [digamma_def, logDeriv_apply, he.deriv_eq, hd.deriv, gamma_exp hz]
  have := exp_ne_zero (∑' n, lgTerm n z)
  field_simp

/-- The sum of powers over the poles. -/
noncomputable def zetaSum (k : ℕ) (z : ℂ) : ℂ := ∑' n : ℕ, 1 / (z + n) ^ k

theorem pow_bound (k : ℕ) (n : ℕ) {z : ℂ} (hz : 0 < z.re) : ‖1 / (z + ((n + 1 : ℕ) : ℂ)) ^ (k + 2)‖ ≤ 1 / ((n : ℝ) + 1) ^ 2 := by
  have h := le_norm_add hz (n + 1)
  rw [norm_div, norm_one, norm_pow]
  have h1 : (1 : ℝ) ≤ ‖z + ((n + 1 : ℕ) : ℂ)‖ := by
    push_cast at h ⊢
    have : (0 : ℝ) ≤ n := Nat.cast_nonneg n
    linarith
  apply one_div_le_one_div_of_le (by positivity)
  calc ((n : ℝ) + 1) ^ 2 ≤ ‖z + ((n + 1 : ℕ) : ℂ)‖ ^ 2 := by push_cast at h ⊢; gcongr
    _ ≤ _ := pow_le_pow_right₀ h1 (by omega)

theorem pow_deriv (k n : ℕ) {z : ℂ} (hz : 0 < z.re) :
    HasDerivAt (fun z : ℂ => 1 / (z + n) ^ (k + 1)) (-(k + 1) * (1 / (z + n) ^ (k + 2))) z := by
  have h0 := add_ne hz n
  have h1 := (((hasDerivAt_id z).add_const (n : ℂ)).pow (k + 1)).inv (pow_ne_zero _ h0)
  have e : (fun z : ℂ => 1 / (z + n) ^ (k + 1)) = ((fun x : ℂ => id x + (n : ℂ)) ^ (k + 1))⁻¹ := by
    funext y
    simp
  rw [e]
  refine h1.congr_deriv ?_
  simp only [id, Nat.add_sub_cancel, Pi.pow_apply]
  push_cast
  field_simp
  ring

theorem zeta_split (k : ℕ) {z : ℂ} (hz : 0 < z.re) : Summable (fun n : ℕ => 1 / (z + n) ^ (k + 2)) ∧
    zetaSum (k + 2) z = 1 / z ^ (k + 2) + ∑' n : ℕ, 1 / (z + ((n + 1 : ℕ) : ℂ)) ^ (k + 2) := by
  have h1 : Summable fun n : ℕ => 1 / (z + ((n + 1 : ℕ) : ℂ)) ^ (k + 2) := by
    have := sum_bound 1
    simp only [one_mul] at this
    exact Summable.of_norm_bounded this fun n => pow_bound k n hz
  have h2 : Summable (fun n : ℕ => 1 / (z + n) ^ (k + 2)) :=
    (summable_nat_add_iff (f := fun n : ℕ => 1 / (z + n) ^ (k + 2)) 1).mp h1
  refine ⟨h2, ?_⟩
  unfold zetaSum
  rw [h2.tsum_eq_zero_add]
  simp

theorem digamma_deriv {z : ℂ} (hz : 0 < z.re) : HasDerivAt digamma (zetaSum 2 z) z := by
  have hz0 : z ≠ 0 := by rintro rfl; simp at hz
  set M := ‖z‖ + 2
  have hb : z ∈ box M := mem_box.mpr ⟨hz, by simp [M]⟩
  have hs : Summable fun n => psTerm n z := Summable.of_norm_bounded (sum_bound (1 + M)) fun n => psTerm_bound n hb
  have hd : HasDerivAt (fun z => ∑' n, psTerm n z) (∑' n : ℕ, 1 / (z + ((n + 1 : ℕ) : ℂ)) ^ (0 + 2)) z := by
    have hu := sum_bound 1
    simp only [one_mul] at hu
    refine hasDerivAt_tsum_of_isPreconnected hu (box_open M) (box_pre M) (fun n y hy => ?_)
      (fun n y hy => pow_bound 0 n (mem_box.mp hy).1) hb hs hb
    have := (pow_deriv 0 (n + 1) (mem_box.mp hy).1).const_sub ((Real.log (1 + 1 / ((n : ℝ) + 1)) : ℝ) : ℂ)
    have e : psTerm n = fun z => ((Real.log (1 + 1 / ((n : ℝ) + 1)) : ℝ) : ℂ) - 1 / (z + ((n + 1 : ℕ) : ℂ)) ^ (0 + 1) := by
      funext z
      simp [psTerm]
    rw [e]
    refine this.congr_deriv ?_
    simp
  have h1 : HasDerivAt (fun z : ℂ => 1 / z) (-(1 / z ^ 2)) z := by
    simpa using pow_deriv 0 0 hz
  have h2 := hd.sub h1
  have he : digamma =ᶠ[𝓝 z] fun z => (∑' n, psTerm n z) - 1 / z := by
    filter_upwards [(isOpen_lt continuous_const Complex.continuous_re).mem_nhds hz] with y hy
    exact digamma_eq hy
  have h3 := h2.congr_of_eventuallyEq he
  rwa [sub_neg_eq_add, add_comm, ← (zeta_split 0 hz).2] at h3

theorem zeta_deriv (k : ℕ) {z : ℂ} (hz : 0 < z.re) :
    HasDerivAt (zetaSum (k + 2)) (-(k + 2) * zetaSum (k + 3) z) z := by
  have hu := sum_bound (k + 2)
  have hd : HasDerivAt (fun z : ℂ => ∑' n : ℕ, 1 / (z + ((n + 1 : ℕ) : ℂ)) ^ (k + 2))
      (∑' n : ℕ, -((k + 1 : ℕ) + 1 : ℂ) * (1 / (z + ((n + 1 : ℕ) : ℂ)) ^ (k + 1 + 2))) z := by
    have hb : z ∈ box (‖z‖ + 2) := mem_box.mpr ⟨hz, by simp⟩
    have hs := (summable_nat_add_iff (f := fun n : ℕ => 1 / (z + n) ^ (k + 2)) 1).mpr (zeta_split k hz).1
    refine hasDerivAt_tsum_of_isPreconnected (g := fun (n : ℕ) (z : ℂ) => 1 / (z + ((n + 1 : ℕ) : ℂ)) ^ (k + 2))
      (g' := fun (n : ℕ) (z : ℂ) => -((k + 1 : ℕ) + 1 : ℂ) * (1 / (z + ((n + 1 : ℕ) : ℂ)) ^ (k + 1 + 2)))
      hu (box_open (‖z‖ + 2)) (box_pre _) (fun n y hy => ?_) (fun n y hy => ?_) hb hs hb
    · exact pow_deriv (k + 1) (n + 1) (mem_box.mp hy).1
    · rw [norm_mul, norm_neg]
      have e : ‖((k + 1 : ℕ) + 1 : ℂ)‖ = (k : ℝ) + 2 := by
        rw [show ((k + 1 : ℕ) + 1 : ℂ) = ((k + 2 : ℕ) : ℂ) by push_cast; ring, Complex.norm_natCast]
        push_cast; rfl
      rw [e]
      exact mul_le_mul_of_nonneg_left (pow_bound (k + 1) n (mem_box.mp hy).1) (by positivity)
  have h1 : HasDerivAt (fun z : ℂ => 1 / z ^ (k + 2)) (-((k + 1 : ℕ) + 1) * (1 / z ^ (k + 1 + 2))) z := by
    simpa using pow_deriv (k + 1) 0 hz
  have h2 := h1.add hd
  have he : zetaSum (k + 2) =ᶠ[𝓝 z] fun z => 1 / z ^ (k + 2) + ∑' n : ℕ, 1 / (z + ((n + 1 : ℕ) : ℂ)) ^ (k + 2) := by
    filter_upwards [(isOpen_lt continuous_const Complex.continuous_re).mem_nhds hz] with y hy
    exact (zeta_split k hy).2
  have h3 := h2.congr_of_eventuallyEq he
  rw [tsum_mul_left, ← mul_add, ← (zeta_split (k + 1) hz).2] at h3
  refine h3.congr_deriv ?_
  push_cast
  ring

/-- The derivatives of the digamma function. -/
theorem iter_deriv : ∀ (k : ℕ) {z : ℂ}, 0 < z.re →
    iteratedDeriv (k + 1) digamma z = (-1) ^ k * (k + 1).factorial * zetaSum (k + 2) z
  | 0, z, hz => by
    rw [iteratedDeriv_succ, iteratedDeriv_zero, (digamma_deriv hz).deriv]
    simp
  | k + 1, z, hz => by
    have he : iteratedDeriv (k + 1) digamma =ᶠ[𝓝 z] fun z => (-1) ^ k * (k + 1).factorial * zetaSum (k + 2) z := by
      filter_upwards [(isOpen_lt continuous_const Complex.continuous_re).mem_nhds hz] with y hy
      exact iter_deriv k hy
    rw [iteratedDeriv_succ, he.deriv_eq, ((zeta_deriv k hz).const_mul _).deriv, Nat.factorial_succ (k + 1)]
    push_cast
    ring

end Verif.Digamma
