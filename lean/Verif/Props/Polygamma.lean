import Verif.Lemmas.Stirling
import Verif.Lemmas.Py
import Verif.Props.RTDIntLimits

/-! C88: the function `polygamma` and the derivatives of the digamma function. -/

namespace Verif

open Complex Finset
open scoped ComplexConjugate

namespace Polygamma

theorem shift_fold (V : ℂ) (K1 : ℕ) : ∀ l : List Int,
    l.foldl (fun (s : ℂ × ℂ) _ => (s.1 + 1, s.2 + 1 / (s.1 + 1) ^ K1)) (V, 1 / V ^ K1) =
      (V + l.length, ∑ j ∈ range (l.length + 1), 1 / (V + j) ^ K1) := by
  intro l
  induction l using List.reverseRecOn with
  | nil => simp
  | append_singleton l a ih =>
    rw [List.foldl_append, ih, List.foldl_cons, List.foldl_nil, List.length_append, List.length_singleton,
      sum_range_succ _ (l.length + 1)]
    push_cast
    rw [add_assoc V]

/-- The sum over the poles that the code goes over, and the remaining argument. -/
theorem shift_ok {z : ℂ} (hz : 0 < z.re) (K1 : ℕ) : ∃ m : ℕ, 15 ≤ (z + m).re ∧
    (if |z.re| < 15 then pgShift z |z.re| K1 else (z, 0)) = (z + m, ∑ j ∈ range m, 1 / (z + j) ^ K1) := by
  rw [abs_of_pos hz]
  by_cases h : z.re < 15
  · rw [if_pos h]
    have hi : VN2.pyInt z.re = ⌊z.re⌋ := by unfold VN2.pyInt; rw [if_pos hz.le]
    have hf0 : 0 ≤ ⌊z.re⌋ := Int.floor_nonneg.mpr hz.le
    have hf1 : ⌊z.re⌋ < 15 := Int.floor_lt.mpr (by exact_mod_cast h)
    refine ⟨(15 - ⌊z.re⌋).toNat + 1, ?_, ?_⟩
    · rw [Digamma.re_add_nat]
      have h1 := Int.floor_le z.re
      have h2 : (((15 - ⌊z.re⌋).toNat : ℕ) : ℝ) = 15 - (⌊z.re⌋ : ℝ) := by
        have : (((15 - ⌊z.re⌋).toNat : ℕ) : ℤ) = 15 - ⌊z.re⌋ := Int.toNat_of_nonneg (by omega)
        exact_mod_cast this
      push_cast
      rw [h2]
      linarith
    · unfold pgShift
      simp only [shift_fold, hi]
      have : (pyRange 0 (15 - ⌊z.re⌋) 1).length = (15 - ⌊z.re⌋).toNat := by
        unfold pyRange
        rw [List.length_map, List.length_range]
        congr 1
        omega
      rw [this]
      push_cast
      rw [add_assoc]
  · rw [if_neg h]
    exact ⟨0, by simpa using h, by simp⟩

theorem pg_eq {z : ℂ} (hz : 0 < z.re) {k : ℕ} (hk : k ≤ 4) : ∃ m : ℕ, 15 ≤ (z + m).re ∧
    polygamma z k = ((∑ j ∈ range m, 1 / (z + j) ^ (k + 1)) * (pgFct (k + 1) : ℂ) + pgTail (z + m) k) * (pgSgn k : ℂ) +
      if k = 0 then log (z + m) else 0 := by
  obtain ⟨m, hm, e⟩ := shift_ok hz (k + 1)
  refine ⟨m, hm, ?_⟩
  unfold polygamma
  rw [if_neg (by omega)]
  simp only [if_neg (not_lt.mpr hz.le), Int.toNat_natCast]
  rw [e]
  split_ifs <;> simp

theorem zeta_add (k : ℕ) {z : ℂ} (hz : 0 < z.re) (m : ℕ) :
    Digamma.zetaSum (k + 2) z = (∑ j ∈ range m, 1 / (z + j) ^ (k + 2)) + Digamma.zetaSum (k + 2) (z + m) := by
  unfold Digamma.zetaSum
  rw [← (Digamma.zeta_split k hz).1.sum_add_tsum_nat_add m]
  congr 1
  refine tsum_congr fun n => ?_
  push_cast
  rw [add_comm (n : ℂ), add_assoc]

end Polygamma

open Polygamma

/-- In the half-plane of positive real part `polygamma(z, K)` differs from the `K`-th derivative of the digamma function by at most
`1e-16`. -/
theorem c88_polygamma {z : ℂ} (hz : 0 < z.re) {K : ℕ} (hK : K ≤ 4) :
    ‖polygamma z K - iteratedDeriv K digamma z‖ ≤ 1e-16 := by
  obtain ⟨m, hm, e⟩ := pg_eq hz hK
  rw [e]
  have main : ∀ (k : ℕ) (f : ℂ) (T : ℂ) (s : ℂ), (s = 1 ∨ s = -1) → s = (-1) ^ k → f = ((k + 1).factorial : ℂ) →
      ‖T - f * Digamma.zetaSum (k + 2) (z + m)‖ ≤ 1e-16 →
      ‖((∑ j ∈ range m, 1 / (z + j) ^ (k + 1 + 1)) * f + T) * s + 0 - iteratedDeriv (k + 1) digamma z‖ ≤ 1e-16 := by
    intro k f T s hs hs' hf hT
    rw [Digamma.iter_deriv k hz, zeta_add k hz m, ← hs', ← hf]
    have e : ((∑ j ∈ range m, 1 / (z + j) ^ (k + 1 + 1)) * f + T) * s + 0 -
        s * f * ((∑ j ∈ range m, 1 / (z + j) ^ (k + 2)) + Digamma.zetaSum (k + 2) (z + m)) =
        s * (T - f * Digamma.zetaSum (k + 2) (z + m)) := by ring
    rw [e, norm_mul]
    rcases hs with rfl | rfl <;> simpa using hT
  match K, hK with
  | 0, _ =>
    have h := stir0_bound hm
    rw [digamma_shift hz m] at h
    rw [iteratedDeriv_zero]
    have e : ((∑ j ∈ range m, 1 / (z + j) ^ (0 + 1)) * (pgFct (0 + 1) : ℂ) + pgTail (z + m) 0) * (pgSgn 0 : ℂ) +
        (if (0 : ℕ) = 0 then log (z + m) else 0) - digamma z =
        log (z + m) - pgTail (z + m) 0 - (digamma z + ∑ n ∈ range m, 1 / (z + n)) := by
      simp only [zero_add, pow_one, pgFct, pgSgn, List.getD_cons_succ, List.getD_cons_zero, if_true]
      push_cast
      ring
    rw [e]
    exact h
  | 1, _ =>
    rw [if_neg (by omega)]
    refine main 0 _ _ _ (Or.inl ?_) ?_ ?_ ?_ <;> simp [pgSgn, pgFct]
    simpa using stir1_bound hm
  | 2, _ =>
    rw [if_neg (by omega)]
    refine main 1 _ _ _ (Or.inr ?_) ?_ ?_ ?_ <;> simp [pgSgn, pgFct, Nat.factorial]
    simpa using stir2_bound hm
  | 3, _ =>
    rw [if_neg (by omega)]
    refine main 2 _ _ _ (Or.inl ?_) ?_ ?_ ?_ <;> simp [pgSgn, pgFct, Nat.factorial]
    simpa using stir3_bound hm
  | 4, _ =>
    rw [if_neg (by omega)]
    refine main 3 _ _ _ (Or.inr ?_) ?_ ?_ ?_ <;> simp [pgSgn, pgFct, Nat.factorial]
    · norm_num
    simpa using stir4_bound hm

/-- Orders that the code does not know give zero. -/
theorem c88_orders (z : ℂ) {K : Int} (hK : K < 0 ∨ 4 < K) : polygamma z K = 0 := by
  unfold polygamma
  rw [if_pos hK]

/-- The derivative of the digamma function is real on the real axis. -/
theorem trigamma_real (x : ℝ) : (deriv digamma (x : ℂ)).im = 0 := by
  have h : (conj ∘ digamma ∘ conj : ℂ → ℂ) = digamma := by
    funext z
    simp [RTD.digamma_conj]
  have := congrFun (deriv_conj_conj (𝕜 := ℂ) (f := digamma)) (x : ℂ)
  rw [h] at this
  simp only [Function.comp, Complex.conj_ofReal] at this
  exact Complex.conj_eq_iff_im.mp this.symm

theorem tanh_half {x : ℝ} (hx : 1 ≤ x) : 1 / 2 ≤ Real.tanh x := by
  rw [Real.tanh_eq_sinh_div_cosh, Real.sinh_eq, Real.cosh_eq]
  have h1 : 2 ≤ Real.exp x := by
    have := Real.add_one_le_exp x
    linarith
  have h2 : Real.exp (-x) ≤ 1 / 2 := by
    rw [Real.exp_neg, inv_eq_one_div]
    exact one_div_le_one_div_of_le (by norm_num) h1
  have h3 := Real.exp_pos (-x)
  rw [le_div_iff₀ (by linarith)]
  linarith

/-- For negative real parts the result is wrong: at `-1/2` it is not even real. -/
theorem c88_negative_false : 1 / 2 ≤ ‖polygamma (-(1 / 2)) 1 - iteratedDeriv 1 digamma (-(1 / 2))‖ := by
  have h1 := c88_polygamma (z := 1 / 2) (by norm_num) (K := 1) (by norm_num)
  have r1 := trigamma_real (1 / 2)
  have r2 := trigamma_real (-(1 / 2))
  rw [iteratedDeriv_one] at h1 ⊢
  push_cast at r1 r2
  have i1 : |(polygamma (1 / 2) 1).im| ≤ 1e-16 := by
    have := (Complex.abs_im_le_norm _).trans h1
    rwa [Complex.sub_im, r1, sub_zero] at this
  have e0 : pgShift (1 / 2) (1 / 2) 2 = (33 / 2, (pgShift (1 / 2) (1 / 2) 2).2) := by
    refine Prod.ext ?_ rfl
    unfold pgShift
    have hi : VN2.pyInt (1 / 2) = 0 := by
      unfold VN2.pyInt
      rw [if_pos (by norm_num)]
      norm_num
    have hl : (pyRange 0 (15 - 0) 1).length = 15 := by simp [pyRange]
    simp only [shift_fold, hi, hl]
    norm_num
  have e : polygamma (-(1 / 2)) 1 = polygamma (1 / 2) 1 + pgReflect (1 / 2) (33 / 2) 1 := by
    have a1 : (-(1 / 2) : ℂ).re = -(1 / 2) := by norm_num
    have a2 : (1 / 2 : ℂ).re = 1 / 2 := by norm_num
    unfold polygamma
    simp only [a1, a2, neg_neg, abs_neg]
    rw [abs_of_pos (by norm_num : (0 : ℝ) < 1 / 2)]
    norm_num
    rw [e0]
  set T := Real.tanh (33 / 2 * Real.pi) with hT
  have hT1 : 1 / 2 ≤ T := tanh_half (by nlinarith [Real.pi_gt_three])
  have hT2 : T < 1 := Real.tanh_lt_one _
  have i2 : 0.6 ≤ (pgReflect (1 / 2) (33 / 2) 1).im := by
    have hs : Real.sin (33 / 2 * Real.pi) = 1 := by
      rw [show 33 / 2 * Real.pi = Real.pi / 2 + (8 : ℕ) * (2 * Real.pi) by push_cast; ring, Real.sin_add_nat_mul_two_pi,
        Real.sin_pi_div_two]
    have hc : Real.cos (33 / 2 * Real.pi) = 0 := by
      rw [show 33 / 2 * Real.pi = Real.pi / 2 + (8 : ℕ) * (2 * Real.pi) by push_cast; ring, Real.cos_add_nat_mul_two_pi,
        Real.cos_pi_div_two]
    have hre : ((33 / 2 : ℂ) * (Real.pi : ℂ)).re = 33 / 2 * Real.pi := by
      rw [show (33 / 2 : ℂ) = ((33 / 2 : ℝ) : ℂ) by push_cast; rfl, ← Complex.ofReal_mul, Complex.ofReal_re]
    have hd : (1 + T ^ 2) ≠ 0 := by positivity
    have hdc : ((1 : ℂ) + (T : ℂ) ^ 2) ≠ 0 := by exact_mod_cast hd
    have hne : (1 : ℂ) + I * (T : ℂ) ≠ 0 := by
      intro h
      have := congrArg Complex.re h
      simp at this
    have hP : (0 : ℂ) - I * 1 * (T : ℂ) / (1 + I * 1 * (T : ℂ)) =
        ((-(T ^ 2) / (1 + T ^ 2) : ℝ) : ℂ) + ((-T / (1 + T ^ 2) : ℝ) : ℂ) * I := by
      rw [mul_one, zero_sub, neg_eq_iff_eq_neg, div_eq_iff hne]
      push_cast
      field_simp
      linear_combination -(T : ℂ) ^ 2 * I_sq
    have hval : pgReflect (1 / 2) (33 / 2) 1 = (((1 / (1 / 2) ^ 2 + ((-(T ^ 2) / (1 + T ^ 2)) ^ 2 -
        (-T / (1 + T ^ 2)) ^ 2 + 1) * 9.869604401089358 : ℝ)) : ℂ) +
        ((2 * (-(T ^ 2) / (1 + T ^ 2)) * (-T / (1 + T ^ 2)) * 9.869604401089358 : ℝ) : ℂ) * I := by
      unfold pgReflect
      simp only [hre, hs, hc, ← hT, Complex.ofReal_one, Complex.ofReal_zero, one_ne_zero, if_true, if_false]
      rw [hP]
      push_cast
      linear_combination ((-T / (1 + T ^ 2) : ℂ)) ^ 2 * 9.869604401089358 * I_sq
    rw [hval, Complex.add_im, Complex.ofReal_im, Complex.im_ofReal_mul, Complex.I_im, mul_one, zero_add]
    have e2 : 2 * (-(T ^ 2) / (1 + T ^ 2)) * (-T / (1 + T ^ 2)) * 9.869604401089358 =
        2 * 9.869604401089358 * T ^ 3 / (1 + T ^ 2) ^ 2 := by
      field_simp
    rw [e2, le_div_iff₀ (by positivity)]
    have h3 : (1 / 2) ^ 3 ≤ T ^ 3 := by gcongr
    have h4 : (1 + T ^ 2) ^ 2 ≤ (1 + 1 ^ 2) ^ 2 := by gcongr
    norm_num at *
    linarith
  rw [e]
  refine le_trans ?_ (Complex.abs_im_le_norm _)
  rw [Complex.sub_im, Complex.add_im, r2, sub_zero]
  have := abs_le.mp i1
  refine le_trans ?_ (le_abs_self _)
  norm_num at *
  linarith

/-- The argument that the integrals of RTD use has the real part one half. -/
example (x : ℝ) : ‖polygamma (0.5 + (x / (2 * Real.pi) : ℝ) * I) 1 - iteratedDeriv 1 digamma (0.5 + (x / (2 * Real.pi) : ℝ) * I)‖ ≤
    1e-16 := by
  refine c88_polygamma (K := 1) ?_ (by norm_num)
  rw [Complex.add_re, Complex.re_ofReal_mul, Complex.I_re]
  norm_num

end Verif
