import Verif.Spec.Ozaki
import Verif.Lemmas.Py
import Mathlib.LinearAlgebra.Matrix.NonsingularInverse
import Mathlib.Analysis.Matrix.Spectrum
import Mathlib.Analysis.SpecialFunctions.Trigonometric.Series
import Mathlib.Analysis.SpecialFunctions.Exponential

/-! C87: the expansion of Ozaki is the continued fraction of the hyperbolic tangent. -/

namespace Verif

open Finset

namespace Ozaki

/-! ### The continued fraction -/

theorem cf_ge (y : ℝ) : ∀ n (a : ℝ), 0 < a → a ≤ cfTail y n a
  | 0, _, _ => le_rfl
  | n + 1, a, ha => by
    have h := cf_ge y n (a + 2) (by linarith)
    have : 0 ≤ y ^ 2 / cfTail y n (a + 2) := div_nonneg (sq_nonneg y) (by linarith)
    show a ≤ a + _
    linarith

/-- The product of the odd numbers below `2 n`. -/
noncomputable def odds (n : Nat) : ℝ := ∏ k ∈ range n, (2 * (k : ℝ) + 1)

theorem odds_succ (n : Nat) : odds (n + 1) = odds n * (2 * n + 1) := by simp [odds, prod_range_succ]

theorem one_le_odds : ∀ n, 1 ≤ odds n
  | 0 => by simp [odds]
  | n + 1 => by
    rw [odds_succ]
    have h := one_le_odds n
    have : (0 : ℝ) ≤ n := Nat.cast_nonneg n
    nlinarith

noncomputable def sigTerm (y : ℝ) (k m : Nat) : ℝ := y ^ (2 * m) / (2 ^ m * m.factorial * odds (m + k))

theorem sigTerm_nonneg (y : ℝ) (k m : Nat) : 0 ≤ sigTerm y k m := by
  have := one_le_odds (m + k)
  unfold sigTerm
  rw [pow_mul]
  positivity

theorem sig_summable (y : ℝ) (k : Nat) : Summable (sigTerm y k) := by
  refine Summable.of_nonneg_of_le (sigTerm_nonneg y k) (fun m => ?_) (Real.summable_pow_div_factorial (y ^ 2))
  unfold sigTerm
  rw [pow_mul]
  have h1 := one_le_odds (m + k)
  have h2 : (1 : ℝ) ≤ 2 ^ m := one_le_pow₀ (by norm_num)
  have h3 : (0 : ℝ) < m.factorial := by positivity
  apply div_le_div_of_nonneg_left (by positivity) h3
  calc (m.factorial : ℝ) = 1 * m.factorial * 1 := by ring
    _ ≤ _ := by gcongr

noncomputable def sig (y : ℝ) (k : Nat) : ℝ := ∑' m, sigTerm y k m

theorem sig_pos (y : ℝ) (k : Nat) : 0 < sig y k := by
  refine (sig_summable y k).tsum_pos (sigTerm_nonneg y k) 0 ?_
  have := one_le_odds (0 + k)
  unfold sigTerm
  simp only [mul_zero, pow_zero, Nat.factorial_zero, Nat.cast_one, one_mul]
  positivity

theorem sig_rec (y : ℝ) (k : Nat) : sig y k = (2 * k + 1) * sig y (k + 1) + y ^ 2 * sig y (k + 2) := by
  have e : ∀ m, sigTerm y k m = (2 * k + 1) * sigTerm y (k + 1) m +
      y ^ (2 * m) * (2 * m) / (2 ^ m * m.factorial * odds (m + k + 1)) := by
    intro m
    have h1 := one_le_odds (m + k)
    have h3 : (m.factorial : ℝ) ≠ 0 := by positivity
    have h4 : odds (m + k) ≠ 0 := by positivity
    have h5 : (2 * ((m + k : ℕ) : ℝ) + 1) ≠ 0 := by positivity
    unfold sigTerm
    rw [show m + (k + 1) = m + k + 1 from rfl, odds_succ]
    field_simp
    push_cast
    ring
  have s := ((sig_summable y k).sub ((sig_summable y (k + 1)).mul_left (2 * (k : ℝ) + 1)))
  have t : HasSum (fun m : ℕ => y ^ (2 * m) * (2 * m) / (2 ^ m * m.factorial * odds (m + k + 1)))
      (y ^ 2 * sig y (k + 2)) := by
    rw [← hasSum_nat_add_iff' 1]
    have : (∑ i ∈ range 1, y ^ (2 * i) * (2 * (i : ℝ)) / (2 ^ i * i.factorial * odds (i + k + 1))) = 0 := by simp
    rw [this, sub_zero]
    refine ((sig_summable y (k + 2)).hasSum.mul_left (y ^ 2)).congr_fun ?_
    intro m
    have h1 := one_le_odds (m + 1 + k + 1)
    have h3 : (m.factorial : ℝ) ≠ 0 := by positivity
    unfold sigTerm
    rw [show m + (k + 2) = m + 1 + k + 1 by omega, Nat.factorial_succ]
    have h4 : odds (m + 1 + k + 1) ≠ 0 := by positivity
    have h5 : ((m : ℝ) + 1) ≠ 0 := by positivity
    push_cast
    field_simp
    ring
  have := ((sig_summable y (k + 1)).hasSum.mul_left (2 * (k : ℝ) + 1)).add t
  exact ((sig_summable y k).hasSum.congr_fun (fun m => (e m).symm)).unique this |>.trans rfl

theorem fact_even : ∀ m, (2 : ℝ) ^ m * m.factorial * odds m = ((2 * m).factorial : ℝ)
  | 0 => by simp [odds]
  | m + 1 => by
    rw [odds_succ, show 2 * (m + 1) = 2 * m + 1 + 1 by ring, Nat.factorial_succ, Nat.factorial_succ,
      Nat.factorial_succ]
    push_cast
    rw [← fact_even m]
    ring

theorem sig_zero (y : ℝ) : sig y 0 = Real.cosh y := by
  refine HasSum.tsum_eq ?_
  refine (Real.hasSum_cosh y).congr_fun fun m => ?_
  unfold sigTerm
  rw [add_zero, fact_even]

theorem sig_one (y : ℝ) : y * sig y 1 = Real.sinh y := by
  refine ((sig_summable y 1).hasSum.mul_left y).unique ?_
  refine (Real.hasSum_sinh y).congr_fun fun m => ?_
  unfold sigTerm
  rw [odds_succ, ← mul_assoc, fact_even, Nat.factorial_succ]
  push_cast
  have : ((2 * m).factorial : ℝ) ≠ 0 := by positivity
  have : (2 * (m : ℝ) + 1) ≠ 0 := by positivity
  field_simp
  ring

/-- The infinite tails. -/
noncomputable def tail (y : ℝ) (k : Nat) : ℝ := sig y k / sig y (k + 1)

theorem tail_rec (y : ℝ) (k : Nat) : tail y k = (2 * k + 1) + y ^ 2 / tail y (k + 1) := by
  have h1 := sig_pos y (k + 1)
  have h2 := sig_pos y (k + 2)
  unfold tail
  rw [sig_rec y k]
  field_simp

theorem tail_pos (y : ℝ) (k : Nat) : 0 < tail y k := div_pos (sig_pos y k) (sig_pos y (k + 1))

theorem tail_ge (y : ℝ) (k : Nat) : 2 * (k : ℝ) + 1 ≤ tail y k := by
  rw [tail_rec]
  have := div_nonneg (sq_nonneg y) (tail_pos y (k + 1)).le
  linarith

theorem tanh_tail (y : ℝ) : Real.tanh y = y / tail y 0 := by
  rw [Real.tanh_eq_sinh_div_cosh, ← sig_zero, ← sig_one, tail]
  have h1 := sig_pos y 0
  have h2 := sig_pos y 1
  field_simp

theorem cf_tail_err (y : ℝ) : ∀ r k : ℕ, |cfTail y r (2 * (k : ℝ) + 1) - tail y k| ≤
    y ^ (2 * (r + 1)) * odds (k + 1) ^ 2 / (odds (k + r + 1) ^ 2 * (2 * ((k + r : ℕ) : ℝ) + 3))
  | 0, k => by
    have h := tail_ge y (k + 1)
    have h' := tail_pos y (k + 1)
    have ho := one_le_odds (k + 1)
    have e : cfTail y 0 (2 * (k : ℝ) + 1) - tail y k = - (y ^ 2 / tail y (k + 1)) := by
      rw [tail_rec y k]; simp [cfTail]
    rw [e, abs_neg, abs_of_nonneg (div_nonneg (sq_nonneg y) h'.le)]
    have : y ^ (2 * (0 + 1)) * odds (k + 1) ^ 2 / (odds (k + 0 + 1) ^ 2 * (2 * ((k + 0 : ℕ) : ℝ) + 3)) =
        y ^ 2 / (2 * (k : ℝ) + 3) := by
      have : odds (k + 1) ≠ 0 := by positivity
      rw [add_zero]
      field_simp
    rw [this]
    apply div_le_div_of_nonneg_left (sq_nonneg y) (by positivity)
    push_cast at h
    linarith
  | r + 1, k => by
    have ih := cf_tail_err y r (k + 1)
    have hc := cf_ge y r (2 * (k : ℝ) + 1 + 2) (by positivity)
    have ht := tail_ge y (k + 1)
    have ht' := tail_pos y (k + 1)
    have e0 : 2 * ((k + 1 : ℕ) : ℝ) + 1 = 2 * (k : ℝ) + 1 + 2 := by push_cast; ring
    rw [e0] at ih ht
    have hk : (0 : ℝ) ≤ k := Nat.cast_nonneg k
    have hc' : 0 < cfTail y r (2 * (k : ℝ) + 1 + 2) := by linarith
    have e : cfTail y (r + 1) (2 * (k : ℝ) + 1) - tail y k =
        - (y ^ 2 * (cfTail y r (2 * (k : ℝ) + 1 + 2) - tail y (k + 1)) /
          (cfTail y r (2 * (k : ℝ) + 1 + 2) * tail y (k + 1))) := by
      rw [tail_rec y k]
      simp only [cfTail]
      field_simp
      ring
    rw [e, abs_neg, abs_div, abs_mul, abs_of_nonneg (sq_nonneg y), abs_of_pos (mul_pos hc' ht')]
    have hden : (2 * (k : ℝ) + 3) ^ 2 ≤ cfTail y r (2 * (k : ℝ) + 1 + 2) * tail y (k + 1) := by
      rw [sq]
      apply mul_le_mul <;> linarith
    have h1 := one_le_odds (k + 1)
    have h2 := one_le_odds (k + 1 + r + 1)
    calc _ ≤ y ^ 2 * (y ^ (2 * (r + 1)) * odds (k + 1 + 1) ^ 2 /
            (odds (k + 1 + r + 1) ^ 2 * (2 * ((k + 1 + r : ℕ) : ℝ) + 3))) / (2 * (k : ℝ) + 3) ^ 2 := by
          have hy' : 0 ≤ y ^ (2 * (r + 1)) := by rw [pow_mul]; positivity
          have h0 := one_le_odds (k + 1 + 1)
          gcongr
      _ = _ := by
          rw [odds_succ (k + 1), show k + 1 + r + 1 = k + (r + 1) + 1 by omega,
            show k + 1 + r = k + (r + 1) by omega]
          have h3 : odds (k + (r + 1) + 1) ≠ 0 := by
            rw [show k + (r + 1) + 1 = k + 1 + r + 1 by omega]; positivity
          have h4 : (2 * ((k + (r + 1) : ℕ) : ℝ) + 3) ≠ 0 := by positivity
          have h5 : (2 * (k : ℝ) + 3) ≠ 0 := by positivity
          have h6 : 2 * ((k + 1 : ℕ) : ℝ) + 1 = 2 * (k : ℝ) + 3 := by push_cast; ring
          rw [h6]
          field_simp
          ring

/-- The partial fractions lie alternately above and below. -/
theorem cf_tail_alt {y : ℝ} (hy : y ≠ 0) : ∀ r k : ℕ,
    if Even r then cfTail y r (2 * (k : ℝ) + 1) < tail y k else tail y k < cfTail y r (2 * (k : ℝ) + 1)
  | 0, k => by
    have := div_pos (by positivity : 0 < y ^ 2) (tail_pos y (k + 1))
    simp only [Even.zero, if_true, cfTail]
    rw [tail_rec y k]
    linarith
  | r + 1, k => by
    have ih := cf_tail_alt hy r (k + 1)
    have e0 : 2 * ((k + 1 : ℕ) : ℝ) + 1 = 2 * (k : ℝ) + 1 + 2 := by push_cast; ring
    rw [e0] at ih
    have hc := cf_ge y r (2 * (k : ℝ) + 1 + 2) (by positivity)
    have hk : (0 : ℝ) ≤ k := Nat.cast_nonneg k
    have hc' : 0 < cfTail y r (2 * (k : ℝ) + 1 + 2) := by linarith
    have hy2 : 0 < y ^ 2 := by positivity
    by_cases h : Even r
    · rw [if_pos h] at ih
      rw [if_neg (by simpa [Nat.even_add_one] using h), tail_rec y k]
      simp only [cfTail]
      have := div_lt_div_of_pos_left hy2 hc' ih
      linarith
    · rw [if_neg h] at ih
      rw [if_pos (by simpa [Nat.even_add_one] using h), tail_rec y k]
      simp only [cfTail]
      have := div_lt_div_of_pos_left hy2 (tail_pos y (k + 1)) ih
      linarith

/-! ### The tridiagonal matrix -/

theorem tri_sum {R : Type*} [CommRing R] (N : Nat) (t : Nat → Nat → R) (b : Nat → R)
    (ht : ∀ j k, t j k = if k = j + 1 then b j else if j = k + 1 then b k else 0) (f : Nat → R) {j : Nat}
    (hj : j < N) : ∑ k ∈ range N, t j k * f k =
      (if j + 1 < N then b j * f (j + 1) else 0) + (if 1 ≤ j then b (j - 1) * f (j - 1) else 0) := by
  have e : ∀ k, t j k * f k = (if k = j + 1 then b j * f (j + 1) else 0) +
      (if k = j - 1 then (if 1 ≤ j then b (j - 1) * f (j - 1) else 0) else 0) := by
    intro k
    rw [ht]
    by_cases h1 : k = j + 1
    · subst h1
      rw [if_pos rfl, if_pos rfl, if_neg (by omega), add_zero]
    · rw [if_neg h1, if_neg h1, zero_add]
      by_cases h2 : j = k + 1
      · subst h2
        rw [if_pos rfl, if_pos (by omega), if_pos (by omega)]
        rfl
      · rw [if_neg h2, zero_mul]
        split_ifs with h3 h4
        · omega
        · rfl
        · rfl
  rw [sum_congr rfl fun k _ => e k, sum_add_distrib, sum_ite_eq', sum_ite_eq']
  simp only [mem_range]
  rw [if_pos (by omega : j - 1 < N)]

section

variable {N : Nat} {b : Nat → ℝ} {t : Nat → Nat → ℝ}

/-- An eigenvector with a zero first component vanishes. -/
theorem eig_zero (hb : ∀ k, k + 1 < N → b k ≠ 0)
    (ht : ∀ j k, t j k = if k = j + 1 then b j else if j = k + 1 then b k else 0)
    {f : Nat → ℝ} {β : ℝ} (hf : ∀ j < N, ∑ k ∈ range N, t j k * f k = β * f j) (h0 : f 0 = 0) :
    ∀ j < N, f j = 0 := by
  intro j
  induction j using Nat.strong_induction_on with
  | _ j ih =>
    intro hj
    match j, ih, hj with
    | 0, _, _ => exact h0
    | 1, ih, hj =>
      have := hf 0 (by omega)
      rw [tri_sum N t b ht f (by omega), if_pos hj, if_neg (by omega), add_zero, h0, mul_zero] at this
      exact (mul_eq_zero.mp this).resolve_left (hb 0 hj)
    | j + 2, ih, hj =>
      have := hf (j + 1) (by omega)
      rw [tri_sum N t b ht f (by omega), if_pos hj, if_pos (by omega), ih (j + 1) (by omega) (by omega),
        show j + 1 - 1 = j from rfl, ih j (by omega) (by omega), mul_zero, mul_zero, add_zero] at this
      exact (mul_eq_zero.mp this).resolve_left (hb _ hj)

/-- Zero is no eigenvalue for even sizes. -/
theorem eig_ne (hN : Even N) (hb : ∀ k, k + 1 < N → b k ≠ 0)
    (ht : ∀ j k, t j k = if k = j + 1 then b j else if j = k + 1 then b k else 0)
    {f : Nat → ℝ} (hf : ∀ j < N, ∑ k ∈ range N, t j k * f k = 0 * f j) :
    ∀ j < N, f j = 0 := by
  refine fun j hj => eig_zero hb ht hf ?_ j hj
  obtain ⟨n, rfl⟩ := hN
  have key : ∀ m, 2 * m + 2 ≤ n + n → f (n + n - 2 - 2 * m) = 0 := by
    intro m
    induction m with
    | zero =>
      intro h
      have := hf (n + n - 1) (by omega)
      rw [tri_sum _ t b ht f (by omega), if_neg (by omega), if_pos (by omega), zero_add, zero_mul] at this
      have := (mul_eq_zero.mp this).resolve_left (hb _ (by omega))
      rwa [show n + n - 1 - 1 = n + n - 2 - 2 * 0 by omega] at this
    | succ m ih =>
      intro h
      have := hf (n + n - 3 - 2 * m) (by omega)
      rw [tri_sum _ t b ht f (by omega), if_pos (by omega), if_pos (by omega), zero_mul,
        show n + n - 3 - 2 * m + 1 = n + n - 2 - 2 * m by omega, ih (by omega), mul_zero, zero_add] at this
      have := (mul_eq_zero.mp this).resolve_left (hb _ (by omega))
      rwa [show n + n - 3 - 2 * m - 1 = n + n - 2 - 2 * (m + 1) by omega] at this
  have := key (n - 1) (by omega)
  rwa [show n + n - 2 - 2 * (n - 1) = 0 by omega] at this

variable {v : Nat → Nat → ℝ} {w : Nat → ℝ}

/-- Orthonormal columns have orthonormal rows. -/
theorem rows_orth (ho : ∀ i < N, ∀ i' < N, ∑ j ∈ range N, v j i * v j i' = if i = i' then 1 else 0) :
    ∀ j < N, ∀ j' < N, ∑ i ∈ range N, v j i * v j' i = if j = j' then 1 else 0 := by
  let V : Matrix (Fin N) (Fin N) ℝ := Matrix.of fun j i => v j i
  have h : V.transpose * V = 1 := by
    ext i i'
    have := ho i i.2 i' i'.2
    rw [Finset.sum_range] at this
    simp only [Matrix.mul_apply, Matrix.transpose_apply, Matrix.one_apply, V, Matrix.of_apply, this, Fin.ext_iff]
  have h' := mul_eq_one_comm.mp h
  intro j hj j' hj'
  have := congrFun (congrFun h' ⟨j, hj⟩) ⟨j', hj'⟩
  simp only [Matrix.mul_apply, Matrix.transpose_apply, Matrix.one_apply, V, Matrix.of_apply, Fin.ext_iff] at this
  rw [Finset.sum_range]
  exact this

variable (hb : ∀ k, k + 1 < N → b k ≠ 0)
    (ht : ∀ j k, t j k = if k = j + 1 then b j else if j = k + 1 then b k else 0)
    (ho : ∀ i < N, ∀ i' < N, ∑ j ∈ range N, v j i * v j i' = if i = i' then 1 else 0)
    (he : ∀ i < N, ∀ j < N, ∑ k ∈ range N, t j k * v k i = w i * v j i)

include hb ht ho he

theorem first_ne {i : Nat} (hi : i < N) : v 0 i ≠ 0 := by
  intro h
  have := eig_zero hb ht (he i hi) h
  have h1 := ho i hi i hi
  rw [if_pos rfl, sum_eq_zero fun j hj => by rw [this j (mem_range.mp hj), mul_zero]] at h1
  exact zero_ne_one h1

/-- Two eigenvectors with one eigenvalue are proportional. -/
theorem eig_prop {i : Nat} (hi : i < N) {f : Nat → ℝ}
    (hf : ∀ j < N, ∑ k ∈ range N, t j k * f k = w i * f j) : ∀ j < N, v 0 i * f j = f 0 * v j i := by
  intro j hj
  have := eig_zero hb ht (f := fun j => v 0 i * f j - f 0 * v j i) (β := w i) (fun j hj => by
    have e : ∀ k, t j k * (v 0 i * f k - f 0 * v k i) = v 0 i * (t j k * f k) - f 0 * (t j k * v k i) := by
      intro k; ring
    rw [sum_congr rfl fun k _ => e k, sum_sub_distrib, ← mul_sum, ← mul_sum, hf j hj, he i hi j hj]
    ring) (by ring) j hj
  exact sub_eq_zero.mp this

theorem val_inj {i i' : Nat} (hi : i < N) (hi' : i' < N) (h : w i = w i') : i = i' := by
  by_contra hne
  have := eig_prop hb ht ho he hi (f := fun k => v k i') (fun j hj => by rw [he i' hi' j hj, h])
  have h1 := ho i' hi' i' hi'
  have h2 := ho i hi i' hi'
  rw [if_pos rfl] at h1
  rw [if_neg hne] at h2
  have e : v 0 i * ∑ j ∈ range N, v j i' * v j i' = v 0 i' * ∑ j ∈ range N, v j i * v j i' := by
    rw [mul_sum, mul_sum]
    refine sum_congr rfl fun j hj => ?_
    rw [← mul_assoc, this j (mem_range.mp hj), mul_assoc]
  rw [h1, h2, mul_one, mul_zero] at e
  exact first_ne hb ht ho he hi e

/-- The spectrum is symmetric. -/
theorem val_neg {i : Nat} (hi : i < N) : ∃ i' < N, w i' = -w i ∧ v 0 i' ^ 2 = v 0 i ^ 2 := by
  have hn : ∀ j < N, ∑ k ∈ range N, t j k * ((-1) ^ k * v k i) = -w i * ((-1) ^ j * v j i) := by
    intro j hj
    have e : ∀ k, t j k * ((-1) ^ k * v k i) = -(-1) ^ j * (t j k * v k i) := by
      intro k
      rw [ht]
      split_ifs with h1 h2
      · rw [h1, pow_succ]; ring
      · rw [h2, pow_succ]; ring
      · simp
    rw [sum_congr rfl fun k _ => e k, ← mul_sum, he i hi j hj]
    ring
  have hr := rows_orth ho
  have hs : ∀ j k, t j k = t k j := by
    intro j k
    rw [ht, ht]
    split_ifs with h1 h2 h3 <;> first | rfl | omega
  have hc : ∀ i' < N, (w i' + w i) * ∑ j ∈ range N, v j i' * ((-1) ^ j * v j i) = 0 := by
    intro i' hi'
    have e1 : ∑ j ∈ range N, v j i' * ∑ k ∈ range N, t j k * ((-1) ^ k * v k i) =
        ∑ k ∈ range N, (∑ j ∈ range N, t k j * v j i') * ((-1) ^ k * v k i) := by
      simp only [mul_sum, sum_mul]
      rw [sum_comm]
      refine sum_congr rfl fun k _ => sum_congr rfl fun j _ => ?_
      rw [hs j k]
      ring
    have a1 : ∑ j ∈ range N, v j i' * ∑ k ∈ range N, t j k * ((-1) ^ k * v k i) =
        -w i * ∑ j ∈ range N, v j i' * ((-1) ^ j * v j i) := by
      rw [mul_sum]
      refine sum_congr rfl fun j hj => ?_
      rw [hn j (mem_range.mp hj)]
      ring
    have a2 : ∑ k ∈ range N, (∑ j ∈ range N, t k j * v j i') * ((-1) ^ k * v k i) =
        w i' * ∑ j ∈ range N, v j i' * ((-1) ^ j * v j i) := by
      rw [mul_sum]
      refine sum_congr rfl fun k hk => ?_
      rw [he i' hi' k (mem_range.mp hk)]
      ring
    rw [a1, a2] at e1
    linear_combination -e1
  have h0 : ∑ i' ∈ range N, v 0 i' * ∑ j ∈ range N, v j i' * ((-1) ^ j * v j i) = v 0 i := by
    simp only [mul_sum]
    rw [sum_comm]
    have e : ∀ j ∈ range N, ∑ i' ∈ range N, v 0 i' * (v j i' * ((-1) ^ j * v j i)) =
        if j = 0 then v 0 i else 0 := by
      intro j hj
      have := hr 0 (by have := mem_range.mp hj; omega) j (mem_range.mp hj)
      rw [sum_congr rfl (g := fun i' => v 0 i' * v j i' * ((-1) ^ j * v j i)) fun i' _ => by ring, ← sum_mul, this]
      by_cases h : j = 0
      · subst h; simp
      · rw [if_neg h, if_neg (fun h' => h h'.symm), zero_mul]
    rw [sum_congr rfl e, sum_ite_eq', if_pos (mem_range.mpr (by omega))]
  obtain ⟨i', hi', hne⟩ : ∃ i' < N, ∑ j ∈ range N, v j i' * ((-1) ^ j * v j i) ≠ 0 := by
    by_contra hcon
    push Not at hcon
    rw [sum_eq_zero fun i' hi' => by rw [hcon i' (mem_range.mp hi'), mul_zero]] at h0
    exact first_ne hb ht ho he hi h0.symm
  have hw : w i' = -w i := by
    have := (mul_eq_zero.mp (hc i' hi')).resolve_right hne
    linarith
  refine ⟨i', hi', hw, ?_⟩
  have hp := eig_prop hb ht ho he hi' (f := fun k => (-1) ^ k * v k i) (fun j hj => by rw [hn j hj, hw])
  have h1 := ho i' hi' i' hi'
  have h2 := ho i hi i hi
  rw [if_pos rfl] at h1 h2
  have e : v 0 i' ^ 2 * ∑ j ∈ range N, v j i * v j i = v 0 i ^ 2 * ∑ j ∈ range N, v j i' * v j i' := by
    rw [mul_sum, mul_sum]
    refine sum_congr rfl fun j hj => ?_
    have := hp j (mem_range.mp hj)
    simp only [pow_zero, one_mul] at this
    have hsq : ((-1 : ℝ) ^ j) ^ 2 = 1 := by rw [← pow_mul, mul_comm, pow_mul]; simp
    calc v 0 i' ^ 2 * (v j i * v j i) = (v 0 i' * ((-1) ^ j * v j i)) ^ 2 := by
          rw [mul_pow, mul_pow, hsq]; ring
      _ = _ := by rw [this]; ring
  rwa [h1, h2, mul_one, mul_one] at e

end

/-! ### The resolvent -/

/-- The continued fraction in terms of the entries beside the diagonal. -/
noncomputable def gt (x : ℝ) (b : Nat → ℝ) : Nat → Nat → ℝ
  | 0, _ => 1
  | r + 1, k => 1 / (1 + x ^ 2 * b k ^ 2 * gt x b r (k + 1))

theorem gt_pos (x : ℝ) (b : Nat → ℝ) : ∀ r k, 0 < gt x b r k
  | 0, _ => one_pos
  | r + 1, k => by
    have := gt_pos x b r (k + 1)
    unfold gt
    positivity

theorem gt_cf {x : ℝ} {b : Nat → ℝ} {N : Nat}
    (hb : ∀ k, k + 1 < N → b k ^ 2 = 1 / (4 * (2 * k + 1) * (2 * k + 3))) :
    ∀ r k, k + r < N → cfTail (x / 2) r (2 * (k : ℝ) + 1) * gt x b r k = 2 * k + 1
  | 0, k, _ => by simp [cfTail, gt]
  | r + 1, k, h => by
    have ih := gt_cf (x := x) hb r (k + 1) (by omega)
    have e0 : 2 * ((k + 1 : ℕ) : ℝ) + 1 = 2 * (k : ℝ) + 3 := by push_cast; ring
    rw [e0] at ih
    have hg := gt_pos x b r (k + 1)
    have hc := cf_ge (x / 2) r (2 * (k : ℝ) + 3) (by positivity)
    have hk : (0 : ℝ) ≤ k := Nat.cast_nonneg k
    have hc' : 0 < cfTail (x / 2) r (2 * (k : ℝ) + 3) := by linarith
    have eg : gt x b r (k + 1) = (2 * k + 3) / cfTail (x / 2) r (2 * (k : ℝ) + 3) := by
      field_simp
      linarith
    simp only [cfTail, gt]
    rw [show 2 * (k : ℝ) + 1 + 2 = 2 * k + 3 by ring, eg, hb k (by omega)]
    have h1 : (2 * (k : ℝ) + 1) ≠ 0 := by positivity
    have h2 : (2 * (k : ℝ) + 3) ≠ 0 := by positivity
    have h3 : 0 < (2 * (k : ℝ) + 1) * (cfTail (x / 2) r (2 * (k : ℝ) + 3)) * 4 + x ^ 2 := by positivity
    field_simp
    ring

open Complex in
/-- The solution of the linear equations. -/
noncomputable def us (x : ℝ) (b : Nat → ℝ) (N : Nat) : Nat → ℂ
  | 0 => gt x b (N - 1) 0
  | k + 1 => I * x * b k * gt x b (N - 1 - (k + 1)) (k + 1) * us x b N k

open Complex in
theorem us_eq {x : ℝ} {b : Nat → ℝ} {t : Nat → Nat → ℝ} {N : Nat}
    (ht : ∀ j k, t j k = if k = j + 1 then b j else if j = k + 1 then b k else 0) {j : Nat} (hj : j < N) :
    us x b N j - I * x * ∑ k ∈ range N, (t j k : ℂ) * us x b N k = if j = 0 then 1 else 0 := by
  rw [tri_sum N (fun j k => (t j k : ℂ)) (fun k => (b k : ℂ)) (fun j k => by
    rw [ht]; split_ifs <;> simp) (us x b N) hj]
  have hI : I * I = -1 := I_mul_I
  have hg : (gt x b (N - 1 - j) j : ℂ) *
      (1 + if j + 1 < N then (x : ℂ) ^ 2 * b j ^ 2 * gt x b (N - 1 - (j + 1)) (j + 1) else 0) = 1 := by
    by_cases h : j + 1 < N
    · rw [if_pos h]
      obtain ⟨r, hr⟩ : ∃ r, N - 1 - j = r + 1 := ⟨N - 1 - (j + 1), by omega⟩
      have hp := gt_pos x b r (j + 1)
      have : (1 + x ^ 2 * b j ^ 2 * gt x b r (j + 1)) ≠ 0 := by positivity
      rw [show N - 1 - (j + 1) = r by omega, hr]
      have e : gt x b (r + 1) j * (1 + x ^ 2 * b j ^ 2 * gt x b r (j + 1)) = 1 := by
        simp only [gt]
        field_simp
      exact_mod_cast congrArg ((↑) : ℝ → ℂ) e
    · rw [if_neg h, show N - 1 - j = 0 by omega]
      simp [gt]
  have hn : us x b N j - I * x * (if j + 1 < N then (b j : ℂ) * us x b N (j + 1) else 0) =
      us x b N j * (1 + if j + 1 < N then (x : ℂ) ^ 2 * b j ^ 2 * gt x b (N - 1 - (j + 1)) (j + 1) else 0) := by
    by_cases h : j + 1 < N
    · rw [if_pos h, if_pos h]
      simp only [us]
      linear_combination (-(x : ℂ) ^ 2 * b j ^ 2 * gt x b (N - 1 - (j + 1)) (j + 1) * us x b N j) * hI
    · rw [if_neg h, if_neg h]
      ring
  rw [mul_add, ← sub_sub, hn]
  match j, hj, hg with
  | 0, _, hg =>
    simp only [us]
    rw [Nat.sub_zero] at hg
    rw [hg]
    simp
  | j + 1, _, hg =>
    rw [if_pos (by omega : 1 ≤ j + 1), if_neg (by omega : ¬ j + 1 = 0), show j + 1 - 1 = j from rfl]
    simp only [us]
    linear_combination (I * x * b j * us x b N j) * hg

open Complex in
theorem resolvent {x : ℝ} {b : Nat → ℝ} {t : Nat → Nat → ℝ} {N : Nat} {v : Nat → Nat → ℝ} {w : Nat → ℝ}
    (hN : 0 < N) (ht : ∀ j k, t j k = if k = j + 1 then b j else if j = k + 1 then b k else 0)
    (ho : ∀ i < N, ∀ i' < N, ∑ j ∈ range N, v j i * v j i' = if i = i' then 1 else 0)
    (he : ∀ i < N, ∀ j < N, ∑ k ∈ range N, t j k * v k i = w i * v j i) :
    ∑ i ∈ range N, v 0 i ^ 2 / (1 + x ^ 2 * w i ^ 2) = gt x b (N - 1) 0 := by
  have hs : ∀ j k, t j k = t k j := by
    intro j k
    rw [ht, ht]
    split_ifs with h1 h2 h3 <;> first | rfl | omega
  have hc : ∀ i < N, (1 - I * x * w i) * ∑ j ∈ range N, (v j i : ℂ) * us x b N j = v 0 i := by
    intro i hi
    have a1 : ∑ j ∈ range N, (v j i : ℂ) * (us x b N j - I * x * ∑ k ∈ range N, (t j k : ℂ) * us x b N k) = v 0 i := by
      rw [sum_congr rfl fun j hj => by rw [us_eq ht (mem_range.mp hj)]]
      simp [hN]
    have a2 : ∑ j ∈ range N, (v j i : ℂ) * ∑ k ∈ range N, (t j k : ℂ) * us x b N k =
        w i * ∑ j ∈ range N, (v j i : ℂ) * us x b N j := by
      simp only [mul_sum]
      rw [sum_comm]
      refine sum_congr rfl fun k hk => ?_
      have := congrArg ((↑) : ℝ → ℂ) (he i hi k (mem_range.mp hk))
      push_cast at this
      rw [← mul_assoc, ← this, sum_mul]
      refine sum_congr rfl fun j _ => ?_
      rw [hs j k]
      ring
    rw [sum_congr rfl (g := fun j => (v j i : ℂ) * us x b N j -
      I * x * ((v j i : ℂ) * ∑ k ∈ range N, (t j k : ℂ) * us x b N k)) fun j _ => by ring, sum_sub_distrib,
      ← mul_sum, a2] at a1
    linear_combination a1
  have hr := rows_orth ho
  have h0 : ∑ i ∈ range N, (v 0 i : ℂ) * ∑ j ∈ range N, (v j i : ℂ) * us x b N j = us x b N 0 := by
    simp only [mul_sum]
    rw [sum_comm]
    have e : ∀ j ∈ range N, ∑ i ∈ range N, (v 0 i : ℂ) * ((v j i : ℂ) * us x b N j) =
        if j = 0 then us x b N 0 else 0 := by
      intro j hj
      have := congrArg ((↑) : ℝ → ℂ) (hr 0 hN j (mem_range.mp hj))
      push_cast at this
      rw [sum_congr rfl (g := fun i => (v 0 i : ℂ) * v j i * us x b N j) fun i _ => by ring, ← sum_mul, this]
      by_cases h : j = 0
      · subst h; simp
      · rw [if_neg h, if_neg (fun h' => h h'.symm)]; simp
    rw [sum_congr rfl e, sum_ite_eq', if_pos (mem_range.mpr hN)]
  have hne : ∀ i, (1 - I * x * w i : ℂ) ≠ 0 := by
    intro i h
    have := congrArg Complex.re h
    simp at this
  have h1 : ∑ i ∈ range N, (v 0 i : ℂ) ^ 2 / (1 - I * x * w i) = (gt x b (N - 1) 0 : ℂ) := by
    rw [show (gt x b (N - 1) 0 : ℂ) = us x b N 0 from rfl, ← h0]
    refine sum_congr rfl fun i hi => ?_
    rw [div_eq_iff (hne i)]
    linear_combination -(v 0 i : ℂ) * hc i (mem_range.mp hi)
  have h2 := congrArg Complex.re h1
  rw [Complex.re_sum, ofReal_re] at h2
  rw [← h2]
  refine sum_congr rfl fun i _ => ?_
  have hd : (1 + x ^ 2 * w i ^ 2) ≠ 0 := by positivity
  have hdc : ((1 : ℂ) + x ^ 2 * w i ^ 2) ≠ 0 := by exact_mod_cast hd
  have e : (v 0 i : ℂ) ^ 2 / (1 - I * x * w i) =
      ((v 0 i ^ 2 / (1 + x ^ 2 * w i ^ 2) : ℝ) : ℂ) + ((v 0 i ^ 2 * (x * w i) / (1 + x ^ 2 * w i ^ 2) : ℝ) : ℂ) * I := by
    rw [div_eq_iff (hne i)]
    push_cast
    field_simp
    linear_combination (v 0 i : ℂ) ^ 2 * (x : ℂ) ^ 2 * (w i : ℂ) ^ 2 * I_sq
  rw [e, Complex.add_re, Complex.re_ofReal_mul, I_re, mul_zero, add_zero, ofReal_re]

/-! ### The program -/

theorem fill_ok {α : Type} (f : Nat → α) (z : α) : ∀ m k, (List.range m).foldlM
    (fun (B : List α) (n : Nat) => pySet B (n : Int) (f n)) (List.replicate (m + k) z) =
      .ok ((List.range m).map f ++ List.replicate k z)
  | 0, k => by simp [pure, Except.pure]
  | m + 1, k => by
    rw [List.range_succ, List.foldlM_append, show m + 1 + k = m + (k + 1) by omega, fill_ok f z m (k + 1)]
    show (pySet _ (m : Int) (f m) >>= _) = _
    rw [pySet_nat _ _ (by simp)]
    show Except.ok _ = Except.ok _
    congr 1
    simp [List.replicate_succ]

noncomputable def bEntry (k : Nat) : ℝ := 1 / (2 * Real.sqrt ((2 * k + 1) * (2 * k + 3)))

theorem ozakiB_ok (N : Nat) : ozakiB N = .ok ((List.range (N - 1)).map bEntry) := by
  have := fill_ok bEntry 0 (N - 1) 0
  rw [add_zero, List.replicate_zero, List.append_nil] at this
  rw [← this]
  unfold ozakiB pyRange
  rw [show (((N : Int) - 1 + 1 - 1) / 1).toNat = N - 1 by omega, List.foldlM_map]
  congr 1
  funext B n
  congr 1
  · push_cast; ring
  · unfold bEntry
    push_cast
    congr 4 <;> ring

theorem bEntry_sq (k : Nat) : bEntry k ^ 2 = 1 / (4 * (2 * k + 1) * (2 * k + 3)) := by
  unfold bEntry
  rw [div_pow, mul_pow, Real.sq_sqrt (by positivity)]
  ring

theorem bEntry_ne (k : Nat) : bEntry k ≠ 0 := by
  unfold bEntry
  positivity

open Classical in
theorem collect_ok {α : Type} (p : Nat → Prop) (f : Nat → α) (z : α) : ∀ (l : List Nat) (pre : List α) (k : Nat),
    (l.foldlM (fun (s : List α × Int) (i : Nat) => if p i then do
        let rows ← pySet s.1 s.2 (f i)
        pure (rows, s.2 + 1)
      else pure s) (pre ++ List.replicate ((l.filter (fun i => p i)).length + k) z, (pre.length : Int)) :
        Py (List α × Int)) =
      .ok (pre ++ (l.filter (fun i => p i)).map f ++ List.replicate k z,
        ((pre.length + (l.filter (fun i => p i)).length : Nat) : Int))
  | [], pre, k => by simp [pure, Except.pure]
  | i :: l, pre, k => by
    rw [List.foldlM_cons]
    by_cases h : p i
    · rw [if_pos h]
      rw [List.filter_cons_of_pos (by simpa using h)]
      rw [show (i :: l.filter (fun i => p i)).length + k = ((l.filter (fun i => p i)).length + k) + 1 by simp; omega]
      rw [pySet_nat _ _ (by simp)]
      have := collect_ok p f z l (pre ++ [f i]) k
      have e : (pre ++ List.replicate ((l.filter (fun i => p i)).length + k + 1) z).set pre.length (f i) =
          pre ++ [f i] ++ List.replicate ((l.filter (fun i => p i)).length + k) z := by
        simp [List.replicate_succ]
      rw [List.length_append, List.length_singleton] at this
      show (l.foldlM _ ((pre ++ List.replicate ((l.filter (fun i => p i)).length + k + 1) z).set pre.length (f i),
        (pre.length : Int) + 1)) = _
      rw [e]
      push_cast at this ⊢
      rw [this]
      simp only [List.map_cons, List.append_assoc, List.singleton_append, List.cons_append, List.length_cons]
      push_cast
      rw [add_assoc, add_comm (1 : Int)]
      simp
    · rw [if_neg h, List.filter_cons_of_neg (by simpa using h)]
      exact collect_ok p f z l pre k

end Ozaki

open Ozaki in
/-- For an even number of points the rows are distinct positive numbers with positive residues, and the expansion with these
poles and residues is the continued fraction of the hyperbolic tangent. -/
theorem c87_ozaki {eigh : EighTri} (h : EighTriOk eigh) {N : Nat} (hN : 0 < N) (hev : Even N) :
    ∃ rows, ozaki eigh N = .ok rows ∧ rows.length = N / 2 ∧ (∀ p ∈ rows, 0 < p.1 ∧ 0 < p.2) ∧
      (rows.map Prod.fst).Nodup ∧
      ∀ x : ℝ, (rows.map fun p => 4 * p.2 * x / (x ^ 2 + (1 / p.1) ^ 2)).sum = tanhCF N (x / 2) := by
  classical
  set B := (List.range (N - 1)).map bEntry with hB
  have hlen : B.length + 1 = N := by rw [hB, List.length_map, List.length_range]; omega
  obtain hh := h N B hlen
  set v := (eigh N B).vec
  set w := (eigh N B).val
  have he := fun i hi => (hh i hi).1
  have ho := fun i hi => (hh i hi).2
  set b : Nat → ℝ := fun k => B.getD k 0
  have hbe : ∀ k, k + 1 < N → b k = bEntry k := by
    intro k hk
    show B.getD k 0 = _
    rw [hB, List.getD_eq_getElem?_getD, List.getElem?_map, List.getElem?_range (by omega)]
    rfl
  have hb : ∀ k, k + 1 < N → b k ≠ 0 := fun k hk => by rw [hbe k hk]; exact bEntry_ne k
  have ht : ∀ j k, triMat B j k = if k = j + 1 then b j else if j = k + 1 then b k else 0 := fun j k => rfl
  have hw0 : ∀ i < N, w i ≠ 0 := by
    intro i hi hwi
    have := eig_ne hev hb ht (f := fun k => v k i) (fun j hj => by rw [he i hi j hj, hwi]) 0 hN
    exact first_ne hb ht ho he hi this
  have hinj : ∀ i < N, ∀ i' < N, w i = w i' → i = i' := fun i hi i' hi' e => val_inj hb ht ho he hi hi' e
  have hneg : ∀ i, ∃ i', i < N → i' < N ∧ w i' = -w i ∧ v 0 i' ^ 2 = v 0 i ^ 2 := by
    intro i
    by_cases hi : i < N
    · obtain ⟨i', a, b⟩ := val_neg hb ht ho he hi
      exact ⟨i', fun _ => ⟨a, b⟩⟩
    · exact ⟨0, fun h => absurd h hi⟩
  choose τ hτ using hneg
  have hττ : ∀ i < N, τ (τ i) = i := by
    intro i hi
    obtain ⟨a, b, _⟩ := hτ i hi
    obtain ⟨a', b', _⟩ := hτ _ a
    exact hinj _ a' _ hi (by rw [b', b, neg_neg])
  have half : ∀ (F : ℝ → ℝ → ℝ), (∀ z c, F (-z) c = F z c) →
      ∑ i ∈ range N, F (w i) (v 0 i ^ 2) = 2 * ∑ i ∈ (range N).filter (fun i => 0 < w i), F (w i) (v 0 i ^ 2) := by
    intro F hF
    rw [← sum_filter_add_sum_filter_not (range N) (fun i => 0 < w i), two_mul]
    congr 1
    refine sum_nbij' τ τ ?_ ?_ ?_ ?_ ?_
    · intro i hi
      obtain ⟨hi, hp⟩ := mem_filter.mp hi
      have hi := mem_range.mp hi
      obtain ⟨a, b, _⟩ := hτ i hi
      refine mem_filter.mpr ⟨mem_range.mpr a, ?_⟩
      rw [b]
      have := lt_of_le_of_ne (not_lt.mp hp) (hw0 i hi)
      linarith
    · intro i hi
      obtain ⟨hi, hp⟩ := mem_filter.mp hi
      have hi := mem_range.mp hi
      obtain ⟨a, b, _⟩ := hτ i hi
      refine mem_filter.mpr ⟨mem_range.mpr a, ?_⟩
      rw [b]
      linarith
    · intro i hi
      exact hττ i (mem_range.mp (mem_filter.mp hi).1)
    · intro i hi
      exact hττ i (mem_range.mp (mem_filter.mp hi).1)
    · intro i hi
      obtain ⟨a, b, c⟩ := hτ i (mem_range.mp (mem_filter.mp hi).1)
      rw [b, c, hF]
  have hcard : ((List.range N).filter (fun i => 0 < w i)).length = N / 2 := by
    have := half (fun _ _ => 1) (fun _ _ => rfl)
    simp only [sum_const, card_range, nsmul_eq_mul, mul_one] at this
    have hc : N = 2 * ((range N).filter (fun i => 0 < w i)).card := by exact_mod_cast this
    have : ((range N).filter (fun i => 0 < w i)).card = ((List.range N).filter (fun i => 0 < w i)).length := rfl
    omega
  set R := fun i => (w i, v 0 i ^ 2 / (4 * w i ^ 2)) with hR
  refine ⟨((List.range N).filter (fun i => 0 < w i)).map R, ?_, ?_, ?_, ?_, ?_⟩
  · have := collect_ok (fun i => 0 < w i) R (0, 0) (List.range N) [] 0
    rw [hcard] at this
    simp only [List.nil_append, add_zero, List.replicate_zero, List.append_nil, List.length_nil, Nat.cast_zero] at this
    unfold ozaki
    rw [ozakiB_ok]
    exact congrArg (fun z : Py (List (ℝ × ℝ) × Int) => z >>= fun r => pure r.1) this
  · rw [List.length_map, hcard]
  · intro p hp
    obtain ⟨i, hi, rfl⟩ := List.mem_map.mp hp
    have hi' := List.mem_filter.mp hi
    have hpos : 0 < w i := by simpa using hi'.2
    have := first_ne hb ht ho he (List.mem_range.mp hi'.1)
    have h2 : 0 < v 0 i ^ 2 := by positivity
    exact ⟨hpos, by simp only [hR]; positivity⟩
  · rw [List.map_map]
    refine List.Nodup.map_on ?_ (List.nodup_range.filter _)
    intro i hi i' hi' e
    exact hinj i (List.mem_range.mp (List.mem_filter.mp hi).1) i' (List.mem_range.mp (List.mem_filter.mp hi').1) e
  · intro x
    rw [List.map_map]
    have e1 : (((List.range N).filter (fun i => 0 < w i)).map
        ((fun p : ℝ × ℝ => 4 * p.2 * x / (x ^ 2 + (1 / p.1) ^ 2)) ∘ R)).sum =
        ∑ i ∈ (range N).filter (fun i => 0 < w i), x * (v 0 i ^ 2 / (1 + x ^ 2 * w i ^ 2)) := by
      have : ∑ i ∈ (range N).filter (fun i => 0 < w i),
          ((fun p : ℝ × ℝ => 4 * p.2 * x / (x ^ 2 + (1 / p.1) ^ 2)) ∘ R) i =
          (((List.range N).filter (fun i => 0 < w i)).map
            ((fun p : ℝ × ℝ => 4 * p.2 * x / (x ^ 2 + (1 / p.1) ^ 2)) ∘ R)).sum := rfl
      rw [← this]
      refine sum_congr rfl fun i hi => ?_
      have hp : 0 < w i := (mem_filter.mp hi).2
      have hd : 0 < x ^ 2 * w i ^ 2 + 1 := by positivity
      simp only [Function.comp, hR]
      field_simp
      ring
    have hr := resolvent (x := x) hN ht ho he
    rw [half (fun z c => c / (1 + x ^ 2 * z ^ 2)) (fun z c => by rw [neg_sq])] at hr
    have hg := gt_cf (x := x) (b := b) (N := N) (fun k hk => by rw [hbe k hk, bEntry_sq]) (N - 1) 0 (by omega)
    simp only [Nat.cast_zero, mul_zero, zero_add] at hg
    have hc := cf_ge (x / 2) (N - 1) 1 one_pos
    rw [e1, ← mul_sum, tanhCF]
    have hc' : 0 < cfTail (x / 2) (N - 1) 1 := by linarith
    rw [eq_div_iff hc'.ne']
    rw [← hr] at hg
    linear_combination (x / 2) * hg

open Ozaki in
/-- How far the continued fraction is from the hyperbolic tangent. -/
theorem c87_error {n : Nat} (hn : 0 < n) (y : ℝ) : |tanhCF n y - Real.tanh y| ≤
    |y| ^ (2 * n + 1) / ((2 * n + 1) * (∏ k ∈ range n, (2 * (k : ℝ) + 1)) ^ 2) := by
  obtain ⟨r, rfl⟩ : ∃ r, n = r + 1 := ⟨n - 1, by omega⟩
  have he := cf_tail_err y r 0
  simp only [Nat.cast_zero, mul_zero, zero_add] at he
  have hc := cf_ge y r 1 one_pos
  have ht := tail_ge y 0
  simp only [Nat.cast_zero, mul_zero, zero_add] at ht
  have hc' : 0 < cfTail y r 1 := by linarith
  have ht' := tail_pos y 0
  rw [tanh_tail, tanhCF, Nat.add_sub_cancel, div_sub_div _ _ hc'.ne' ht'.ne', abs_div,
    abs_of_pos (mul_pos hc' ht'), show y * tail y 0 - cfTail y r 1 * y = -(y * (cfTail y r 1 - tail y 0)) by ring,
    abs_neg, abs_mul]
  have h1 : 1 ≤ cfTail y r 1 * tail y 0 := by nlinarith
  have ho : odds 1 = 1 := by simp [odds]
  calc _ ≤ |y| * |cfTail y r 1 - tail y 0| := div_le_self (by positivity) h1
    _ ≤ |y| * (y ^ (2 * (r + 1)) * odds 1 ^ 2 / (odds (r + 1) ^ 2 * (2 * (r : ℝ) + 3))) := by gcongr
    _ = _ := by
      have : 1 ≤ odds (r + 1) := one_le_odds _
      have h0 : odds (r + 1) ≠ 0 := by positivity
      rw [ho, show (∏ k ∈ range (r + 1), (2 * (k : ℝ) + 1)) = odds (r + 1) from rfl, pow_succ |y|,
        pow_mul |y|, sq_abs, ← pow_mul]
      push_cast
      have h3 : (2 * (r : ℝ) + 3) ≠ 0 := by positivity
      have h4 : (2 * ((r : ℝ) + 1) + 1) ≠ 0 := by positivity
      field_simp
      ring

open Ozaki in
/-- For an even number of points the continued fraction has the sign of the hyperbolic tangent and a smaller size. -/
theorem c87_between {n : Nat} (hn : 0 < n) (hev : Even n) {y : ℝ} (hy : 0 < y) :
    0 < tanhCF n y ∧ tanhCF n y < Real.tanh y := by
  have ha := cf_tail_alt hy.ne' (n - 1) 0
  simp only [Nat.cast_zero, mul_zero, zero_add] at ha
  rw [if_neg (by
    obtain ⟨m, rfl⟩ := hev
    rw [Nat.not_even_iff_odd]
    exact ⟨m - 1, by omega⟩)] at ha
  have ht := tail_pos y 0
  rw [tanh_tail, tanhCF]
  exact ⟨div_pos hy (ht.trans ha), div_lt_div_of_pos_left hy ht ha⟩

/-- The Fermi function in terms of the hyperbolic tangent. -/
theorem fermi_tanh (x : ℝ) : 1 / (Real.exp x + 1) = 1 / 2 - Real.tanh (x / 2) / 2 := by
  rw [Real.tanh_eq_sinh_div_cosh, Real.sinh_eq, Real.cosh_eq]
  have h1 := Real.exp_pos (x / 2)
  have h2 : Real.exp x = Real.exp (x / 2) ^ 2 := by rw [← Real.exp_nat_mul]; congr 1; push_cast; ring
  rw [Real.exp_neg, h2]
  field_simp
  ring

/-- The Fermi function with the poles and residues of the code: its distance from the true one and its range. -/
theorem c87_fermi {eigh : EighTri} (h : EighTriOk eigh) {N : Nat} (hN : 0 < N) (hev : Even N) :
    ∃ rows, ozaki eigh N = .ok rows ∧ ∀ x : ℝ,
      |1 / 2 - (rows.map fun p => 2 * p.2 * x / (x ^ 2 + (1 / p.1) ^ 2)).sum - 1 / (Real.exp x + 1)| ≤
        |x / 2| ^ (2 * N + 1) / (2 * (2 * N + 1) * (∏ k ∈ range N, (2 * (k : ℝ) + 1)) ^ 2) ∧
      0 < 1 / 2 - (rows.map fun p => 2 * p.2 * x / (x ^ 2 + (1 / p.1) ^ 2)).sum ∧
      1 / 2 - (rows.map fun p => 2 * p.2 * x / (x ^ 2 + (1 / p.1) ^ 2)).sum < 1 := by
  obtain ⟨rows, hr, _, _, _, hs⟩ := c87_ozaki h hN hev
  refine ⟨rows, hr, fun x => ?_⟩
  have e : (rows.map fun p => 2 * p.2 * x / (x ^ 2 + (1 / p.1) ^ 2)).sum = tanhCF N (x / 2) / 2 := by
    rw [← hs x, div_eq_mul_inv _ (2 : ℝ), ← List.sum_map_mul_right]
    congr 1
    refine List.map_congr_left fun p _ => ?_
    ring
  rw [e, fermi_tanh]
  refine ⟨?_, ?_⟩
  · have := c87_error hN (x / 2)
    rw [show 1 / 2 - tanhCF N (x / 2) / 2 - (1 / 2 - Real.tanh (x / 2) / 2) =
      -((tanhCF N (x / 2) - Real.tanh (x / 2)) / 2) by ring, abs_neg, abs_div, abs_of_pos (by norm_num : (0 : ℝ) < 2)]
    rw [show 2 * (2 * (N : ℝ) + 1) * (∏ k ∈ range N, (2 * (k : ℝ) + 1)) ^ 2 =
      (2 * (N : ℝ) + 1) * (∏ k ∈ range N, (2 * (k : ℝ) + 1)) ^ 2 * 2 by ring, ← div_div]
    gcongr
  · have hodd : tanhCF N (-(x / 2)) = -tanhCF N (x / 2) := by
      have : ∀ n a, cfTail (-(x / 2)) n a = cfTail (x / 2) n a := by
        intro n
        induction n with
        | zero => intro a; rfl
        | succ n ih => intro a; simp only [cfTail, ih, neg_sq]
      rw [tanhCF, this, neg_div, tanhCF]
    have hb : |tanhCF N (x / 2)| < 1 := by
      rcases lt_trichotomy (x / 2) 0 with hx | hx | hx
      · have := c87_between hN hev (y := -(x / 2)) (by linarith)
        rw [hodd] at this
        rw [abs_lt]
        have := Real.tanh_lt_one (-(x / 2))
        constructor <;> linarith
      · rw [hx]; simp [tanhCF]
      · have := c87_between hN hev hx
        rw [abs_lt]
        have := Real.tanh_lt_one (x / 2)
        constructor <;> linarith
    rw [abs_lt] at hb
    constructor <;> linarith

/-- `BW_Ozaki` gives an even number of points for every band width, and at least one pole. -/
theorem c87_bw {eigh : EighTri} (h : EighTriOk eigh) (D : ℝ) :
    ∃ N, 0 < N ∧ Even N ∧ bwOzaki eigh D = ozaki eigh N ∧ ∃ rows, bwOzaki eigh D = .ok rows ∧ 1 ≤ rows.length := by
  have hc : 0 ≤ bwCount D := by
    have key : ∀ z : ℝ, -1 < z → 0 ≤ VN2.pyInt z := by
      intro z hz
      unfold VN2.pyInt
      split_ifs with h0
      · exact Int.floor_nonneg.mpr h0
      · have : (-1 : ℝ) < ⌈z⌉ := lt_of_lt_of_le hz (Int.le_ceil z)
        have : (-1 : Int) < ⌈z⌉ := by exact_mod_cast this
        omega
    unfold bwCount
    simp only
    split_ifs with hd
    · apply key; norm_num
    · apply key
      have := Real.sqrt_nonneg (1.27324094 ^ 2 - 4 * 2.54647909 * (0.52325856 - D))
      rw [lt_div_iff₀ (by norm_num)]
      linarith
  have e : bwOzaki eigh D = ozaki eigh (2 * (bwCount D).toNat + 2) := by
    unfold bwOzaki
    simp only
    rw [if_neg (by omega)]
    congr 1
    omega
  refine ⟨2 * (bwCount D).toNat + 2, by omega, ⟨(bwCount D).toNat + 1, by omega⟩, e, ?_⟩
  obtain ⟨rows, hr, hl, _⟩ := c87_ozaki h (N := 2 * (bwCount D).toNat + 2) (by omega)
    ⟨(bwCount D).toNat + 1, by omega⟩
  exact ⟨rows, e.trans hr, by omega⟩

/-- The assumptions can be met. -/
theorem exists_eighTri : ∃ eigh : EighTri, EighTriOk eigh := by
  have hex : ∀ N (B : List ℝ), ∃ e : Eig, ∀ i < N,
      (∀ j < N, ∑ k ∈ range N, triMat B j k * e.vec k i = e.val i * e.vec j i) ∧
      ∀ i' < N, ∑ j ∈ range N, e.vec j i * e.vec j i' = if i = i' then 1 else 0 := by
    intro N B
    let A : Matrix (Fin N) (Fin N) ℝ := Matrix.of fun j k => triMat B j k
    have hA : A.IsHermitian := by
      ext j k
      simp only [Matrix.conjTranspose_apply, A, Matrix.of_apply, star_trivial, triMat]
      split_ifs <;> first | rfl | omega
    refine ⟨⟨fun i => if h : i < N then hA.eigenvalues ⟨i, h⟩ else 0,
      fun j i => if h : j < N ∧ i < N then hA.eigenvectorBasis ⟨i, h.2⟩ ⟨j, h.1⟩ else 0⟩, fun i hi => ⟨fun j hj => ?_,
      fun i' hi' => ?_⟩⟩
    · have := congrFun (hA.mulVec_eigenvectorBasis ⟨i, hi⟩) ⟨j, hj⟩
      rw [Finset.sum_range]
      simp only [hi, hj, and_self, dif_pos, Fin.is_lt]
      simpa [Matrix.mulVec, dotProduct, A] using this
    · have := (orthonormal_iff_ite.mp hA.eigenvectorBasis.orthonormal) ⟨i, hi⟩ ⟨i', hi'⟩
      rw [Finset.sum_range]
      simp only [hi, hi', and_self, dif_pos, Fin.is_lt]
      simp only [PiLp.inner_apply, Fin.mk.injEq] at this
      rw [← this]
      refine sum_congr rfl fun j _ => ?_
      simp [mul_comm]
  choose e he using hex
  exact ⟨e, fun N B _ => he N B⟩

/-- Two poles, and the size of the error for energies up to the temperature. -/
example : ∃ eigh, EighTriOk eigh ∧ ∃ rows, ozaki eigh 4 = .ok rows ∧ rows.length = 2 ∧
    |1 / 2 - (rows.map fun p => 2 * p.2 * 1 / (1 ^ 2 + (1 / p.1) ^ 2)).sum - 1 / (Real.exp 1 + 1)| ≤ 1 / 100000000 := by
  obtain ⟨eigh, h⟩ := exists_eighTri
  obtain ⟨rows, hr, hl, _⟩ := c87_ozaki h (N := 4) (by norm_num) ⟨2, rfl⟩
  obtain ⟨rows', hr', hf⟩ := c87_fermi h (N := 4) (by norm_num) ⟨2, rfl⟩
  obtain rfl := Except.ok.inj (hr.symm.trans hr')
  refine ⟨eigh, h, rows, hr, hl, (hf 1).1.trans ?_⟩
  rw [abs_of_pos (by norm_num)]
  norm_num [prod_range_succ]

end Verif
