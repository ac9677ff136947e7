import Verif.Model.CompiledSpecfunc
import Verif.Props.Polygamma

/-! The error of the expansion that the compiled digamma function uses, and its pieces. -/

namespace Verif

open Complex Finset Filter Topology

namespace CSpec

open Polygamma (horner hornerR horner_small digamma_shift digamma_log shift_fold)

theorem horner_abs {x : ℂ} {r : ℝ} (hx : ‖x‖ ≤ r) : ∀ l : List ℝ, ‖horner l x‖ ≤ hornerR (l.map fun a => |a|) r
  | [] => by simp [horner, hornerR]
  | a :: l => by
    have ih := horner_abs hx l
    simp only [horner, hornerR, List.map_cons]
    refine (norm_add_le _ _).trans ?_
    rw [Complex.norm_real, Real.norm_eq_abs, norm_mul]
    have : 0 ≤ r := (norm_nonneg x).trans hx
    gcongr

theorem inv_norm {V : ℂ} (hV : 8 ≤ V.re) : ‖1 / V‖ ≤ 1 / 8 := by
  rw [norm_div, norm_one]
  exact one_div_le_one_div_of_le (by norm_num) (hV.trans (Complex.re_le_norm V))

theorem inv_facts {V : ℂ} (hV : 8 ≤ V.re) : V ≠ 0 ∧ 1 ≤ ‖1 + 1 / V‖ ∧ 1 + 1 / V ≠ 0 ∧
    1 / (V + 1) = (1 / V) / (1 + 1 / V) := by
  have h0 : V ≠ 0 := by rintro rfl; norm_num at hV
  have hre : 0 ≤ (1 / V).re := by
    rw [one_div, Complex.inv_re]
    exact div_nonneg (by linarith) (Complex.normSq_nonneg V)
  have h1 : 1 ≤ ‖1 + 1 / V‖ := by
    have := Complex.re_le_norm (1 + 1 / V)
    rw [Complex.add_re, Complex.one_re] at this
    linarith
  have h2 : 1 + 1 / V ≠ 0 := by
    intro h
    rw [h, norm_zero] at h1
    norm_num at h1
  refine ⟨h0, h1, h2, ?_⟩
  have h3 : V + 1 ≠ 0 := by
    intro h
    apply h2
    field_simp
    rw [h, mul_zero]
  field_simp

theorem log_shift {V : ℂ} (hV : 8 ≤ V.re) : log (V + 1) = log V + log (1 + 1 / V) := by
  obtain ⟨h0, h1, h2, h3⟩ := inv_facts hV
  have e : V + 1 = V * (1 + 1 / V) := by field_simp
  have hre : 0 ≤ (1 / V).re := by
    rw [one_div, Complex.inv_re]
    exact div_nonneg (by linarith) (Complex.normSq_nonneg V)
  rw [e]
  refine (log_mul_eq_add_log_iff h0 h2).mpr ?_
  have a1 := abs_lt.mp (abs_arg_lt_pi_div_two_iff.mpr (Or.inl (by linarith : 0 < V.re)))
  have a2 := abs_lt.mp (abs_arg_lt_pi_div_two_iff.mpr (Or.inl (by
    rw [Complex.add_re, Complex.one_re]; linarith : 0 < (1 + 1 / V).re)))
  exact ⟨by linarith, by linarith⟩

theorem quot_bound {V : ℂ} (hV : 8 ≤ V.re) (k m : ℕ) (l : List ℝ) :
    ‖(1 / V) ^ (k + 2) * horner l (1 / V) / (1 + 1 / V) ^ m‖ ≤
      (1 / 8) ^ k * hornerR (l.map fun a => |a|) (1 / 8) * (1 / ‖V‖ ^ 2) := by
  have h1 := inv_norm hV
  obtain ⟨_, h2, _, _⟩ := inv_facts hV
  have h3 := horner_abs h1 l
  rw [norm_div, norm_mul, norm_pow, norm_pow, pow_add]
  have h4 : 1 ≤ ‖1 + 1 / V‖ ^ m := one_le_pow₀ h2
  calc _ ≤ ‖1 / V‖ ^ k * ‖1 / V‖ ^ 2 * ‖horner l (1 / V)‖ := div_le_self (by positivity) h4
    _ ≤ (1 / 8) ^ k * ‖1 / V‖ ^ 2 * hornerR (l.map fun a => |a|) (1 / 8) := by gcongr
    _ = _ := by rw [norm_div, norm_one, div_pow, one_pow]; ring

theorem sum_sq_le : ∀ M : ℕ, ∑ n ∈ range M, 1 / (8 + (n : ℝ)) ^ 2 ≤ 1 / 7 - 1 / (7 + (M : ℝ))
  | 0 => by simp
  | M + 1 => by
    rw [sum_range_succ]
    have ih := sum_sq_le M
    have hM : (0 : ℝ) ≤ M := Nat.cast_nonneg M
    have : 1 / (8 + (M : ℝ)) ^ 2 ≤ 1 / (7 + (M : ℝ)) - 1 / (7 + ((M + 1 : ℕ) : ℝ)) := by
      push_cast
      rw [div_sub_div _ _ (by positivity) (by positivity), div_le_div_iff₀ (by positivity) (by positivity)]
      nlinarith
    linarith

/-- The expansion, without the logarithm. -/
noncomputable def stir (x : ℂ) : ℂ := (1/2) * x ^ 1 + (1/12) * x ^ 2 + (-1/120) * x ^ 4 + (1/252) * x ^ 6 + (-1/240) * x ^ 8 + (1/132) * x ^ 10 + (-691/32760) * x ^ 12 + (1/12) * x ^ 14

/-- The remainder of the expansion after one step. -/
noncomputable def rem : List ℝ := [(-211/30), (-6883/180), (-32609/315), (-89245/504), (-26885/132), (-67073/440), (-9176/165), (179203/7920), (498629/10296), (474889/13104), (12823/780), (7967/1680), (97/120), (1/16)]

theorem stir_diff {x : ℂ} (h : 1 + x ≠ 0) : logTaylor 17 x - x + (stir x - stir (x / (1 + x))) =
    -(x ^ 17 * horner rem x / (1 + x) ^ 14) := by
  rw [← neg_div, eq_div_iff (pow_ne_zero _ h)]
  have e : stir (x / (1 + x)) * (1 + x) ^ 14 = (1/2) * x ^ 1 * (1 + x) ^ 13 + (1/12) * x ^ 2 * (1 + x) ^ 12 + (-1/120) * x ^ 4 * (1 + x) ^ 10 + (1/252) * x ^ 6 * (1 + x) ^ 8 + (-1/240) * x ^ 8 * (1 + x) ^ 6 + (1/132) * x ^ 10 * (1 + x) ^ 4 + (-691/32760) * x ^ 12 * (1 + x) ^ 2 + (1/12) * x ^ 14 * (1 + x) ^ 0 := by
    generalize 1 + x = d at h
    unfold stir
    field_simp
  have et : logTaylor 17 x = (1) * x ^ 1 + (-1/2) * x ^ 2 + (1/3) * x ^ 3 + (-1/4) * x ^ 4 + (1/5) * x ^ 5 + (-1/6) * x ^ 6 + (1/7) * x ^ 7 + (-1/8) * x ^ 8 + (1/9) * x ^ 9 + (-1/10) * x ^ 10 + (1/11) * x ^ 11 + (-1/12) * x ^ 12 + (1/13) * x ^ 13 + (-1/14) * x ^ 14 + (1/15) * x ^ 15 + (-1/16) * x ^ 16 := by
    unfold logTaylor
    simp only [sum_range_succ, sum_range_zero]
    push_cast
    ring
  rw [et, add_mul, sub_mul, sub_mul, e]
  unfold stir
  simp only [horner, rem]
  push_cast
  ring

/-- The coefficients have been rounded. -/
theorem stir_near {V : ℂ} (hV : 8 ≤ V.re) : ‖horner factors ((1 / V) ^ 2) - 1 / V / 2 + stir (1 / V)‖ ≤ 1e-50 := by
  have h0 : V ≠ 0 := by rintro rfl; norm_num at hV
  have e : horner factors ((1 / V) ^ 2) - 1 / V / 2 + stir (1 / V) = horner [0, 1/3000000000000000000000000000000000000000000000000000, -1/3000000000000000000000000000000000000000000000000000, -1/31500000000000000000000000000000000000000000000000000, 1/30000000000000000000000000000000000000000000000000000, -1/41250000000000000000000000000000000000000000000000000, -19/204750000000000000000000000000000000000000000000000000, 1/3000000000000000000000000000000000000000000000000000] ((1 / V) ^ 2) := by
    generalize 1 / V = x
    unfold stir
    simp only [factors, horner]
    rw [show (0.0 : ℝ) = 0 by norm_num]
    push_cast
    ring
  rw [e]
  have h1 := inv_norm hV
  have h2 : ‖(1 / V) ^ 2‖ ≤ 1 / 2 := by
    rw [norm_pow]
    calc ‖1 / V‖ ^ 2 ≤ (1 / 8) ^ 2 := by gcongr
      _ ≤ _ := by norm_num
  refine (horner_small h2 (ε := 5e-51) (by norm_num) _ ?_).trans (by norm_num)
  intro a ha
  simp only [List.mem_cons, List.not_mem_nil, or_false] at ha
  rcases ha with rfl | rfl | rfl | rfl | rfl | rfl | rfl | rfl <;> norm_num [abs_le]

theorem stir_bound {V : ℂ} (hV : 8 ≤ V.re) :
    ‖horner factors ((1 / V) ^ 2) - 1 / V / 2 + log V - Complex.digamma V‖ ≤ 1e-13 := by
  have hp : 0 < V.re := by linarith
  have hq : ∀ V : ℂ, 8 ≤ V.re → ‖log (1 + 1 / V) - 1 / V + (stir (1 / V) - stir (1 / (V + 1)))‖ ≤
      6e-13 * (1 / ‖V‖ ^ 2) := by
    intro V hV
    obtain ⟨e1, e2, e3, e4⟩ := inv_facts hV
    have h1 := inv_norm hV
    have hl := norm_log_sub_logTaylor_le 16 (z := 1 / V) (lt_of_le_of_lt h1 (by norm_num))
    have hr : ‖log (1 + 1 / V) - logTaylor (16 + 1) (1 / V)‖ ≤ (1 / 8) ^ 15 * (8 / 7) / 17 * (1 / ‖V‖ ^ 2) := by
      refine hl.trans ?_
      have hi : (1 - ‖1 / V‖)⁻¹ ≤ 8 / 7 := by
        rw [inv_le_comm₀ (by linarith) (by norm_num)]
        linarith
      have e : 1 / ‖V‖ ^ 2 = ‖1 / V‖ ^ 2 := by rw [norm_div, norm_one, div_pow, one_pow]
      rw [e, show (16 : ℕ) + 1 = 15 + 2 from rfl, pow_add]
      calc _ ≤ (1 / 8) ^ 15 * ‖1 / V‖ ^ 2 * (8 / 7) / ((16 : ℕ) + 1) := by
            gcongr
            exact inv_nonneg.mpr (by linarith)
        _ = _ := by push_cast; ring
    have hd := quot_bound hV 15 14 rem
    rw [e4]
    have e5 : log (1 + 1 / V) - 1 / V + (stir (1 / V) - stir (1 / V / (1 + 1 / V))) =
        (log (1 + 1 / V) - logTaylor (16 + 1) (1 / V)) +
          (logTaylor 17 (1 / V) - 1 / V + (stir (1 / V) - stir (1 / V / (1 + 1 / V)))) := by ring
    rw [e5, stir_diff e3]
    refine (norm_add_le _ _).trans ?_
    rw [norm_neg]
    refine (add_le_add hr hd).trans ?_
    rw [← add_mul]
    refine mul_le_mul_of_nonneg_right ?_ (by positivity)
    norm_num [hornerR, rem, abs_div]
  have ht : Tendsto (fun M : ℕ => (Complex.digamma V - log V + stir (1 / V)) -
      (Complex.digamma (V + M) - log (V + M) + stir (1 / (V + M)))) atTop
      (𝓝 ((Complex.digamma V - log V + stir (1 / V)) - (0 + 0))) := by
    refine tendsto_const_nhds.sub ((digamma_log hp).add ?_)
    rw [show (0 : ℂ) = stir 0 by simp [stir]]
    refine ((show Continuous stir by unfold stir; fun_prop).tendsto 0).comp ?_
    rw [tendsto_zero_iff_norm_tendsto_zero]
    refine squeeze_zero (fun _ => norm_nonneg _) (fun M => ?_) tendsto_one_div_add_atTop_nhds_zero_nat
    rw [norm_div, norm_one]
    apply one_div_le_one_div_of_le (by positivity)
    have := Complex.re_le_norm (V + M)
    rw [Digamma.re_add_nat] at this
    linarith
  rw [add_zero, sub_zero] at ht
  have key : ‖Complex.digamma V - log V + stir (1 / V)‖ ≤ 6e-13 / 7 := by
    refine le_of_tendsto ht.norm (Eventually.of_forall fun M => ?_)
    have hr : ∀ n : ℕ, 8 + (n : ℝ) ≤ (V + n).re := fun n => by rw [Digamma.re_add_nat]; linarith
    have hr0 : ∀ n : ℕ, 8 ≤ (V + n).re := fun n => by
      have := hr n
      have : (0 : ℝ) ≤ n := Nat.cast_nonneg n
      linarith
    have e : ∀ M : ℕ, (Complex.digamma V - log V + stir (1 / V)) -
          (Complex.digamma (V + M) - log (V + M) + stir (1 / (V + M))) =
        ∑ n ∈ range M, (log (1 + 1 / (V + n)) - 1 / (V + n) + (stir (1 / (V + n)) - stir (1 / (V + n + 1)))) := by
      intro M
      induction M with
      | zero => simp
      | succ M ih =>
        rw [sum_range_succ, ← ih, digamma_shift hp (M + 1), sum_range_succ, digamma_shift hp M]
        push_cast
        rw [← add_assoc V, log_shift (hr0 M)]
        ring
    rw [e]
    refine (norm_sum_le _ _).trans ?_
    calc _ ≤ ∑ n ∈ range M, 6e-13 * (1 / (8 + (n : ℝ)) ^ 2) := by
          refine sum_le_sum fun n _ => ?_
          refine (hq (V + n) (hr0 n)).trans ?_
          have := (hr n).trans (Complex.re_le_norm (V + n))
          gcongr
      _ = 6e-13 * ∑ n ∈ range M, 1 / (8 + (n : ℝ)) ^ 2 := by rw [mul_sum]
      _ ≤ 6e-13 * (1 / 7) := by
          have := sum_sq_le M
          have : 0 ≤ 1 / (7 + (M : ℝ)) := by positivity
          gcongr
          linarith
      _ = _ := by ring
  have h2 := stir_near hV
  have e : horner factors ((1 / V) ^ 2) - 1 / V / 2 + log V - Complex.digamma V =
      (horner factors ((1 / V) ^ 2) - 1 / V / 2 + stir (1 / V)) - (Complex.digamma V - log V + stir (1 / V)) := by ring
  rw [e]
  refine (norm_sub_le _ _).trans ((add_le_add h2 key).trans ?_)
  norm_num

/-! ### The pieces of the functions -/

theorem clog_eq {z : ℂ} (hz : 0 < z.re) : clog z = log z := by
  have ha := abs_lt.mp (abs_arg_lt_pi_div_two_iff.mpr (Or.inl hz))
  unfold clog
  rw [← Complex.tan_arg, Real.arctan_tan ha.1 ha.2, Complex.log, ← Complex.normSq_apply, Complex.normSq_eq_norm_sq,
    Real.log_pow]
  push_cast
  ring

theorem poly_step (t : ℂ) (a b F : ℝ) : t * ((b + (t.re + t.re) * a : ℝ) : ℂ) +
    ((F - (t.re ^ 2 + t.im ^ 2) * a : ℝ) : ℂ) = F + t * (b + t * a) := by
  apply Complex.ext <;> simp [pow_two] <;> ring

theorem poly_fold (t : ℂ) : ∀ (l : List Nat) (ab : ℝ × ℝ),
    (fun c : ℝ × ℝ => t * (c.1 : ℂ) + (c.2 : ℂ)) (l.foldl (fun (ab : ℝ × ℝ) i =>
      (ab.2 + (t.re + t.re) * ab.1, factor (7 - i) - (t.re ^ 2 + t.im ^ 2) * ab.1)) ab) =
      l.foldl (fun (P : ℂ) i => (factor (7 - i) : ℂ) + t * P) (t * (ab.1 : ℂ) + (ab.2 : ℂ))
  | [], _ => rfl
  | i :: l, ab => by
    rw [List.foldl_cons, List.foldl_cons, poly_fold t l]
    simp only
    rw [poly_step]
    congr 2
    ring

theorem poly_eq (t : ℂ) : poly t = horner factors t := by
  have := poly_fold t [2, 3, 4, 5, 6, 7] (factor 7, factor 6)
  simp only at this
  unfold poly
  simp only
  rw [this]
  simp only [List.foldl_cons, List.foldl_nil, factor, factors, horner, Nat.reduceSub, List.getD_cons_zero,
    List.getD_cons_succ]
  ring

/-- For arguments with positive real part: the sum over poles, and an argument with a larger real part. -/
theorem digamma_eq {z : ℂ} (hz : 0 < z.re) : ∃ n : ℕ, 8 ≤ (z + n).re ∧
    digamma z = -(∑ v ∈ range n, 1 / (z + v)) +
      (horner factors ((1 / (z + n)) ^ 2) - 1 / (z + n) / 2 + log (z + n)) := by
  have hfold : ∀ l : List Int, l.foldl (fun (r : ℂ) (v : Int) => r - 1 / (z + (v : ℂ))) 0 = -(l.map fun v : Int => 1 / (z + (v : ℂ))).sum := by
    intro l
    induction l using List.reverseRecOn with
    | nil => simp
    | append_singleton l a ih => rw [List.foldl_append, ih]; simp; ring
  have hmain : ∀ n : ℕ, 8 ≤ (z + n).re →
      ((pyRange 0 (n : Int) 1).foldl (fun (r : ℂ) (v : Int) => r - 1 / (z + (v : ℂ))) 0 - 1 / (z + ((n : Int) : ℂ)) / 2 +
        poly (1 / (z + ((n : Int) : ℂ)) / (z + ((n : Int) : ℂ))) + clog (z + ((n : Int) : ℂ))) =
      -(∑ v ∈ range n, 1 / (z + v)) + (horner factors ((1 / (z + n)) ^ 2) - 1 / (z + n) / 2 + log (z + n)) := by
    intro n hn
    have hr : pyRange 0 (n : Int) 1 = (List.range n).map fun j : Nat => (j : Int) := by
      unfold pyRange
      simp
    rw [hfold, hr, List.map_map, poly_eq, Int.cast_natCast, clog_eq (by linarith)]
    have hs : ((List.range n).map ((fun v : Int => 1 / (z + (v : ℂ))) ∘ fun j : Nat => (j : Int))).sum =
        ∑ v ∈ range n, 1 / (z + (v : ℂ)) := by
      rw [← List.sum_toFinset _ List.nodup_range, List.toFinset_range]
      simp
    rw [hs, show 1 / (z + (n : ℂ)) / (z + n) = (1 / (z + n)) ^ 2 by rw [div_div, ← pow_two, one_div_pow]]
    ring
  unfold digamma
  rw [if_neg (not_le.mpr hz)]
  by_cases h : z.re < 8
  · have hi : VN2.pyInt z.re = ⌊z.re⌋ := by unfold VN2.pyInt; rw [if_pos hz.le]
    have hf0 : 0 ≤ ⌊z.re⌋ := Int.floor_nonneg.mpr hz.le
    have hf1 : ⌊z.re⌋ < 8 := Int.floor_lt.mpr (by exact_mod_cast h)
    obtain ⟨n, hn⟩ : ∃ n : ℕ, (n : Int) = 8 - ⌊z.re⌋ := ⟨(8 - ⌊z.re⌋).toNat, Int.toNat_of_nonneg (by omega)⟩
    have hre : 8 ≤ (z + n).re := by
      rw [Digamma.re_add_nat]
      have h1 := Int.floor_le z.re
      have h2 : (n : ℝ) = 8 - (⌊z.re⌋ : ℝ) := by exact_mod_cast hn
      linarith
    refine ⟨n, hre, ?_⟩
    simp only [if_pos h, hi, ← hn]
    exact hmain n hre
  · refine ⟨0, by simpa using h, ?_⟩
    simp only [if_neg h]
    exact hmain 0 (by simpa using h)

theorem digamma_near {z : ℂ} (hz : 0 < z.re) : ‖digamma z - Complex.digamma z‖ ≤ 1e-13 := by
  obtain ⟨n, hn, e⟩ := digamma_eq hz
  have h := stir_bound hn
  rw [digamma_shift hz n] at h
  rw [e]
  refine le_of_eq_of_le ?_ h
  congr 1
  ring

/-! ### Polygamma functions -/

theorem tail_eq (V : ℂ) (k : ℕ) : pgTail V (k + 1) = Verif.pgTail V (k + 1) := rfl

theorem tail_near {V : ℂ} (hV : 15 ≤ V.re) : ‖pgTail V 0 - Verif.pgTail V 0‖ ≤ 1e-20 := by
  have h0 : V ≠ 0 := by rintro rfl; norm_num at hV
  have e : pgTail V 0 - Verif.pgTail V 0 = (1 / V) ^ 2 * horner [-factor 1 - 8.33333333333333333e-2,
      -factor 2 + 8.33333333333333333e-3, -factor 3 - 3.96825396825396825e-3, -factor 4 + 4.16666666666666667e-3,
      -factor 5 - 7.57575757575757576e-3, -factor 6 + 2.10927960927960928e-2] ((1 / V) ^ 2) := by
    unfold pgTail Verif.pgTail
    simp only [List.foldl_cons, List.foldl_nil, pgCoef, pgC, pgFct, Verif.pgCoef, Verif.pgC, Verif.pgFct, horner, Nat.reduceSub,
      List.getD_cons_zero, List.getD_cons_succ]
    push_cast
    field_simp
    ring
  rw [e]
  have h1 := Polygamma.inv_norm hV
  have h2 : ‖(1 / V) ^ 2‖ ≤ 1 / 225 := by
    rw [norm_pow]
    calc ‖1 / V‖ ^ 2 ≤ (1 / 15) ^ 2 := by gcongr
      _ ≤ _ := by norm_num
  have h3 := horner_small (h2.trans (by norm_num)) (ε := 1e-18) (by norm_num) [-factor 1 - 8.33333333333333333e-2,
      -factor 2 + 8.33333333333333333e-3, -factor 3 - 3.96825396825396825e-3, -factor 4 + 4.16666666666666667e-3,
      -factor 5 - 7.57575757575757576e-3, -factor 6 + 2.10927960927960928e-2] (by
    intro a ha
    simp only [List.mem_cons, List.not_mem_nil, or_false] at ha
    rcases ha with rfl | rfl | rfl | rfl | rfl | rfl <;> norm_num [abs_le, factor, factors])
  rw [norm_mul]
  calc _ ≤ (1 / 225) * (2 * 1e-18) := mul_le_mul h2 h3 (norm_nonneg _) (by norm_num)
    _ ≤ _ := by norm_num

theorem shift_eq (V : ℂ) (A : ℝ) (K : ℕ) : pgShift V A K = Verif.pgShift V A K := rfl

theorem shift_re {U : ℂ} {A : ℝ} (hU : 0 ≤ U.re) (hA : A = U.re) (K : ℕ) :
    15 ≤ (if A < 15 then pgShift U A K else (U, 0)).1.re := by
  subst hA
  split_ifs with h
  · unfold pgShift
    simp only [shift_fold]
    have hi : VN2.pyInt U.re = ⌊U.re⌋ := by unfold VN2.pyInt; rw [if_pos hU]
    have hf0 : 0 ≤ ⌊U.re⌋ := Int.floor_nonneg.mpr hU
    have hf1 : ⌊U.re⌋ < 15 := Int.floor_lt.mpr (by exact_mod_cast h)
    have : (pyRange 0 (15 - ⌊U.re⌋) 1).length = (15 - ⌊U.re⌋).toNat := by
      unfold pyRange
      rw [List.length_map, List.length_range]
      congr 1
      omega
    rw [hi, this, Complex.add_re, Digamma.re_add_nat, Complex.one_re]
    have h1 := Int.floor_le U.re
    have h2 : (((15 - ⌊U.re⌋).toNat : ℕ) : ℝ) = 15 - (⌊U.re⌋ : ℝ) := by
      have : (((15 - ⌊U.re⌋).toNat : ℕ) : ℤ) = 15 - ⌊U.re⌋ := Int.toNat_of_nonneg (by omega)
      exact_mod_cast this
    linarith
  · simpa using h

theorem polygamma_eq (z : ℂ) {K : ℤ} (hK : K ≠ 0) : polygamma z K = Verif.polygamma z K := by
  unfold polygamma Verif.polygamma
  by_cases h : K < 0 ∨ K > 4
  · rw [if_pos h, if_pos h]
  · rw [if_neg h, if_neg h]
    obtain ⟨k, hk⟩ : ∃ k : ℕ, K.toNat = k + 1 := ⟨K.toNat - 1, by omega⟩
    simp only [hk, tail_eq, Nat.succ_ne_zero, if_false]
    rfl

theorem polygamma_near (z : ℂ) : ‖polygamma z 0 - Verif.polygamma z 0‖ ≤ 1e-20 := by
  have hU : 0 ≤ (if z.re < 0 then -z else z).re := by
    split_ifs with h
    · rw [Complex.neg_re]; linarith
    · exact not_lt.mp h
  have hA : |z.re| = (if z.re < 0 then -z else z).re := by
    split_ifs with h
    · rw [Complex.neg_re, abs_of_neg h]
    · exact abs_of_nonneg (not_lt.mp h)
  have hV := shift_re hU hA (0 + 1)
  have ht := tail_near hV
  have hl := clog_eq (z := (if |z.re| < 15 then pgShift (if z.re < 0 then -z else z) |z.re| (0 + 1)
    else (if z.re < 0 then -z else z, 0)).1) (by linarith)
  unfold polygamma Verif.polygamma
  simp only [lt_irrefl, false_or, show ¬ ((0 : Int) > 4) by decide, if_false, Int.toNat_zero, if_true]
  rw [hl]
  refine le_of_eq_of_le ?_ ht
  rw [← norm_neg (pgTail _ 0 - _)]
  congr 1
  have hs : ((pgSgn 0 : ℝ) : ℂ) = -1 := by simp [pgSgn]
  have hs' : ((Verif.pgSgn 0 : ℝ) : ℂ) = -1 := by simp [Verif.pgSgn]
  have hf : pgFct (0 + 1) = Verif.pgFct (0 + 1) := rfl
  have hr : ∀ U V : ℂ, pgReflect U V 0 = Verif.pgReflect U V 0 := fun _ _ => rfl
  simp only [hs, hs', hf, hr, shift_eq]
  by_cases h : z.re < 0
  · simp only [if_pos h]; ring
  · simp only [if_neg h]; ring

end CSpec

end Verif
