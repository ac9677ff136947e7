import Verif.Model.Polygamma
import Verif.Lemmas.Digamma
import Mathlib.Analysis.SpecialFunctions.Complex.LogBounds

/-! The errors of the asymptotic expansions in `polygamma`. -/

namespace Verif

open Complex Finset Filter Topology

namespace Polygamma

/-- A polynomial with real coefficients. -/
noncomputable def horner : List ℝ → ℂ → ℂ
  | [], _ => 0
  | a :: l, x => (a : ℂ) + x * horner l x

noncomputable def hornerR : List ℝ → ℝ → ℝ
  | [], _ => 0
  | a :: l, x => a + x * hornerR l x

theorem horner_le {x : ℂ} {r : ℝ} (hx : ‖x‖ ≤ r) : ∀ l : List ℝ, (∀ a ∈ l, 0 ≤ a) →
    ‖horner l x‖ ≤ hornerR l r
  | [], _ => by simp [horner, hornerR]
  | a :: l, h => by
    have ih := horner_le hx l fun b hb => h b (List.mem_cons_of_mem _ hb)
    have ha := h a List.mem_cons_self
    simp only [horner, hornerR]
    refine (norm_add_le _ _).trans ?_
    rw [Complex.norm_real, Real.norm_eq_abs, abs_of_nonneg ha, norm_mul]
    have : 0 ≤ r := (norm_nonneg x).trans hx
    gcongr

theorem horner_small {x : ℂ} (hx : ‖x‖ ≤ 1 / 2) {ε : ℝ} (hε : 0 ≤ ε) : ∀ l : List ℝ, (∀ a ∈ l, |a| ≤ ε) →
    ‖horner l x‖ ≤ 2 * ε
  | [], _ => by simpa [horner] using hε
  | a :: l, h => by
    have ih := horner_small hx hε l fun b hb => h b (List.mem_cons_of_mem _ hb)
    have ha := h a List.mem_cons_self
    simp only [horner]
    refine (norm_add_le _ _).trans ?_
    rw [Complex.norm_real, Real.norm_eq_abs, norm_mul]
    have := mul_le_mul hx ih (norm_nonneg _) (by norm_num)
    linarith

theorem inv_norm {V : ℂ} (hV : 15 ≤ V.re) : ‖1 / V‖ ≤ 1 / 15 := by
  rw [norm_div, norm_one]
  exact one_div_le_one_div_of_le (by norm_num) (hV.trans (Complex.re_le_norm V))

theorem inv_facts {V : ℂ} (hV : 15 ≤ V.re) : V ≠ 0 ∧ 1 ≤ ‖1 + 1 / V‖ ∧ 1 + 1 / V ≠ 0 ∧
    1 / (V + 1) = (1 / V) / (1 + 1 / V) := by
  have h0 : V ≠ 0 := by rintro rfl; norm_num at hV
  have hre : 0 ≤ (1 / V).re := by
    rw [one_div, Complex.inv_re]
    exact div_nonneg (by linarith) (Complex.normSq_nonneg V)
  have h1 : 1 ≤ ‖1 + 1 / V‖ := by
    have := Complex.re_le_norm (1 + 1 / V)
    rw [Complex.add_re, Complex.one_re] at this
    linarith
  have h2 : 1 + 1 / V ≠ 0 := by
    intro h
    rw [h, norm_zero] at h1
    norm_num at h1
  refine ⟨h0, h1, h2, ?_⟩
  have h3 : V + 1 ≠ 0 := by
    intro h
    apply h2
    field_simp
    rw [h, mul_zero]
  field_simp

theorem near_bound {V : ℂ} (hV : 15 ≤ V.re) (k : ℕ) {l : List ℝ} (hl : ∀ a ∈ l, |a| ≤ 1e-15) :
    ‖(1 / V) ^ (k + 3) * horner l ((1 / V) ^ 2)‖ ≤ 1e-18 := by
  have h1 := inv_norm hV
  have h2 : ‖(1 / V) ^ 2‖ ≤ 1 / 2 := by
    rw [norm_pow]
    calc ‖1 / V‖ ^ 2 ≤ (1 / 15) ^ 2 := by gcongr
      _ ≤ _ := by norm_num
  have h3 := horner_small h2 (ε := 1e-15) (by norm_num) l hl
  rw [norm_mul, norm_pow]
  calc ‖1 / V‖ ^ (k + 3) * ‖horner l ((1 / V) ^ 2)‖ ≤ (1 / 15) ^ (k + 3) * (2 * 1e-15) := by gcongr
    _ ≤ (1 / 15) ^ 3 * (2 * 1e-15) := by
      gcongr ?_ * _
      exact pow_le_pow_of_le_one (by norm_num) (by norm_num) (by omega)
    _ ≤ _ := by norm_num

theorem quot_bound {V : ℂ} (hV : 15 ≤ V.re) (k m : ℕ) (l : List ℝ) (hl : ∀ a ∈ l, 0 ≤ a) :
    ‖(1 / V) ^ (k + 2) * horner l (1 / V) / (1 + 1 / V) ^ m‖ ≤ (1 / 15) ^ k * hornerR l (1 / 15) * (1 / ‖V‖ ^ 2) := by
  have h1 := inv_norm hV
  obtain ⟨_, h2, _, _⟩ := inv_facts hV
  have h3 := horner_le h1 l hl
  rw [norm_div, norm_mul, norm_pow, norm_pow, pow_add]
  have h4 : 1 ≤ ‖1 + 1 / V‖ ^ m := one_le_pow₀ h2
  calc _ ≤ ‖1 / V‖ ^ k * ‖1 / V‖ ^ 2 * ‖horner l (1 / V)‖ := div_le_self (by positivity) h4
    _ ≤ (1 / 15) ^ k * ‖1 / V‖ ^ 2 * hornerR l (1 / 15) := by gcongr
    _ = _ := by rw [norm_div, norm_one, div_pow, one_pow]; ring

theorem sum_sq_le : ∀ M : ℕ, ∑ n ∈ range M, 1 / (15 + (n : ℝ)) ^ 2 ≤ 1 / 14 - 1 / (14 + (M : ℝ))
  | 0 => by simp
  | M + 1 => by
    rw [sum_range_succ]
    have ih := sum_sq_le M
    have hM : (0 : ℝ) ≤ M := Nat.cast_nonneg M
    have : 1 / (15 + (M : ℝ)) ^ 2 ≤ 1 / (14 + (M : ℝ)) - 1 / (14 + ((M + 1 : ℕ) : ℝ)) := by
      push_cast
      rw [div_sub_div _ _ (by positivity) (by positivity), div_le_div_iff₀ (by positivity) (by positivity)]
      nlinarith
    linarith

/-- If `S` obeys the recurrence up to small terms, it is close to the sum over the poles. -/
theorem stirling (k : ℕ) (f : ℂ) (S : ℂ → ℂ) (hc : Continuous S) (h0 : S 0 = 0) {C : ℝ} (hC : 0 ≤ C)
    (hq : ∀ V : ℂ, 15 ≤ V.re → ‖f / V ^ (k + 2) - (S (1 / V) - S (1 / (V + 1)))‖ ≤ C * (1 / ‖V‖ ^ 2)) {V : ℂ}
    (hV : 15 ≤ V.re) : ‖f * Digamma.zetaSum (k + 2) V - S (1 / V)‖ ≤ C / 14 := by
  have hp : 0 < V.re := by linarith
  have hs := (Digamma.zeta_split k hp).1
  have ht : Tendsto (fun M : ℕ => f * (∑ n ∈ range M, 1 / (V + n) ^ (k + 2)) - S (1 / V) + S (1 / (V + M))) atTop
      (𝓝 (f * Digamma.zetaSum (k + 2) V - S (1 / V) + 0)) := by
    refine ((hs.hasSum.tendsto_sum_nat.const_mul f).sub_const _).add ?_
    rw [← h0]
    refine (hc.tendsto 0).comp ?_
    rw [tendsto_zero_iff_norm_tendsto_zero]
    refine squeeze_zero (fun _ => norm_nonneg _) (fun M => ?_) tendsto_one_div_add_atTop_nhds_zero_nat
    rw [norm_div, norm_one]
    apply one_div_le_one_div_of_le (by positivity)
    have := Complex.re_le_norm (V + M)
    rw [Digamma.re_add_nat] at this
    linarith
  rw [add_zero] at ht
  refine le_of_tendsto ht.norm (Eventually.of_forall fun M => ?_)
  have e : ∀ M : ℕ, f * (∑ n ∈ range M, 1 / (V + n) ^ (k + 2)) - S (1 / V) + S (1 / (V + M)) =
      ∑ n ∈ range M, (f / (V + n) ^ (k + 2) - (S (1 / (V + n)) - S (1 / (V + n + 1)))) := by
    intro M
    induction M with
    | zero => simp
    | succ M ih =>
      rw [sum_range_succ, sum_range_succ, ← ih]
      push_cast
      rw [← add_assoc]
      ring
  rw [e]
  refine (norm_sum_le _ _).trans ?_
  calc _ ≤ ∑ n ∈ range M, C * (1 / (15 + (n : ℝ)) ^ 2) := by
        refine sum_le_sum fun n _ => ?_
        have hr : 15 + (n : ℝ) ≤ (V + n).re := by rw [Digamma.re_add_nat]; linarith
        have hn : (0 : ℝ) ≤ n := Nat.cast_nonneg n
        refine (hq (V + n) (by linarith)).trans ?_
        have := hr.trans (Complex.re_le_norm (V + n))
        gcongr
    _ = C * ∑ n ∈ range M, 1 / (15 + (n : ℝ)) ^ 2 := by rw [mul_sum]
    _ ≤ C * (1 / 14) := by
        have := sum_sq_le M
        have : 0 ≤ 1 / (14 + (M : ℝ)) := by positivity
        gcongr
        linarith
    _ = _ := by ring

/-- The expansion for `K = 1`. -/
noncomputable def stir1 (x : ℂ) : ℂ := (1) * x ^ 1 + (1/2) * x ^ 2 + (1/6) * x ^ 3 + (-1/30) * x ^ 5 + (1/42) * x ^ 7 + (-1/30) * x ^ 9 + (5/66) * x ^ 11 + (-691/2730) * x ^ 13

theorem stir1_diff {x : ℂ} (h : 1 + x ≠ 0) : 1 * x ^ 2 - (stir1 x - stir1 (x / (1 + x))) =
    x ^ 16 * horner [(35/2), (175/2), (6533/30), (5191/15), (40189/105), (6395/21), (202241/1155), (164947/2310), (45431/2310), (691/210), (691/2730)] x / (1 + x) ^ 13 := by
  rw [eq_div_iff (pow_ne_zero _ h)]
  have e : stir1 (x / (1 + x)) * (1 + x) ^ 13 = (1) * x ^ 1 * (1 + x) ^ 12 + (1/2) * x ^ 2 * (1 + x) ^ 11 + (1/6) * x ^ 3 * (1 + x) ^ 10 + (-1/30) * x ^ 5 * (1 + x) ^ 8 + (1/42) * x ^ 7 * (1 + x) ^ 6 + (-1/30) * x ^ 9 * (1 + x) ^ 4 + (5/66) * x ^ 11 * (1 + x) ^ 2 + (-691/2730) * x ^ 13 * (1 + x) ^ 0 := by
    generalize 1 + x = d at h
    unfold stir1
    field_simp
  rw [sub_sub_eq_add_sub, sub_mul, add_mul, e]
  unfold stir1
  simp only [horner]
  push_cast
  ring

theorem stir1_near {V : ℂ} (hV : 15 ≤ V.re) : ‖pgTail V 1 - stir1 (1 / V)‖ ≤ 1e-18 := by
  have h0 : V ≠ 0 := by rintro rfl; norm_num at hV
  have e : pgTail V 1 - stir1 (1 / V) = (1 / V) ^ 3 * horner [(1/3000000000000000000), (1/30000000000000000000), (-1/42000000000000000000), (1/30000000000000000000), (1/41250000000000000000), (-61/136500000000000000000)] ((1 / V) ^ 2) := by
    unfold pgTail stir1
    simp only [List.foldl_cons, List.foldl_nil, pgCoef, pgC, pgFct, horner, Nat.reduceSub, List.getD_cons_zero, List.getD_cons_succ]
    push_cast
    field_simp
    ring
  rw [e]
  refine near_bound hV 0 ?_
  intro a ha
  simp only [List.mem_cons, List.not_mem_nil, or_false] at ha
  rcases ha with rfl | rfl | rfl | rfl | rfl | rfl <;> norm_num [abs_le]

theorem stir1_bound {V : ℂ} (hV : 15 ≤ V.re) : ‖pgTail V 1 - 1 * Digamma.zetaSum 2 V‖ ≤ 1e-16 := by
  have h1 := stirling 0 1 stir1 (by unfold stir1; fun_prop) (by simp [stir1]) (C := 13.7e-16) (by norm_num)
    (fun V hV => by
      obtain ⟨e1, e2, e3, e4⟩ := inv_facts hV
      rw [show (1 : ℂ) / (V + 1) = (1 / V) / (1 + 1 / V) from e4, show (1 : ℂ) / V ^ 2 = 1 * (1 / V) ^ 2 by
        rw [one_div_pow, mul_one_div], stir1_diff e3]
      refine (quot_bound hV 14 13 [(35/2), (175/2), (6533/30), (5191/15), (40189/105), (6395/21), (202241/1155), (164947/2310), (45431/2310), (691/210), (691/2730)] (by norm_num)).trans ?_
      refine mul_le_mul_of_nonneg_right ?_ (by positivity)
      norm_num [hornerR]) hV
  have h2 := stir1_near hV
  have := norm_sub_le_norm_sub_add_norm_sub (pgTail V 1) (stir1 (1 / V)) (1 * Digamma.zetaSum 2 V)
  rw [norm_sub_rev (stir1 (1 / V))] at this
  norm_num at h1 h2 this ⊢
  linarith

/-- The expansion for `K = 2`. -/
noncomputable def stir2 (x : ℂ) : ℂ := (1) * x ^ 2 + (1) * x ^ 3 + (1/2) * x ^ 4 + (-1/6) * x ^ 6 + (1/6) * x ^ 8 + (-3/10) * x ^ 10 + (5/6) * x ^ 12 + (-691/210) * x ^ 14

theorem stir2_diff {x : ℂ} (h : 1 + x ≠ 0) : 2 * x ^ 3 - (stir2 x - stir2 (x / (1 + x))) =
    x ^ 17 * horner [(280), (1540), (21349/5), (76641/10), (1021802/105), (136114/15), (31442/5), (96547/30), (17791/15), (1493/5), (691/15), (691/210)] x / (1 + x) ^ 14 := by
  rw [eq_div_iff (pow_ne_zero _ h)]
  have e : stir2 (x / (1 + x)) * (1 + x) ^ 14 = (1) * x ^ 2 * (1 + x) ^ 12 + (1) * x ^ 3 * (1 + x) ^ 11 + (1/2) * x ^ 4 * (1 + x) ^ 10 + (-1/6) * x ^ 6 * (1 + x) ^ 8 + (1/6) * x ^ 8 * (1 + x) ^ 6 + (-3/10) * x ^ 10 * (1 + x) ^ 4 + (5/6) * x ^ 12 * (1 + x) ^ 2 + (-691/210) * x ^ 14 * (1 + x) ^ 0 := by
    generalize 1 + x = d at h
    unfold stir2
    field_simp
  rw [sub_sub_eq_add_sub, sub_mul, add_mul, e]
  unfold stir2
  simp only [horner]
  push_cast
  ring

theorem stir2_near {V : ℂ} (hV : 15 ≤ V.re) : ‖pgTail V 2 - stir2 (1 / V)‖ ≤ 1e-18 := by
  have h0 : V ≠ 0 := by rintro rfl; norm_num at hV
  have e : pgTail V 2 - stir2 (1 / V) = (1 / V) ^ 4 * horner [(0), (-1/3000000000000000000), (1/3000000000000000000), (0), (-1/3000000000000000000), (-1/262500000000000000)] ((1 / V) ^ 2) := by
    unfold pgTail stir2
    simp only [List.foldl_cons, List.foldl_nil, pgCoef, pgC, pgFct, horner, Nat.reduceSub, List.getD_cons_zero, List.getD_cons_succ]
    push_cast
    field_simp
    ring
  rw [e]
  refine near_bound hV 1 ?_
  intro a ha
  simp only [List.mem_cons, List.not_mem_nil, or_false] at ha
  rcases ha with rfl | rfl | rfl | rfl | rfl | rfl <;> norm_num [abs_le]

theorem stir2_bound {V : ℂ} (hV : 15 ≤ V.re) : ‖pgTail V 2 - 2 * Digamma.zetaSum 3 V‖ ≤ 1e-16 := by
  have h1 := stirling 1 2 stir2 (by unfold stir2; fun_prop) (by simp [stir2]) (C := 13.7e-16) (by norm_num)
    (fun V hV => by
      obtain ⟨e1, e2, e3, e4⟩ := inv_facts hV
      rw [show (1 : ℂ) / (V + 1) = (1 / V) / (1 + 1 / V) from e4, show (2 : ℂ) / V ^ 3 = 2 * (1 / V) ^ 3 by
        rw [one_div_pow, mul_one_div], stir2_diff e3]
      refine (quot_bound hV 15 14 [(280), (1540), (21349/5), (76641/10), (1021802/105), (136114/15), (31442/5), (96547/30), (17791/15), (1493/5), (691/15), (691/210)] (by norm_num)).trans ?_
      refine mul_le_mul_of_nonneg_right ?_ (by positivity)
      norm_num [hornerR]) hV
  have h2 := stir2_near hV
  have := norm_sub_le_norm_sub_add_norm_sub (pgTail V 2) (stir2 (1 / V)) (2 * Digamma.zetaSum 3 V)
  rw [norm_sub_rev (stir2 (1 / V))] at this
  norm_num at h1 h2 this ⊢
  linarith

/-- The expansion for `K = 3`. -/
noncomputable def stir3 (x : ℂ) : ℂ := (2) * x ^ 3 + (3) * x ^ 4 + (2) * x ^ 5 + (-1) * x ^ 7 + (4/3) * x ^ 9 + (-3) * x ^ 11 + (10) * x ^ 13 + (-691/15) * x ^ 15

theorem stir3_diff {x : ℂ} (h : 1 + x ≠ 0) : 6 * x ^ 4 - (stir3 x - stir3 (x / (1 + x))) =
    x ^ 18 * horner [(4760), (28560), (436431/5), (174631), (250345), (267754), (651682/3), (669166/5), (61834), (62431/3), (4827), (691), (691/15)] x / (1 + x) ^ 15 := by
  rw [eq_div_iff (pow_ne_zero _ h)]
  have e : stir3 (x / (1 + x)) * (1 + x) ^ 15 = (2) * x ^ 3 * (1 + x) ^ 12 + (3) * x ^ 4 * (1 + x) ^ 11 + (2) * x ^ 5 * (1 + x) ^ 10 + (-1) * x ^ 7 * (1 + x) ^ 8 + (4/3) * x ^ 9 * (1 + x) ^ 6 + (-3) * x ^ 11 * (1 + x) ^ 4 + (10) * x ^ 13 * (1 + x) ^ 2 + (-691/15) * x ^ 15 * (1 + x) ^ 0 := by
    generalize 1 + x = d at h
    unfold stir3
    field_simp
  rw [sub_sub_eq_add_sub, sub_mul, add_mul, e]
  unfold stir3
  simp only [horner]
  push_cast
  ring

theorem stir3_near {V : ℂ} (hV : 15 ≤ V.re) : ‖pgTail V 3 - stir3 (1 / V)‖ ≤ 1e-18 := by
  have h0 : V ≠ 0 := by rintro rfl; norm_num at hV
  have e : pgTail V 3 - stir3 (1 / V) = (1 / V) ^ 5 * horner [(0), (0), (-1/300000000000000000), (0), (0), (-1/30000000000000000)] ((1 / V) ^ 2) := by
    unfold pgTail stir3
    simp only [List.foldl_cons, List.foldl_nil, pgCoef, pgC, pgFct, horner, Nat.reduceSub, List.getD_cons_zero, List.getD_cons_succ]
    rw [show (2.00000000000000000e+0 : ℝ) = 2 by norm_num, show (1.00000000000000000e+0 : ℝ) = 1 by norm_num,
      show (3.00000000000000000e+0 : ℝ) = 3 by norm_num, show (1.00000000000000000e+1 : ℝ) = 10 by norm_num]
    push_cast
    field_simp
    ring
  rw [e]
  refine near_bound hV 2 ?_
  intro a ha
  simp only [List.mem_cons, List.not_mem_nil, or_false] at ha
  rcases ha with rfl | rfl | rfl | rfl | rfl | rfl <;> norm_num [abs_le]

theorem stir3_bound {V : ℂ} (hV : 15 ≤ V.re) : ‖pgTail V 3 - 6 * Digamma.zetaSum 4 V‖ ≤ 1e-16 := by
  have h1 := stirling 2 6 stir3 (by unfold stir3; fun_prop) (by simp [stir3]) (C := 13.7e-16) (by norm_num)
    (fun V hV => by
      obtain ⟨e1, e2, e3, e4⟩ := inv_facts hV
      rw [show (1 : ℂ) / (V + 1) = (1 / V) / (1 + 1 / V) from e4, show (6 : ℂ) / V ^ 4 = 6 * (1 / V) ^ 4 by
        rw [one_div_pow, mul_one_div], stir3_diff e3]
      refine (quot_bound hV 16 15 [(4760), (28560), (436431/5), (174631), (250345), (267754), (651682/3), (669166/5), (61834), (62431/3), (4827), (691), (691/15)] (by norm_num)).trans ?_
      refine mul_le_mul_of_nonneg_right ?_ (by positivity)
      norm_num [hornerR]) hV
  have h2 := stir3_near hV
  have := norm_sub_le_norm_sub_add_norm_sub (pgTail V 3) (stir3 (1 / V)) (6 * Digamma.zetaSum 4 V)
  rw [norm_sub_rev (stir3 (1 / V))] at this
  norm_num at h1 h2 this ⊢
  linarith

/-- The expansion for `K = 4`. -/
noncomputable def stir4 (x : ℂ) : ℂ := (6) * x ^ 4 + (12) * x ^ 5 + (10) * x ^ 6 + (-7) * x ^ 8 + (12) * x ^ 10 + (-33) * x ^ 12 + (130) * x ^ 14 + (-691) * x ^ 16

theorem stir4_diff {x : ℂ} (h : 1 + x ≠ 0) : 24 * x ^ 5 - (stir4 x - stir4 (x / (1 + x))) =
    x ^ 19 * horner [(85680), (556920), (1859964), (4103682), (6555376), (7910757), (7355488), (5300876), (2946016), (1242053), (384880), (82790), (11056), (691)] x / (1 + x) ^ 16 := by
  rw [eq_div_iff (pow_ne_zero _ h)]
  have e : stir4 (x / (1 + x)) * (1 + x) ^ 16 = (6) * x ^ 4 * (1 + x) ^ 12 + (12) * x ^ 5 * (1 + x) ^ 11 + (10) * x ^ 6 * (1 + x) ^ 10 + (-7) * x ^ 8 * (1 + x) ^ 8 + (12) * x ^ 10 * (1 + x) ^ 6 + (-33) * x ^ 12 * (1 + x) ^ 4 + (130) * x ^ 14 * (1 + x) ^ 2 + (-691) * x ^ 16 * (1 + x) ^ 0 := by
    generalize 1 + x = d at h
    unfold stir4
    field_simp
  rw [sub_sub_eq_add_sub, sub_mul, add_mul, e]
  unfold stir4
  simp only [horner]
  push_cast
  ring

theorem stir4_near {V : ℂ} (hV : 15 ≤ V.re) : ‖pgTail V 4 - stir4 (1 / V)‖ ≤ 1e-18 := by
  have h0 : V ≠ 0 := by rintro rfl; norm_num at hV
  have e : pgTail V 4 - stir4 (1 / V) = (1 / V) ^ 6 * horner [(0), (0), (0), (0), (0), (0)] ((1 / V) ^ 2) := by
    unfold pgTail stir4
    simp only [List.foldl_cons, List.foldl_nil, pgCoef, pgC, pgFct, horner, Nat.reduceSub, List.getD_cons_zero, List.getD_cons_succ]
    push_cast
    field_simp
    ring
  rw [e]
  refine near_bound hV 3 ?_
  intro a ha
  simp only [List.mem_cons, List.not_mem_nil, or_false] at ha
  rcases ha with rfl | rfl | rfl | rfl | rfl | rfl <;> norm_num [abs_le]

theorem stir4_bound {V : ℂ} (hV : 15 ≤ V.re) : ‖pgTail V 4 - 24 * Digamma.zetaSum 5 V‖ ≤ 1e-16 := by
  have h1 := stirling 3 24 stir4 (by unfold stir4; fun_prop) (by simp [stir4]) (C := 13.7e-16) (by norm_num)
    (fun V hV => by
      obtain ⟨e1, e2, e3, e4⟩ := inv_facts hV
      rw [show (1 : ℂ) / (V + 1) = (1 / V) / (1 + 1 / V) from e4, show (24 : ℂ) / V ^ 5 = 24 * (1 / V) ^ 5 by
        rw [one_div_pow, mul_one_div], stir4_diff e3]
      refine (quot_bound hV 17 16 [(85680), (556920), (1859964), (4103682), (6555376), (7910757), (7355488), (5300876), (2946016), (1242053), (384880), (82790), (11056), (691)] (by norm_num)).trans ?_
      refine mul_le_mul_of_nonneg_right ?_ (by positivity)
      norm_num [hornerR]) hV
  have h2 := stir4_near hV
  have := norm_sub_le_norm_sub_add_norm_sub (pgTail V 4) (stir4 (1 / V)) (24 * Digamma.zetaSum 5 V)
  rw [norm_sub_rev (stir4 (1 / V))] at this
  norm_num at h1 h2 this ⊢
  linarith

/-- The expansion for `K = 0`, without the logarithm. -/
noncomputable def stir0 (x : ℂ) : ℂ := (1/2) * x ^ 1 + (1/12) * x ^ 2 + (-1/120) * x ^ 4 + (1/252) * x ^ 6 + (-1/240) * x ^ 8 + (1/132) * x ^ 10 + (-691/32760) * x ^ 12

theorem stir0_diff {x : ℂ} (h : 1 + x ≠ 0) : logTaylor 15 x - x + (stir0 x - stir0 (x / (1 + x))) =
    -(x ^ 15 * horner [(37/30), (479/80), (917/60), (9793/360), (1053/28), (13999/336), (28079/770), (56197/2310), (27257/2310), (9817/2520), (71/91), (1/14)] x / (1 + x) ^ 12) := by
  rw [← neg_div, eq_div_iff (pow_ne_zero _ h)]
  have e : stir0 (x / (1 + x)) * (1 + x) ^ 12 = (1/2) * x ^ 1 * (1 + x) ^ 11 + (1/12) * x ^ 2 * (1 + x) ^ 10 + (-1/120) * x ^ 4 * (1 + x) ^ 8 + (1/252) * x ^ 6 * (1 + x) ^ 6 + (-1/240) * x ^ 8 * (1 + x) ^ 4 + (1/132) * x ^ 10 * (1 + x) ^ 2 + (-691/32760) * x ^ 12 * (1 + x) ^ 0 := by
    generalize 1 + x = d at h
    unfold stir0
    field_simp
  have et : logTaylor 15 x = (1) * x ^ 1 + (-1/2) * x ^ 2 + (1/3) * x ^ 3 + (-1/4) * x ^ 4 + (1/5) * x ^ 5 + (-1/6) * x ^ 6 + (1/7) * x ^ 7 + (-1/8) * x ^ 8 + (1/9) * x ^ 9 + (-1/10) * x ^ 10 + (1/11) * x ^ 11 + (-1/12) * x ^ 12 + (1/13) * x ^ 13 + (-1/14) * x ^ 14 := by
    unfold logTaylor
    simp only [sum_range_succ, sum_range_zero]
    push_cast
    ring
  rw [et, add_mul, sub_mul, sub_mul, e]
  unfold stir0
  simp only [horner]
  push_cast
  ring

theorem stir0_near {V : ℂ} (hV : 15 ≤ V.re) : ‖pgTail V 0 - stir0 (1 / V)‖ ≤ 1e-17 := by
  have h0 : V ≠ 0 := by rintro rfl; norm_num at hV
  have e : pgTail V 0 - stir0 (1 / V) = (1 / V) ^ 2 * horner [(-1/30000000000000000000), (1/300000000000000000000), (-1/252000000000000000000), (-1/300000000000000000000), (1/412500000000000000000), (-1/255937500000000000000)] ((1 / V) ^ 2) := by
    unfold pgTail stir0
    simp only [List.foldl_cons, List.foldl_nil, pgCoef, pgC, pgFct, horner, Nat.reduceSub, List.getD_cons_zero, List.getD_cons_succ]
    push_cast
    field_simp
    ring
  rw [e]
  have h1 := inv_norm hV
  have h2 : ‖(1 / V) ^ 2‖ ≤ 1 / 225 := by
    rw [norm_pow]
    calc ‖1 / V‖ ^ 2 ≤ (1 / 15) ^ 2 := by gcongr
      _ ≤ _ := by norm_num
  have h3 := horner_small (h2.trans (by norm_num)) (ε := 1e-15) (by norm_num) [(-1/30000000000000000000), (1/300000000000000000000), (-1/252000000000000000000), (-1/300000000000000000000), (1/412500000000000000000), (-1/255937500000000000000)] (by
    intro a ha
    simp only [List.mem_cons, List.not_mem_nil, or_false] at ha
    rcases ha with rfl | rfl | rfl | rfl | rfl | rfl <;> norm_num [abs_le])
  rw [norm_mul]
  calc _ ≤ (1 / 225) * (2 * 1e-15) := mul_le_mul h2 h3 (norm_nonneg _) (by norm_num)
    _ ≤ _ := by norm_num

theorem log_shift {V : ℂ} (hV : 15 ≤ V.re) : log (V + 1) = log V + log (1 + 1 / V) := by
  obtain ⟨h0, h1, h2, h3⟩ := inv_facts hV
  have e : V + 1 = V * (1 + 1 / V) := by field_simp
  have hre : 0 ≤ (1 / V).re := by
    rw [one_div, Complex.inv_re]
    exact div_nonneg (by linarith) (Complex.normSq_nonneg V)
  rw [e]
  refine (log_mul_eq_add_log_iff h0 h2).mpr ?_
  have a1 := abs_lt.mp (abs_arg_lt_pi_div_two_iff.mpr (Or.inl (by linarith : 0 < V.re)))
  have a2 := abs_lt.mp (abs_arg_lt_pi_div_two_iff.mpr (Or.inl (by
    rw [Complex.add_re, Complex.one_re]; linarith : 0 < (1 + 1 / V).re)))
  exact ⟨by linarith, by linarith⟩

theorem digamma_shift {z : ℂ} (hz : 0 < z.re) : ∀ M : ℕ, digamma (z + M) = digamma z + ∑ n ∈ range M, 1 / (z + n)
  | 0 => by simp
  | M + 1 => by
    have hp : ∀ m : ℕ, z + M ≠ -(m : ℂ) := by
      intro m hm
      have := congrArg Complex.re hm
      rw [Digamma.re_add_nat, Complex.neg_re, Complex.natCast_re] at this
      have : (0 : ℝ) ≤ m := Nat.cast_nonneg m
      have : (0 : ℝ) ≤ M := Nat.cast_nonneg M
      linarith
    rw [sum_range_succ, ← add_assoc, ← digamma_shift hz M, one_div, ← digamma_apply_add_one _ hp]
    push_cast
    rw [add_assoc]

theorem ps_partial (z : ℂ) : ∀ M : ℕ, ∑ n ∈ range M, Digamma.psTerm n z =
    (Real.log ((M : ℝ) + 1) : ℝ) + 1 / z - ∑ n ∈ range (M + 1), 1 / (z + n)
  | 0 => by simp
  | M + 1 => by
    rw [sum_range_succ, ps_partial z M, sum_range_succ _ (M + 1)]
    have e2 : Real.log (((M + 1 : ℕ) : ℝ) + 1) = Real.log ((M : ℝ) + 1) + Real.log (1 + 1 / ((M : ℝ) + 1)) := by
      rw [← Real.log_mul (by positivity) (by positivity)]
      congr 1
      push_cast
      field_simp
    rw [e2]
    unfold Digamma.psTerm
    push_cast
    ring

/-- The digamma function approaches the logarithm. -/
theorem digamma_log {z : ℂ} (hz : 0 < z.re) :
    Tendsto (fun M : ℕ => digamma (z + M) - log (z + M)) atTop (𝓝 0) := by
  rw [← tendsto_add_atTop_iff_nat 1]
  have hb : z ∈ Digamma.box (‖z‖ + 2) := Digamma.mem_box.mpr ⟨hz, by simp⟩
  have hs : Summable fun n => Digamma.psTerm n z :=
    Summable.of_norm_bounded (Digamma.sum_bound _) fun n => Digamma.psTerm_bound n hb
  have h1 : Tendsto (fun M : ℕ => digamma z - (∑ n ∈ range M, Digamma.psTerm n z - 1 / z)) atTop (𝓝 (digamma z - digamma z)) := by
    refine tendsto_const_nhds.sub ?_
    rw [Digamma.digamma_eq hz]
    exact hs.hasSum.tendsto_sum_nat.sub_const _
  have h2 : Tendsto (fun M : ℕ => log (1 + z * ((1 / ((M : ℝ) + 1) : ℝ) : ℂ))) atTop (𝓝 (log (1 + z * ((0 : ℝ) : ℂ)))) := by
    have : Tendsto (fun M : ℕ => 1 + z * ((1 / ((M : ℝ) + 1) : ℝ) : ℂ)) atTop (𝓝 (1 + z * ((0 : ℝ) : ℂ))) :=
      tendsto_const_nhds.add (((Complex.continuous_ofReal.tendsto 0).comp tendsto_one_div_add_atTop_nhds_zero_nat).const_mul z)
    exact (continuousAt_clog (by simp)).tendsto.comp this
  have h3 := h1.sub h2
  simp only [sub_self, Complex.ofReal_zero, mul_zero, add_zero, log_one] at h3
  refine h3.congr fun M => ?_
  rw [digamma_shift hz (M + 1), ps_partial]
  have hne : 1 + z * ((1 / ((M : ℝ) + 1) : ℝ) : ℂ) ≠ 0 := by
    intro h
    have := congrArg Complex.re h
    rw [Complex.add_re, Complex.one_re, mul_comm, Complex.re_ofReal_mul, Complex.zero_re] at this
    have : 0 ≤ 1 / ((M : ℝ) + 1) * z.re := by positivity
    linarith
  have e : z + ((M + 1 : ℕ) : ℂ) = (((M : ℝ) + 1 : ℝ) : ℂ) * (1 + z * ((1 / ((M : ℝ) + 1) : ℝ) : ℂ)) := by
    have : ((M : ℂ) + 1) ≠ 0 := by exact_mod_cast Nat.succ_ne_zero M
    push_cast
    field_simp
    ring
  rw [e, log_ofReal_mul (by positivity) hne]
  ring

theorem stir0_bound {V : ℂ} (hV : 15 ≤ V.re) : ‖log V - pgTail V 0 - digamma V‖ ≤ 1e-16 := by
  have hp : 0 < V.re := by linarith
  have hq : ∀ V : ℂ, 15 ≤ V.re → ‖log (1 + 1 / V) - 1 / V + (stir0 (1 / V) - stir0 (1 / (V + 1)))‖ ≤
      9.2e-16 * (1 / ‖V‖ ^ 2) := by
    intro V hV
    obtain ⟨e1, e2, e3, e4⟩ := inv_facts hV
    have h1 := inv_norm hV
    have hl := norm_log_sub_logTaylor_le 14 (z := 1 / V) (lt_of_le_of_lt h1 (by norm_num))
    have hr : ‖log (1 + 1 / V) - logTaylor (14 + 1) (1 / V)‖ ≤ (1 / 15) ^ 13 * (1 / 14) * (1 / ‖V‖ ^ 2) := by
      refine hl.trans ?_
      have hi : (1 - ‖1 / V‖)⁻¹ ≤ 15 / 14 := by
        rw [inv_le_comm₀ (by linarith) (by norm_num)]
        linarith
      have e : 1 / ‖V‖ ^ 2 = ‖1 / V‖ ^ 2 := by rw [norm_div, norm_one, div_pow, one_pow]
      rw [e, show (14 : ℕ) + 1 = 13 + 2 from rfl, pow_add]
      calc _ ≤ (1 / 15) ^ 13 * ‖1 / V‖ ^ 2 * (15 / 14) / ((14 : ℕ) + 1) := by
            gcongr
            exact inv_nonneg.mpr (by linarith)
        _ = _ := by push_cast; ring
    have hd := quot_bound hV 13 12 [(37/30), (479/80), (917/60), (9793/360), (1053/28), (13999/336), (28079/770), (56197/2310), (27257/2310), (9817/2520), (71/91), (1/14)] (by norm_num)
    rw [e4]
    have e5 : log (1 + 1 / V) - 1 / V + (stir0 (1 / V) - stir0 (1 / V / (1 + 1 / V))) =
        (log (1 + 1 / V) - logTaylor (14 + 1) (1 / V)) +
          (logTaylor 15 (1 / V) - 1 / V + (stir0 (1 / V) - stir0 (1 / V / (1 + 1 / V)))) := by ring
    rw [e5, stir0_diff e3]
    refine (norm_add_le _ _).trans ?_
    rw [norm_neg]
    refine (add_le_add hr hd).trans ?_
    rw [← add_mul]
    refine mul_le_mul_of_nonneg_right ?_ (by positivity)
    norm_num [hornerR]
  have ht : Tendsto (fun M : ℕ => (digamma V - log V + stir0 (1 / V)) -
      (digamma (V + M) - log (V + M) + stir0 (1 / (V + M)))) atTop
      (𝓝 ((digamma V - log V + stir0 (1 / V)) - (0 + 0))) := by
    refine tendsto_const_nhds.sub ((digamma_log hp).add ?_)
    rw [show (0 : ℂ) = stir0 0 by simp [stir0]]
    refine ((show Continuous stir0 by unfold stir0; fun_prop).tendsto 0).comp ?_
    rw [tendsto_zero_iff_norm_tendsto_zero]
    refine squeeze_zero (fun _ => norm_nonneg _) (fun M => ?_) tendsto_one_div_add_atTop_nhds_zero_nat
    rw [norm_div, norm_one]
    apply one_div_le_one_div_of_le (by positivity)
    have := Complex.re_le_norm (V + M)
    rw [Digamma.re_add_nat] at this
    linarith
  rw [add_zero, sub_zero] at ht
  have key : ‖digamma V - log V + stir0 (1 / V)‖ ≤ 9.2e-16 / 14 := by
    refine le_of_tendsto ht.norm (Eventually.of_forall fun M => ?_)
    have hr : ∀ n : ℕ, 15 + (n : ℝ) ≤ (V + n).re := fun n => by rw [Digamma.re_add_nat]; linarith
    have hr0 : ∀ n : ℕ, 15 ≤ (V + n).re := fun n => by
      have := hr n
      have : (0 : ℝ) ≤ n := Nat.cast_nonneg n
      linarith
    have e : ∀ M : ℕ, (digamma V - log V + stir0 (1 / V)) - (digamma (V + M) - log (V + M) + stir0 (1 / (V + M))) =
        ∑ n ∈ range M, (log (1 + 1 / (V + n)) - 1 / (V + n) + (stir0 (1 / (V + n)) - stir0 (1 / (V + n + 1)))) := by
      intro M
      induction M with
      | zero => simp
      | succ M ih =>
        rw [sum_range_succ, ← ih, digamma_shift hp (M + 1), sum_range_succ, digamma_shift hp M]
        push_cast
        rw [← add_assoc V, log_shift (hr0 M)]
        ring
    rw [e]
    refine (norm_sum_le _ _).trans ?_
    calc _ ≤ ∑ n ∈ range M, 9.2e-16 * (1 / (15 + (n : ℝ)) ^ 2) := by
          refine sum_le_sum fun n _ => ?_
          refine (hq (V + n) (hr0 n)).trans ?_
          have := (hr n).trans (Complex.re_le_norm (V + n))
          gcongr
      _ = 9.2e-16 * ∑ n ∈ range M, 1 / (15 + (n : ℝ)) ^ 2 := by rw [mul_sum]
      _ ≤ 9.2e-16 * (1 / 14) := by
          have := sum_sq_le M
          have : 0 ≤ 1 / (14 + (M : ℝ)) := by positivity
          gcongr
          linarith
      _ = _ := by ring
  have h2 := stir0_near hV
  have e : log V - pgTail V 0 - digamma V = -((pgTail V 0 - stir0 (1 / V)) + (digamma V - log V + stir0 (1 / V))) := by ring
  rw [e, norm_neg]
  refine (norm_add_le _ _).trans ((add_le_add h2 key).trans ?_)
  norm_num

end Polygamma

end Verif
