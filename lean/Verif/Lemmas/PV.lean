import Verif.Spec.Integrals
import Verif.Props.Specfunc
import Mathlib.MeasureTheory.Integral.DominatedConvergence
import Mathlib.MeasureTheory.Integral.IntervalIntegral.FundThmCalculus
import Mathlib.Analysis.SpecialFunctions.Integrals.Basic

/-! Lemmas on principal values. -/

namespace Verif

open Filter Topology MeasureTheory

/-- The integrand without the points close to the pole. -/
noncomputable abbrev cut (g : ℝ → ℝ) (α ε x : ℝ) : ℝ := if |x - α| ≤ ε then 0 else g x

theorem cut_meas {g : ℝ → ℝ} (hg : Measurable g) (α ε : ℝ) : Measurable (cut g α ε) := by
  refine Measurable.ite ?_ measurable_const hg
  exact (isClosed_le (by fun_prop) continuous_const).measurableSet

theorem cut_bound {g : ℝ → ℝ} {K : ℝ} (hK : ∀ x, |g x| ≤ K) (α ε x : ℝ) : |cut g α ε x| ≤ K := by
  unfold cut
  split
  · rw [abs_zero]; exact (abs_nonneg _).trans (hK 0)
  · exact hK x

theorem int_of_bound {g : ℝ → ℝ} (hg : Measurable g) {K : ℝ} (hK : ∀ x, |g x| ≤ K) (a b : ℝ) :
    IntervalIntegrable g volume a b :=
  (intervalIntegrable_const (c := K)).mono_fun hg.aestronglyMeasurable (Eventually.of_forall fun x => by
    show |g x| ≤ |K|
    rw [abs_of_nonneg ((abs_nonneg _).trans (hK x))]; exact hK x)

/-- For a bounded function the principal value is the integral. -/
theorem pv_bounded {g : ℝ → ℝ} (hg : Measurable g) {K : ℝ} (hK : ∀ x, |g x| ≤ K) (a b α : ℝ) :
    PV g a b α (∫ x in a..b, g x) := by
  unfold PV
  refine intervalIntegral.tendsto_integral_filter_of_dominated_convergence (fun _ => K) ?_ ?_ ?_ ?_
  · exact Eventually.of_forall fun ε => (cut_meas hg α ε).aestronglyMeasurable
  · exact Eventually.of_forall fun ε => Eventually.of_forall fun x _ => by
      rw [Real.norm_eq_abs]; exact cut_bound hK α ε x
  · exact intervalIntegrable_const
  · have : ∀ᵐ x : ℝ, x ≠ α := by
      rw [ae_iff]; simp
    filter_upwards [this] with x hx _
    refine tendsto_const_nhds.congr' ?_
    have : 0 < |x - α| := abs_pos.2 (sub_ne_zero.2 hx)
    filter_upwards [Ioo_mem_nhdsGT this] with ε hε
    rw [if_neg (not_le.2 hε.2)]

theorem PV.unique {g : ℝ → ℝ} {a b α I J : ℝ} (h : PV g a b α I) (h' : PV g a b α J) : I = J :=
  tendsto_nhds_unique h h'

/-- Integrable without the points close to the pole. -/
def CutInt (g : ℝ → ℝ) (a b α : ℝ) : Prop := ∀ ε > 0, IntervalIntegrable (cut g α ε) volume a b

theorem cutInt_pole {f : ℝ → ℝ} (hf : Measurable f) {K : ℝ} (hK : ∀ x, |f x| ≤ K) (a b α : ℝ) :
    CutInt (fun x => f x / (x - α)) a b α := by
  intro ε hε
  refine int_of_bound (K := K / ε) (cut_meas (by fun_prop) α ε) ?_ a b
  intro x
  have hK0 : 0 ≤ K := (abs_nonneg _).trans (hK 0)
  unfold cut
  split
  · rw [abs_zero]; positivity
  · rename_i h
    rw [abs_div]
    exact div_le_div₀ hK0 (hK x) hε (not_le.1 h).le

theorem cutInt_bounded {f : ℝ → ℝ} (hf : Measurable f) {K : ℝ} (hK : ∀ x, |f x| ≤ K) (a b α : ℝ) : CutInt f a b α :=
  fun ε _ => int_of_bound (cut_meas hf α ε) (cut_bound hK α ε) a b

theorem PV.add {g h : ℝ → ℝ} {a b α I J : ℝ} (hg : PV g a b α I) (hh : PV h a b α J) (ig : CutInt g a b α)
    (ih : CutInt h a b α) : PV (fun x => g x + h x) a b α (I + J) := by
  refine (Tendsto.add hg hh).congr' ?_
  filter_upwards [self_mem_nhdsWithin] with ε hε
  rw [← intervalIntegral.integral_add (ig ε hε) (ih ε hε)]
  refine intervalIntegral.integral_congr fun x _ => ?_
  simp only [cut]
  split <;> simp

theorem PV.smul {g : ℝ → ℝ} {a b α I : ℝ} (hg : PV g a b α I) (c : ℝ) : PV (fun x => c * g x) a b α (c * I) := by
  refine (Tendsto.const_mul c hg).congr fun ε => ?_
  rw [← intervalIntegral.integral_const_mul]
  refine intervalIntegral.integral_congr fun x _ => ?_
  dsimp only
  split <;> simp

theorem CutInt.smul {g : ℝ → ℝ} {a b α : ℝ} (hg : CutInt g a b α) (c : ℝ) : CutInt (fun x => c * g x) a b α := by
  intro ε hε
  refine ((hg ε hε).const_mul c).congr ?_
  intro x _
  simp only [cut]
  split <;> simp

/-- Functions that agree between the ends, up to the pole. -/
theorem PV.congr {g h : ℝ → ℝ} {a b α I : ℝ} (hg : PV g a b α I) (e : ∀ x ∈ Set.uIcc a b, x ≠ α → g x = h x) :
    PV h a b α I := by
  refine Tendsto.congr' ?_ hg
  filter_upwards [self_mem_nhdsWithin] with ε hε
  refine intervalIntegral.integral_congr fun x hx => ?_
  show (if _ then _ else _) = (if _ then _ else _)
  split
  · rfl
  · rename_i h
    refine e x hx ?_
    rintro rfl
    rw [sub_self, abs_zero] at h
    exact h (le_of_lt hε)

/-- The principal value of a simple pole. -/
theorem pv_pole {a b α : ℝ} (hab : a < b) (ha : α ≠ a) (hb : α ≠ b) :
    PV (fun x => 1 / (x - α)) a b α (Real.log |(b - α) / (a - α)|) := by
  have prim : ∀ c d, (∀ x ∈ Set.uIcc c d, x ≠ α) → ∫ x in c..d, 1 / (x - α) = Real.log ((d - α) / (c - α)) := by
    intro c d h
    rw [intervalIntegral.integral_comp_sub_right (fun x => 1 / x) α, integral_one_div]
    intro h0
    refine h α ?_ rfl
    rw [Set.mem_uIcc] at h0 ⊢
    rcases h0 with h0 | h0
    · left; constructor <;> linarith [h0.1, h0.2]
    · right; constructor <;> linarith [h0.1, h0.2]
  refine tendsto_const_nhds.congr' ?_
  rcases lt_or_gt_of_ne ha with h1 | h1
  · -- the pole is below
    filter_upwards [Ioo_mem_nhdsGT (sub_pos.2 h1)] with ε hε
    rw [Real.log_abs, ← prim a b (fun x hx => by
      rw [Set.uIcc_of_le hab.le] at hx; intro e; linarith [hx.1])]
    refine intervalIntegral.integral_congr fun x hx => ?_
    rw [Set.uIcc_of_le hab.le] at hx
    show _ = (if _ then _ else _)
    rw [if_neg]
    rw [not_le, abs_of_pos (by linarith [hx.1])]
    linarith [hx.1, hε.2]
  rcases lt_or_gt_of_ne hb with h2 | h2
  swap
  · -- the pole is above
    filter_upwards [Ioo_mem_nhdsGT (sub_pos.2 h2)] with ε hε
    rw [Real.log_abs, ← prim a b (fun x hx => by
      rw [Set.uIcc_of_le hab.le] at hx; intro e; linarith [hx.2])]
    refine intervalIntegral.integral_congr fun x hx => ?_
    rw [Set.uIcc_of_le hab.le] at hx
    show _ = (if _ then _ else _)
    rw [if_neg]
    rw [not_le, abs_of_neg (by linarith [hx.2])]
    linarith [hx.2, hε.2]
  · -- the pole is inside
    filter_upwards [Ioo_mem_nhdsGT (sub_pos.2 h1), Ioo_mem_nhdsGT (sub_pos.2 h2)] with ε e1 e2
    have hε := e1.1
    have ii : ∀ c d, IntervalIntegrable (cut (fun x => 1 / (x - α)) α ε) volume c d := fun c d =>
      cutInt_pole (f := fun _ => 1) measurable_const (K := 1) (by simp) c d α ε hε
    show _ = ∫ x in a..b, cut (fun x => 1 / (x - α)) α ε x
    rw [← intervalIntegral.integral_add_adjacent_intervals (ii a (α - ε)) (ii (α - ε) b),
      ← intervalIntegral.integral_add_adjacent_intervals (ii (α - ε) (α + ε)) (ii (α + ε) b)]
    have m1 : ∫ x in a..(α - ε), cut (fun x => 1 / (x - α)) α ε x = ∫ x in a..(α - ε), 1 / (x - α) := by
      refine intervalIntegral.integral_congr_ae ?_
      have : ∀ᵐ x : ℝ, x ≠ α - ε := by rw [ae_iff]; simp
      filter_upwards [this] with x hx h
      rw [Set.uIoc_of_le (by linarith [e1.2])] at h
      have : x < α - ε := lt_of_le_of_ne h.2 hx
      unfold cut
      rw [if_neg]
      rw [not_le, abs_of_neg (by linarith)]
      linarith
    have m3 : ∫ x in (α + ε)..b, cut (fun x => 1 / (x - α)) α ε x = ∫ x in (α + ε)..b, 1 / (x - α) := by
      refine intervalIntegral.integral_congr_ae ?_
      refine Eventually.of_forall fun x h => ?_
      rw [Set.uIoc_of_le (by linarith [e2.2])] at h
      unfold cut
      rw [if_neg]
      rw [not_le, abs_of_pos (by linarith [h.1])]
      linarith [h.1]
    have m2 : ∫ x in (α - ε)..(α + ε), cut (fun x => 1 / (x - α)) α ε x = 0 := by
      rw [intervalIntegral.integral_congr (g := fun _ => 0), intervalIntegral.integral_zero]
      intro x hx
      rw [Set.uIcc_of_le (by linarith)] at hx
      unfold cut
      rw [if_pos]
      rw [abs_le]
      constructor <;> linarith [hx.1, hx.2]
    rw [m1, m2, m3, zero_add, prim a (α - ε) (fun x hx => by
      rw [Set.uIcc_of_le (by linarith [e1.2])] at hx; intro e; linarith [hx.2]), prim (α + ε) b (fun x hx => by
      rw [Set.uIcc_of_le (by linarith [e2.2])] at hx; intro e; linarith [hx.1])]
    rw [← Real.log_mul (div_ne_zero (by linarith) (by linarith)) (div_ne_zero (by linarith) (by linarith)), Real.log_abs]
    have h1 : a - α ≠ 0 := by linarith
    have h2 : ε ≠ 0 := hε.ne'
    have : (α - ε - α) / (a - α) * ((b - α) / (α + ε - α)) = -((b - α) / (a - α)) := by
      rw [show α - ε - α = -ε by ring, show α + ε - α = ε by ring]
      field_simp
    rw [this, Real.log_neg_eq_log]

/-- Reflection at zero. -/
theorem PV.neg {g : ℝ → ℝ} {a b α I : ℝ} (hg : PV g a b α I) : PV (fun x => g (-x)) (-b) (-a) (-α) I := by
  refine Tendsto.congr (fun ε => ?_) hg
  have := intervalIntegral.integral_comp_neg (a := -b) (b := -a) (fun x => if |x - α| ≤ ε then 0 else g x)
  rw [neg_neg, neg_neg] at this
  rw [← this]
  refine intervalIntegral.integral_congr fun x _ => ?_
  dsimp only
  rw [show |-x - α| = |x - -α| by rw [← abs_neg]; congr 1; ring]

/-- Another unit and zero of the variable. -/
theorem PV.scale {g : ℝ → ℝ} {a b α I : ℝ} (hg : PV g a b α I) {T : ℝ} (hT : 0 < T) (m : ℝ) :
    PV (fun y => g ((y - m) / T)) (T * a + m) (T * b + m) (T * α + m) (T * I) := by
  have h0 : Tendsto (fun ε : ℝ => ε / T) (𝓝[>] 0) (𝓝[>] 0) := by
    refine tendsto_nhdsWithin_iff.2 ⟨?_, ?_⟩
    · have : Tendsto (fun ε : ℝ => ε / T) (𝓝 0) (𝓝 (0 / T)) := tendsto_id.div_const T
      rw [zero_div] at this
      exact this.mono_left nhdsWithin_le_nhds
    · filter_upwards [self_mem_nhdsWithin] with ε hε
      exact div_pos hε hT
  refine ((hg.comp h0).const_mul T).congr fun ε => ?_
  have := intervalIntegral.integral_comp_div_sub (a := T * a + m) (b := T * b + m)
    (fun x => if |x - α| ≤ ε / T then 0 else g x) hT.ne' (m / T)
  rw [show (T * a + m) / T - m / T = a by field_simp; ring, show (T * b + m) / T - m / T = b by field_simp; ring,
    smul_eq_mul] at this
  rw [Function.comp, ← this]
  refine intervalIntegral.integral_congr fun y _ => ?_
  dsimp only
  have e1 : y / T - m / T = (y - m) / T := by ring
  rw [e1]
  refine if_congr ?_ rfl rfl
  rw [show (y - m) / T - α = (y - (T * α + m)) / T by field_simp; ring, abs_div, abs_of_pos hT,
    div_le_div_iff_of_pos_right hT]

end Verif
