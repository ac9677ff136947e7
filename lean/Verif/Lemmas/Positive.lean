import Verif.Props.Basis
import Verif.Spec.Positive
import Mathlib.Analysis.LocallyConvex.Separation
import Mathlib.Analysis.Normed.Module.FiniteDimension
import Mathlib.Topology.MetricSpace.ProperSpace
import Mathlib.Topology.MetricSpace.HausdorffDistance
import Mathlib.Analysis.ODE.Gronwall

/-! Equations of motion that keep density matrices positive. -/

namespace Verif

open Finset
open Complex (I)
open scoped ComplexConjugate

noncomputable section

/-- The quadratic form of a matrix. -/
def qf (R : Finset Nat) (F : Nat → Nat → ℂ) (x : Nat → ℂ) : ℂ := ∑ b ∈ R, ∑ bp ∈ R, conj (x b) * F b bp * x bp

theorem qf_add (R : Finset Nat) (F G : Nat → Nat → ℂ) (x : Nat → ℂ) :
    qf R (fun b bp => F b bp + G b bp) x = qf R F x + qf R G x := by
  unfold qf
  simp only [← sum_add_distrib]
  exact sum_congr rfl fun _ _ => sum_congr rfl fun _ _ => by ring

theorem qf_smul (R : Finset Nat) (k : ℂ) (F : Nat → Nat → ℂ) (x : Nat → ℂ) :
    qf R (fun b bp => k * F b bp) x = k * qf R F x := by
  unfold qf
  simp only [mul_sum]
  exact sum_congr rfl fun _ _ => sum_congr rfl fun _ _ => by ring

theorem qf_sum {ι : Type} (R : Finset Nat) (s : Finset ι) (F : ι → Nat → Nat → ℂ) (x : Nat → ℂ) :
    qf R (fun b bp => ∑ i ∈ s, F i b bp) x = ∑ i ∈ s, qf R (F i) x := by
  unfold qf
  simp only [mul_sum, sum_mul]
  rw [sum_congr rfl fun b _ => sum_comm, sum_comm]

theorem qf_congr {R : Finset Nat} {F G : Nat → Nat → ℂ} {x y : Nat → ℂ} (hF : ∀ b ∈ R, ∀ bp ∈ R, F b bp = G b bp)
    (hx : ∀ b ∈ R, x b = y b) : qf R F x = qf R G y := by
  unfold qf
  exact sum_congr rfl fun b hb => sum_congr rfl fun bp hbp => by rw [hF b hb bp hbp, hx b hb, hx bp hbp]

/-- `A ρ A⁺`. -/
theorem qf_cong (R Q : Finset Nat) (A ρ : Nat → Nat → ℂ) (x : Nat → ℂ) :
    qf R (fun b bp => ∑ a ∈ Q, ∑ ap ∈ Q, A b a * ρ a ap * conj (A bp ap)) x =
      qf Q ρ (fun a => ∑ b ∈ R, conj (A b a) * x b) := by
  unfold qf
  simp only [mul_sum, sum_mul, map_sum, map_mul, Complex.conj_conj]
  have e : ∀ (F : Nat → Nat → Nat → Nat → ℂ), ∑ b ∈ R, ∑ bp ∈ R, ∑ a ∈ Q, ∑ ap ∈ Q, F b bp a ap =
      ∑ a ∈ Q, ∑ ap ∈ Q, ∑ bp ∈ R, ∑ b ∈ R, F b bp a ap := by
    intro F
    rw [sum_comm]
    rw [sum_congr rfl fun bp _ => sum_congr rfl fun b _ => sum_comm]
    rw [sum_congr rfl fun bp _ => sum_comm]
    rw [sum_comm]
    rw [sum_congr rfl fun ap _ => sum_congr rfl fun bp _ => sum_comm]
    rw [sum_congr rfl fun ap _ => sum_comm]
    rw [sum_comm]
  rw [e]
  refine sum_congr rfl fun a _ => sum_congr rfl fun ap _ => sum_congr rfl fun bp _ => sum_congr rfl fun b _ => by ring

/-- Leaving out the elements between different classes keeps a matrix positive. -/
theorem qf_pinch {R : Finset Nat} {F : Nat → Nat → ℂ} (hF : ∀ x, 0 ≤ (qf R F x).re) {p : Nat → Nat → Bool}
    (hr : ∀ a ∈ R, p a a = true) (hs : ∀ a ∈ R, ∀ b ∈ R, p a b = p b a)
    (ht : ∀ a ∈ R, ∀ b ∈ R, ∀ c ∈ R, p a b = true → p b c = true → p a c = true) (x : Nat → ℂ) :
    0 ≤ (qf R (fun b bp => if p b bp then F b bp else 0) x).re := by
  classical
  have hne : ∀ a ∈ R, (R.filter fun c => p a c = true).Nonempty := fun a ha => ⟨a, mem_filter.2 ⟨ha, hr a ha⟩⟩
  let rep : Nat → Nat := fun a => if h : (R.filter fun c => p a c = true).Nonempty then (R.filter fun c => p a c = true).min' h
    else 0
  have hrep : ∀ a ∈ R, rep a ∈ R ∧ p a (rep a) = true := by
    intro a ha
    simp only [rep, dif_pos (hne a ha)]
    exact mem_filter.1 (Finset.min'_mem _ (hne a ha))
  have hiff : ∀ a ∈ R, ∀ b ∈ R, p a b = true ↔ rep a = rep b := by
    intro a ha b hb
    constructor
    · intro hp
      have : (R.filter fun c => p a c = true) = R.filter fun c => p b c = true := by
        ext c
        simp only [mem_filter]
        constructor
        · rintro ⟨hc, h1⟩
          exact ⟨hc, ht b hb a ha c hc (by rw [← hs a ha b hb]; exact hp) h1⟩
        · rintro ⟨hc, h1⟩
          exact ⟨hc, ht a ha b hb c hc hp h1⟩
      simp only [rep, this]
    · intro he
      have h1 := hrep a ha
      have h2 := hrep b hb
      rw [he] at h1
      exact ht a ha _ h2.1 b hb h1.2 (by rw [hs _ h2.1 b hb]; exact h2.2)
  have e : qf R (fun b bp => if p b bp then F b bp else 0) x = ∑ r ∈ R, qf R F (fun b => if rep b = r then x b else 0) := by
    unfold qf
    conv_rhs => rw [sum_comm]
    refine sum_congr rfl fun b hb => ?_
    conv_rhs => rw [sum_comm]
    refine sum_congr rfl fun bp hbp => ?_
    show conj (x b) * (if p b bp = true then F b bp else 0) * x bp = ∑ r ∈ R,
      conj (if rep b = r then x b else 0) * F b bp * (if rep bp = r then x bp else 0)
    by_cases hp : p b bp = true
    · rw [if_pos hp]
      have he := (hiff b hb bp hbp).1 hp
      rw [sum_eq_single (rep b)]
      · simp [he]
      · intro r _ hne
        simp [Ne.symm hne]
      · intro hn; exact absurd (hrep b hb).1 hn
    · rw [if_neg hp]
      have he := fun h => hp ((hiff b hb bp hbp).2 h)
      simp only [mul_zero, zero_mul]
      symm
      refine sum_eq_zero fun r _ => ?_
      by_cases h1 : rep b = r
      · have : rep bp ≠ r := fun h2 => he (h1.trans h2.symm)
        simp [this]
      · simp [h1]
  rw [e, Complex.re_sum]
  exact sum_nonneg fun r _ => hF _

/-- A convex compact set that a linear map does not lead out of, to first order, contains a vector that is mapped to
zero. -/
theorem exists_fixed {n : Nat} {K : Set (Fin n → ℝ)} (hc : IsCompact K) (hx : Convex ℝ K) (hne : K.Nonempty)
    (m : (Fin n → ℝ) →ₗ[ℝ] (Fin n → ℝ))
    (hm : ∀ φ ∈ K, ∃ (ψ : Fin n → ℝ) (c : ℝ), ∀ ε : ℝ, 0 < ε → ∃ χ ∈ K, φ + ε • m φ + ε ^ 2 • ψ = (1 + ε ^ 2 * c) • χ) :
    ∃ φ ∈ K, m φ = 0 := by
  by_contra hno
  push Not at hno
  have hmc : Continuous m := LinearMap.continuous_of_finiteDimensional m
  have h0 : (0 : Fin n → ℝ) ∉ m '' K := by
    rintro ⟨φ, hφ, e⟩
    exact hno φ hφ e
  obtain ⟨f, u, hf0, hf⟩ := geometric_hahn_banach_point_closed (hx.linear_image m) (hc.image hmc).isClosed h0
  rw [map_zero] at hf0
  obtain ⟨φ, hφ, hmax⟩ := hc.exists_isMaxOn hne f.continuous.continuousOn
  obtain ⟨ψ, c, hψ⟩ := hm φ hφ
  have hpos : 0 < f (m φ) := hf0.trans (hf _ ⟨φ, hφ, rfl⟩)
  have key : ∀ ε > 0, 0 < 1 + ε ^ 2 * c → f (m φ) ≤ ε * (c * f φ - f ψ) := by
    intro ε hε hpc
    obtain ⟨χ, hχ, e⟩ := hψ ε hε
    have h1 := congrArg f e
    simp only [map_add, map_smul, smul_eq_mul] at h1
    have h2 : f χ ≤ f φ := hmax hχ
    have h3 : (1 + ε ^ 2 * c) * f χ ≤ (1 + ε ^ 2 * c) * f φ := mul_le_mul_of_nonneg_left h2 hpc.le
    have h4 : ε * f (m φ) ≤ ε * (ε * (c * f φ - f ψ)) := by nlinarith
    exact le_of_mul_le_mul_left h4 hε
  -- a small ε
  obtain ⟨ε, hε, h1, h2⟩ : ∃ ε > 0, ε * |c| < 1 ∧ ε * (c * f φ - f ψ) < f (m φ) ∧ ε ≤ 1 := by
    refine ⟨min 1 (min (1 / (|c| + 1) / 2) (f (m φ) / (|c * f φ - f ψ| + 1) / 2)), ?_, ?_, ?_, min_le_left _ _⟩
    · positivity
    · have : min 1 (min (1 / (|c| + 1) / 2) (f (m φ) / (|c * f φ - f ψ| + 1) / 2)) ≤ 1 / (|c| + 1) / 2 :=
        (min_le_right _ _).trans (min_le_left _ _)
      have h3 := mul_le_mul_of_nonneg_right this (abs_nonneg c)
      have h4 : 1 / (|c| + 1) / 2 * |c| < 1 := by
        have hp : 0 < |c| + 1 := by positivity
        rw [div_div, div_mul_eq_mul_div, one_mul, div_lt_one (by positivity)]
        linarith [abs_nonneg c]
      linarith
    · have : min 1 (min (1 / (|c| + 1) / 2) (f (m φ) / (|c * f φ - f ψ| + 1) / 2)) ≤ f (m φ) / (|c * f φ - f ψ| + 1) / 2 :=
        (min_le_right _ _).trans (min_le_right _ _)
      set e := min 1 (min (1 / (|c| + 1) / 2) (f (m φ) / (|c * f φ - f ψ| + 1) / 2)) with he
      have hep : 0 < e := by positivity
      set d := c * f φ - f ψ with hd
      have hp : 0 < |d| + 1 := by positivity
      have h3 : e * d ≤ e * |d| := mul_le_mul_of_nonneg_left (le_abs_self d) hep.le
      have h4 : e * |d| ≤ f (m φ) / (|d| + 1) / 2 * |d| := mul_le_mul_of_nonneg_right this (abs_nonneg d)
      have h5 : f (m φ) / (|d| + 1) / 2 * |d| < f (m φ) := by
        rw [div_div, div_mul_eq_mul_div, div_lt_iff₀ (by positivity)]
        nlinarith [abs_nonneg d]
      linarith
  have h3 : 0 < 1 + ε ^ 2 * c := by
    have h4 := neg_abs_le c
    have h5 : ε ^ 2 * -|c| ≤ ε ^ 2 * c := mul_le_mul_of_nonneg_left h4 (by positivity)
    have h6 : ε ^ 2 * |c| < 1 := by
      have : ε ^ 2 * |c| = ε * (ε * |c|) := by ring
      rw [this]
      have := mul_le_mul h2.2 h1.le (by positivity) (by norm_num : (0 : ℝ) ≤ 1)
      have h7 : ε * (ε * |c|) ≤ 1 * (ε * |c|) := mul_le_mul_of_nonneg_right h2.2 (by positivity)
      linarith
    nlinarith
  exact absurd (key ε hε h3) (not_le.2 h2.1)

/-- A closed set that a linear flow does not lead out of, to first order, is never left. -/
theorem stays {n : Nat} {C : Set (Fin n → ℝ)} (hC : IsClosed C) (A : (Fin n → ℝ) →L[ℝ] (Fin n → ℝ))
    (hA : ∀ p ∈ C, ∃ w : Fin n → ℝ, ∀ ε : ℝ, 0 < ε → p + ε • A p + ε ^ 2 • w ∈ C) {y : ℝ → Fin n → ℝ}
    (hy : ∀ t, 0 ≤ t → HasDerivWithinAt y (A (y t)) (Set.Ici 0) t) (h0 : y 0 ∈ C) {T : ℝ} (hT : 0 ≤ T) : y T ∈ C := by
  have hne : C.Nonempty := ⟨_, h0⟩
  let d : ℝ → ℝ := fun t => Metric.infDist (y t) C
  have hyc : ContinuousOn y (Set.Ici 0) := fun t ht => (hy t ht).continuousWithinAt
  have hdc : ContinuousOn d (Set.Icc 0 T) :=
    (Metric.continuous_infDist_pt C).comp_continuousOn (hyc.mono fun t ht => ht.1)
  have key := le_gronwallBound_of_liminf_deriv_right_le (f := d) (f' := fun t => ‖A‖ * d t) (δ := 0) (K := ‖A‖) (ε := 0)
    (a := 0) (b := T) hdc ?_ ?_ ?_ T ⟨hT, le_refl T⟩
  · rw [gronwallBound_ε0_δ0] at key
    have : d T = 0 := le_antisymm key Metric.infDist_nonneg
    exact (hC.mem_iff_infDist_zero hne).2 this
  · intro t ht r hr
    obtain ⟨z, hz, hzd⟩ := hC.exists_infDist_eq_dist hne (y t)
    obtain ⟨w, hw⟩ := hA z hz
    have hder : HasDerivWithinAt y (A (y t)) (Set.Ioi t) t :=
      ((hy t ht.1).mono (Set.Ici_subset_Ici.2 ht.1)).mono Set.Ioi_subset_Ici_self
    have hsl := hasDerivWithinAt_iff_tendsto.1 hder
    set g := r - ‖A‖ * d t with hg
    have hgp : 0 < g := by simp only [hg]; linarith
    have e1 : ∀ᶠ s in nhdsWithin t (Set.Ioi t), ‖s - t‖⁻¹ * ‖y s - y t - (s - t) • A (y t)‖ < g / 2 :=
      (hsl.eventually_lt_const (by positivity))
    have e2 : ∀ᶠ s in nhdsWithin t (Set.Ioi t), (s - t) * ‖w‖ < g / 2 := by
      have : Filter.Tendsto (fun s => (s - t) * ‖w‖) (nhdsWithin t (Set.Ioi t)) (nhds ((t - t) * ‖w‖)) :=
        (((continuous_id.sub continuous_const).mul continuous_const).tendsto t).mono_left nhdsWithin_le_nhds
      rw [sub_self, zero_mul] at this
      exact this.eventually_lt_const (by positivity)
    refine (((e1.and e2).and self_mem_nhdsWithin).mono ?_).frequently
    rintro s ⟨⟨h1, h2⟩, h3⟩
    have hst : 0 < s - t := sub_pos.2 h3
    have hs1 : ‖s - t‖ = s - t := by rw [Real.norm_eq_abs, abs_of_pos hst]
    rw [hs1] at h1
    have hq := hw (s - t) hst
    have b1 : d s ≤ dist (y s) (z + (s - t) • A z + (s - t) ^ 2 • w) := Metric.infDist_le_dist_of_mem hq
    have b2 : y s - (z + (s - t) • A z + (s - t) ^ 2 • w) =
        (y s - y t - (s - t) • A (y t)) + (y t - z) + (s - t) • A (y t - z) - (s - t) ^ 2 • w := by
      rw [map_sub, smul_sub]; abel
    have b3 : ‖y t - z‖ = d t := by rw [← dist_eq_norm]; exact hzd.symm
    have b4 : ‖(s - t) • A (y t - z)‖ ≤ (s - t) * (‖A‖ * d t) := by
      rw [norm_smul, hs1, ← b3]
      exact mul_le_mul_of_nonneg_left (A.le_opNorm _) hst.le
    have b5 : ‖(s - t) ^ 2 • w‖ = (s - t) ^ 2 * ‖w‖ := by rw [norm_smul, norm_pow, hs1]
    have b6 : d s ≤ ‖y s - y t - (s - t) • A (y t)‖ + d t + (s - t) * (‖A‖ * d t) + (s - t) ^ 2 * ‖w‖ := by
      refine b1.trans ?_
      rw [dist_eq_norm, b2]
      refine (norm_sub_le _ _).trans ?_
      rw [b5]
      have := norm_add₃_le (a := y s - y t - (s - t) • A (y t)) (b := y t - z) (c := (s - t) • A (y t - z))
      rw [b3] at this
      linarith
    rw [inv_mul_lt_iff₀ hst] at h1 ⊢
    nlinarith
  · show d 0 ≤ 0
    exact ((hC.mem_iff_infDist_zero hne).1 h0).le
  · intro t _
    simp

end

end Verif
