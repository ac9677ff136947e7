import Verif.Model.RTDInt
import Mathlib.Analysis.SpecialFunctions.Gamma.Digamma
import Mathlib.Analysis.SpecialFunctions.Gamma.Beta
import Mathlib.Analysis.Calculus.Deriv.Star
import Mathlib.Analysis.Calculus.Deriv.Slope
import Mathlib.Analysis.Complex.RealDeriv
import Mathlib.Analysis.Complex.CauchyIntegral
import Mathlib.Analysis.SpecialFunctions.ExpDeriv

/-! C72: the special cases of the integrals of the RTD approach are the limits of the general formulas. -/

namespace Verif

noncomputable section

open Complex (I)
open Filter Topology
open scoped ComplexConjugate

namespace RTD

/-- The special functions the code relies on: the digamma function and its first two derivatives. -/
structure Fun.Exact (F : Fun) : Prop where
  psi : F.psi = Complex.digamma
  psi1 : F.psi1 = deriv Complex.digamma
  psi2 : F.psi2 = deriv (deriv Complex.digamma)

/-- The integral of the direct diagram for two leads of the same temperature, away from its removable singularities. -/
def genD (φ : ℝ → ℝ) (p E1 dE E2 : ℝ) : ℝ :=
  1 / (E1 - E2) * (p * ((1 / (Real.exp E1 + 1) + 1 / (Real.exp dE - 1)) * φ (dE - E1)
      - (1 / (Real.exp E2 + 1) + 1 / (Real.exp dE - 1)) * φ (dE - E2)
      - (1 / (Real.exp dE - 1) + 1 / 2) * (φ E1 - φ E2)) + 1 / 2 * (φ E1 - φ E2))

/-- The integral of the exchange diagram for two leads of the same temperature, away from its removable singularities. -/
def genX (φ : ℝ → ℝ) (p E1 dE E2 : ℝ) : ℝ :=
  p * (1 / (dE - E1 - E2) * ((1 / (Real.exp E1 + 1) + 1 / (Real.exp dE - 1)) * (φ (dE - E1) - φ E2)
      + (1 / (Real.exp E2 + 1) + 1 / (Real.exp dE - 1)) * (φ (dE - E2) - φ E1)))

section digamma

lemma ne_neg_nat {z : ℂ} (h : 0 < z.re) (m : ℕ) : z ≠ -m := by
  rintro rfl
  simp only [Complex.neg_re, Complex.natCast_re, Left.neg_pos_iff] at h
  exact absurd h (not_lt.2 (Nat.cast_nonneg m))

lemma digamma_analyticOn : DifferentiableOn ℂ Complex.digamma {z | 0 < z.re} := by
  have ho : IsOpen {z : ℂ | 0 < z.re} := isOpen_lt continuous_const Complex.continuous_re
  have hG : DifferentiableOn ℂ Complex.Gamma {z | 0 < z.re} := fun z hz =>
    (Complex.differentiableAt_Gamma z (ne_neg_nat hz)).differentiableWithinAt
  have := (hG.deriv ho).div hG fun z hz => Complex.Gamma_ne_zero (ne_neg_nat hz)
  exact this

lemma digamma_conj (z : ℂ) : Complex.digamma (conj z) = conj (Complex.digamma z) := by
  have h : (conj ∘ Complex.Gamma ∘ conj : ℂ → ℂ) = Complex.Gamma := by
    funext z; simp [Complex.Gamma_conj]
  have hd : deriv Complex.Gamma (conj z) = conj (deriv Complex.Gamma z) := by
    have := congrFun (deriv_conj_conj (𝕜 := ℂ) (f := Complex.Gamma)) (conj z)
    rw [h] at this
    simpa using this
  simp only [Complex.digamma_def, logDeriv_apply, hd, Complex.Gamma_conj, map_div₀]

end digamma

variable {F : Fun}

lemma zOf_re (x : ℝ) : (zOf x).re = 0.5 := by
  simp only [zOf, Complex.add_re, Complex.re_ofReal_mul, Complex.I_re, mul_zero, add_zero]
  norm_num

lemma zOf_neg (x : ℝ) : zOf (-x) = conj (zOf x) := by
  apply Complex.ext
  · rw [Complex.conj_re, zOf_re, zOf_re]
  · rw [Complex.conj_im]
    simp only [zOf, Complex.add_im, Complex.im_ofReal_mul, Complex.I_im, mul_one]
    norm_num
    ring

lemma half_open : IsOpen {z : ℂ | 0 < z.re} := isOpen_lt continuous_const Complex.continuous_re

lemma Fun.Exact.d1 (h : F.Exact) {z : ℂ} (hz : 0 < z.re) : HasDerivAt F.psi (F.psi1 z) z := by
  rw [h.psi, h.psi1]
  exact (digamma_analyticOn.differentiableAt (half_open.mem_nhds hz)).hasDerivAt

lemma Fun.Exact.d2 (h : F.Exact) {z : ℂ} (hz : 0 < z.re) : HasDerivAt F.psi1 (F.psi2 z) z := by
  rw [h.psi1, h.psi2]
  exact ((digamma_analyticOn.deriv half_open).differentiableAt (half_open.mem_nhds hz)).hasDerivAt

lemma zOf_deriv (x : ℝ) : HasDerivAt zOf ((1 / (2 * Real.pi) : ℝ) * I) x := by
  unfold zOf
  have : HasDerivAt (fun x : ℝ => ((x / (2 * Real.pi) : ℝ) : ℂ)) ((1 / (2 * Real.pi) : ℝ) : ℂ) x :=
    ((hasDerivAt_id x).div_const (2 * Real.pi)).ofReal_comp
  exact (this.mul_const I).const_add _

lemma Fun.Exact.phi' (h : F.Exact) (D x : ℝ) : HasDerivAt (F.phi D) (F.diffPhi x) x := by
  have hz : 0 < (zOf x).re := by rw [zOf_re]; norm_num
  have h1 := (h.d1 hz).scomp x (zOf_deriv x)
  have h2 := (Complex.reCLM.hasFDerivAt.comp_hasDerivAt x h1).neg.add_const
    (Real.log (0.5 * (|D| + |D|) / (2 * Real.pi)))
  have e : F.diffPhi x = -(Complex.reCLM (((1 / (2 * Real.pi) : ℝ) * I) • F.psi1 (zOf x))) := by
    simp [Fun.diffPhi, Complex.mul_re, Complex.mul_im]
  rw [e]
  exact h2

lemma Fun.Exact.phi'' (h : F.Exact) (x : ℝ) : HasDerivAt F.diffPhi (F.diff2Phi x) x := by
  have hz : 0 < (zOf x).re := by rw [zOf_re]; norm_num
  have h1 := (h.d2 hz).scomp x (zOf_deriv x)
  have h2 := (Complex.imCLM.hasFDerivAt.comp_hasDerivAt x h1).const_mul (1 / (2 * Real.pi))
  have e : F.diff2Phi x = 1 / (2 * Real.pi) * (Complex.imCLM (((1 / (2 * Real.pi) : ℝ) * I) • F.psi2 (zOf x))) := by
    simp [Fun.diff2Phi, Complex.mul_re, Complex.mul_im]
    ring
  rw [e]
  exact h2

lemma Fun.Exact.even (h : F.Exact) (D x : ℝ) : F.phi D (-x) = F.phi D x := by
  simp only [Fun.phi, zOf_neg, h.psi, digamma_conj, Complex.conj_re]

lemma Fun.Exact.odd (h : F.Exact) (x : ℝ) : F.diffPhi (-x) = -F.diffPhi x := by
  have h1 := (h.phi' 1 (-x)).scomp x (hasDerivAt_neg x)
  have e : (F.phi 1 ∘ fun x : ℝ => -x) = F.phi 1 := funext fun y => h.even 1 y
  have e' : (F.phi 1 ∘ Neg.neg) = F.phi 1 := e
  rw [e'] at h1
  have := h1.unique (h.phi' 1 x)
  simp at this
  linarith

lemma Fun.Exact.even2 (h : F.Exact) (x : ℝ) : F.diff2Phi (-x) = F.diff2Phi x := by
  have h1 := ((h.phi'' (-x)).scomp x (hasDerivAt_neg x)).neg
  have e : (-(F.diffPhi ∘ Neg.neg)) = F.diffPhi := funext fun y => by
    simp [h.odd y]
  rw [e] at h1
  have := h1.unique (h.phi'' x)
  simpa using this

/-- The Bose function has a simple pole of residue one. -/
lemma bose_slope {g : ℝ → ℝ} {g' : ℝ} (hg : HasDerivAt g g' 0) :
    Tendsto (fun x => 1 / (Real.exp x - 1) * (g x - g 0)) (𝓝[≠] 0) (𝓝 g') := by
  have h1 := hg.tendsto_slope
  have h2 := (Real.hasDerivAt_exp 0).tendsto_slope
  have h3 := h1.div h2 (by simp)
  simp only [Real.exp_zero, div_one] at h3
  refine h3.congr' ?_
  filter_upwards [self_mem_nhdsWithin] with x hx
  have hx : x ≠ 0 := hx
  simp only [Pi.div_apply, slope_def_field, sub_zero, Real.exp_zero]
  have : Real.exp x - 1 ≠ 0 := by
    rw [sub_ne_zero, Ne, Real.exp_eq_one_iff]; exact hx
  field_simp

/-- The derivative of the Fermi function. -/
lemma fermi' (x : ℝ) :
    HasDerivAt (fun x => 1 / (Real.exp x + 1)) (-Real.exp x / (Real.exp x + 1) ^ 2) x := by
  have h := ((Real.hasDerivAt_exp x).add_const (1 : ℝ)).inv (by positivity)
  simp only [one_div]
  exact h

lemma cont {g : ℝ → ℝ} {g' x : ℝ} (h : HasDerivAt g g' x) {u : ℝ → ℝ} {l : Filter ℝ} (hu : Tendsto u l (𝓝 x)) :
    Tendsto (fun y => g (u y)) l (𝓝 (g x)) := h.continuousAt.tendsto.comp hu

lemma shift (a : ℝ) : Tendsto (fun x : ℝ => x - a) (𝓝[≠] 0) (𝓝 (-a)) := by
  have : Tendsto (fun x : ℝ => x - a) (𝓝 0) (𝓝 (0 - a)) := (continuous_id.sub continuous_const).tendsto 0
  simpa using this.mono_left nhdsWithin_le_nhds

lemma shift' {g : ℝ → ℝ} {g' a : ℝ} (h : HasDerivAt g g' (-a)) : HasDerivAt (fun x => g (x - a)) g' 0 := by
  have h0 : HasDerivAt g g' (0 - a) := by simpa using h
  exact h0.comp_sub_const 0 a


lemma fermi_eq {x : ℝ} (h : x ≤ 709.77) : fermiFunc x = 1 / (Real.exp x + 1) := by
  rw [fermiFunc, if_neg (not_lt.2 h)]

lemma bose_eq {x : ℝ} (h : x ≤ 709.77) : bose x = 1 / (Real.exp x - 1) := by
  rw [bose, if_neg (not_lt.2 h)]

lemma diffFermi_eq {x : ℝ} (h : x ≤ 709.77 / 2) : diffFermi x = -Real.exp x / (Real.exp x + 1) ^ 2 := by
  rw [diffFermi, if_neg (not_lt.2 h)]

lemma zero_small : |(0 : ℝ)| < 1e-10 := by norm_num

lemma self_small (x : ℝ) : |x - x| < 1e-10 := by norm_num

/-- C72, direct diagram. With the exact digamma function and away from the cut-offs that avoid overflows,
`_D_integral_equal_T` is the general formula unless `dE` or `E1 - E2` is tiny. A tiny `dE` is treated as zero and a tiny
`E1 - E2` as no difference; the values are then the limits of the general formula, in either order if both are tiny. -/
theorem c72_direct (h : F.Exact) (p : Int) (D : ℝ) :
    (∀ E1 dE E2 : ℝ, 1e-10 ≤ |E1 - E2| → 1e-10 ≤ |dE| → E1 ≤ 709.77 → dE ≤ 709.77 → E2 ≤ 709.77 →
      F.dEqualT p E1 dE E2 D = genD (F.phi D) p E1 dE E2) ∧
    (∀ E1 dE E2 : ℝ, |dE| < 1e-10 → F.dEqualT p E1 dE E2 D = F.dEqualT p E1 0 E2 D) ∧
    (∀ E1 dE E2 : ℝ, |E1 - E2| < 1e-10 → F.dEqualT p E1 dE E2 D = F.dEqualT p E1 dE E1 D) ∧
    (∀ E1 E2 : ℝ, 1e-10 ≤ |E1 - E2| → E1 ≤ 709.77 → E2 ≤ 709.77 →
      Tendsto (fun x => genD (F.phi D) p E1 x E2) (𝓝[≠] 0) (𝓝 (F.dEqualT p E1 0 E2 D))) ∧
    (∀ E1 dE : ℝ, 1e-10 ≤ |dE| → E1 ≤ 709.77 / 2 → dE ≤ 709.77 →
      Tendsto (fun y => genD (F.phi D) p E1 dE y) (𝓝[≠] E1) (𝓝 (F.dEqualT p E1 dE E1 D))) ∧
    (∀ E1 : ℝ, E1 ≤ 709.77 / 2 →
      (∃ g : ℝ → ℝ, (∀ x ≠ 0, Tendsto (fun y => genD (F.phi D) p E1 x y) (𝓝[≠] E1) (𝓝 (g x))) ∧
        Tendsto g (𝓝[≠] 0) (𝓝 (F.dEqualT p E1 0 E1 D))) ∧
      ∃ g : ℝ → ℝ, (∀ y ≠ E1, Tendsto (fun x => genD (F.phi D) p E1 x y) (𝓝[≠] 0) (𝓝 (g y))) ∧
        Tendsto g (𝓝[≠] E1) (𝓝 (F.dEqualT p E1 0 E1 D))) := by
  have l1 : ∀ E1 E2 : ℝ, Tendsto (fun x => genD (F.phi D) p E1 x E2) (𝓝[≠] 0)
      (𝓝 (1 / (E1 - E2) * (p * (-(F.diffPhi E1 - F.diffPhi E2) + 1 / (Real.exp E1 + 1) * F.phi D (-E1)
        - 1 / (Real.exp E2 + 1) * F.phi D (-E2) - 0.5 * F.deltaPhi D E1 E2) + 0.5 * F.deltaPhi D E1 E2))) := by
    intro E1 E2
    have b := bose_slope ((shift' (h.phi' D (-E1))).sub (shift' (h.phi' D (-E2))))
    have c1 := cont (h.phi' D (-E1)) (shift E1)
    have c2 := cont (h.phi' D (-E2)) (shift E2)
    have t := ((((b.add ((c1.const_mul (1 / (Real.exp E1 + 1))).sub (c2.const_mul (1 / (Real.exp E2 + 1))))).sub_const
      (0.5 * F.deltaPhi D E1 E2)).const_mul (p : ℝ)).add_const (0.5 * F.deltaPhi D E1 E2)).const_mul (1 / (E1 - E2))
    have e : ∀ u v : ℝ, u = v → Tendsto (fun x => genD (F.phi D) p E1 x E2) (𝓝[≠] 0) (𝓝 u) →
      Tendsto (fun x => genD (F.phi D) p E1 x E2) (𝓝[≠] 0) (𝓝 v) := fun u v e => e ▸ id
    refine e _ _ ?_ (t.congr fun x => ?_)
    · rw [h.odd, h.odd]; ring
    · simp only [genD, Fun.deltaPhi, Pi.sub_apply, zero_sub, h.even]
      ring
  have l2 : ∀ E1 dE : ℝ, Tendsto (fun y => genD (F.phi D) p E1 dE y) (𝓝[≠] E1)
      (𝓝 (p * (-(1 / (Real.exp E1 + 1)) * F.diffPhi (dE - E1) - 1 / (Real.exp dE - 1) * F.diffPhi (dE - E1)
        + -Real.exp E1 / (Real.exp E1 + 1) ^ 2 * F.phi D (dE - E1)
        - (1 / (Real.exp dE - 1) + 0.5) * F.diffPhi E1) + 0.5 * F.diffPhi E1)) := by
    intro E1 dE
    have d1 : HasDerivAt (fun y => F.phi D (dE - y)) (-F.diffPhi (dE - E1)) E1 := by
      simpa using (h.phi' D (dE - E1)).comp_const_sub dE E1
    have d := (((((fermi' E1).add_const (1 / (Real.exp dE - 1))).mul d1).sub
      ((h.phi' D E1).const_mul (1 / (Real.exp dE - 1) + 0.5))).const_mul (p : ℝ)).add ((h.phi' D E1).const_mul 0.5)
    have t := d.tendsto_slope
    have e : ∀ u v : ℝ, u = v → Tendsto (fun x => genD (F.phi D) p E1 dE x) (𝓝[≠] E1) (𝓝 u) →
      Tendsto (fun x => genD (F.phi D) p E1 dE x) (𝓝[≠] E1) (𝓝 v) := fun u v e => e ▸ id
    refine e _ _ ?_ (t.congr' ?_)
    · ring
    · filter_upwards [self_mem_nhdsWithin] with y hy
      have hy : y ≠ E1 := hy
      have h1 : E1 - y ≠ 0 := sub_ne_zero.2 hy.symm
      have h2 : y - E1 ≠ 0 := sub_ne_zero.2 hy
      have h3 : 1 / (E1 - y) = -(1 / (y - E1)) := by rw [← neg_sub y E1, div_neg]
      simp only [slope_def_field, genD, h3, Pi.add_apply, Pi.sub_apply, Pi.mul_apply]
      ring
  have l3 : ∀ E1 : ℝ, Tendsto (fun x => p * (-(1 / (Real.exp E1 + 1)) * F.diffPhi (x - E1)
        - 1 / (Real.exp x - 1) * F.diffPhi (x - E1)
        + -Real.exp E1 / (Real.exp E1 + 1) ^ 2 * F.phi D (x - E1)
        - (1 / (Real.exp x - 1) + 0.5) * F.diffPhi E1) + 0.5 * F.diffPhi E1) (𝓝[≠] 0)
      (𝓝 (p * (-F.diff2Phi E1 + -Real.exp E1 / (Real.exp E1 + 1) ^ 2 * F.phi D (-E1)
        - F.diffPhi (-E1) * (1 / (Real.exp E1 + 1)) - 0.5 * F.diffPhi E1) + 0.5 * F.diffPhi E1)) := by
    intro E1
    have b := bose_slope (shift' (h.phi'' (-E1)))
    have c1 := cont (h.phi' D (-E1)) (shift E1)
    have c2 := cont (h.phi'' (-E1)) (shift E1)
    have t := ((((b.neg.add (c1.const_mul (-Real.exp E1 / (Real.exp E1 + 1) ^ 2))).sub
      (c2.const_mul (1 / (Real.exp E1 + 1)))).sub_const (0.5 * F.diffPhi E1)).const_mul (p : ℝ)).add_const
      (0.5 * F.diffPhi E1)
    rw [h.even2] at t
    have e : ∀ {f : ℝ → ℝ} (u v : ℝ), u = v → Tendsto f (𝓝[≠] 0) (𝓝 u) →
      Tendsto f (𝓝[≠] 0) (𝓝 v) := fun u v e => e ▸ id
    refine e _ _ ?_ (t.congr fun x => ?_)
    · ring
    · simp only [zero_sub, h.odd]
      ring
  have l4 : ∀ E1 : ℝ, Tendsto (fun E2 => 1 / (E1 - E2) * (p * (-(F.diffPhi E1 - F.diffPhi E2)
        + 1 / (Real.exp E1 + 1) * F.phi D (-E1)
        - 1 / (Real.exp E2 + 1) * F.phi D (-E2) - 0.5 * F.deltaPhi D E1 E2) + 0.5 * F.deltaPhi D E1 E2)) (𝓝[≠] E1)
      (𝓝 (p * (-F.diff2Phi E1 + -Real.exp E1 / (Real.exp E1 + 1) ^ 2 * F.phi D (-E1)
        - F.diffPhi (-E1) * (1 / (Real.exp E1 + 1)) - 0.5 * F.diffPhi E1) + 0.5 * F.diffPhi E1)) := by
    intro E1
    have d := ((((h.phi'' E1).neg.add ((fermi' E1).mul (h.phi' D E1))).sub
      ((h.phi' D E1).const_mul 0.5)).const_mul (p : ℝ)).add ((h.phi' D E1).const_mul 0.5)
    have t := d.tendsto_slope
    have e : ∀ {f : ℝ → ℝ} (u v : ℝ), u = v → Tendsto f (𝓝[≠] E1) (𝓝 u) →
      Tendsto f (𝓝[≠] E1) (𝓝 v) := fun u v e => e ▸ id
    refine e _ _ ?_ (t.congr' ?_)
    · rw [h.odd, h.even]; ring
    · filter_upwards [self_mem_nhdsWithin] with y hy
      have h3 : 1 / (E1 - y) = -(1 / (y - E1)) := by rw [← neg_sub y E1, div_neg]
      simp only [slope_def_field, h3, Pi.add_apply, Pi.sub_apply, Pi.mul_apply, Pi.neg_apply, Fun.deltaPhi, h.even]
      ring
  refine ⟨fun E1 dE E2 a b c d e => ?_, fun E1 dE E2 a => ?_, fun E1 dE E2 a => ?_, fun E1 E2 a b c => ?_,
    fun E1 dE a b c => ?_, fun E1 a => ⟨⟨_, fun x _ => l2 E1 x, ?_⟩, ⟨_, fun y _ => l1 E1 y, ?_⟩⟩⟩
  · rw [Fun.dEqualT, if_neg (not_lt.2 a), if_neg (not_lt.2 b), fermi_eq c, fermi_eq e, bose_eq d, genD, Fun.deltaPhi]
    norm_num
  · simp only [Fun.dEqualT, if_pos a, if_pos zero_small]
  · have : F.dEqualT p E1 dE E2 D = F.dEqualT p E1 dE E1 D := by
      simp only [Fun.dEqualT, if_pos a, if_pos (self_small E1)]
    exact this
  · have := l1 E1 E2
    rw [Fun.dEqualT, if_neg (not_lt.2 a), if_pos zero_small, fermi_eq b, fermi_eq c]
    exact this
  · have := l2 E1 dE
    rw [Fun.dEqualT, if_pos (self_small E1), if_neg (not_lt.2 a), fermi_eq (by linarith), bose_eq c, diffFermi_eq b]
    exact this
  · rw [Fun.dEqualT, if_pos (self_small E1), if_pos zero_small, fermi_eq (by linarith), diffFermi_eq a]
    exact l3 E1
  · rw [Fun.dEqualT, if_pos (self_small E1), if_pos zero_small, fermi_eq (by linarith), diffFermi_eq a]
    exact l4 E1

/-- C72, exchange diagram. With the exact digamma function and away from the cut-offs that avoid overflows,
`_X_integral_equal_T` is the general formula unless `dE` or `dE - E1 - E2` is tiny. A tiny `dE` is treated as zero and a tiny
`dE - E1 - E2` as zero; the values are then the limits of the general formula. If both are tiny the value is the limit of the
latter ones. -/
theorem c72_exchange (h : F.Exact) (p : Int) (D : ℝ) :
    (∀ E1 dE E2 : ℝ, 1e-10 ≤ |dE - E1 - E2| → 1e-10 ≤ |dE| → E1 ≤ 709.77 → dE ≤ 709.77 → E2 ≤ 709.77 →
      F.xEqualT p E1 dE E2 D = genX (F.phi D) p E1 dE E2) ∧
    (∀ E1 dE E2 : ℝ, |dE| < 1e-10 → 1e-10 ≤ |dE - E1 - E2| → 1e-10 ≤ |E1 + E2| →
      F.xEqualT p E1 dE E2 D = F.xEqualT p E1 0 E2 D) ∧
    (∀ E1 dE E2 : ℝ, |dE - E1 - E2| < 1e-10 → 1e-10 ≤ |dE| → 1e-10 ≤ |E1 + E2| →
      F.xEqualT p E1 dE E2 D = F.xEqualT p E1 (E1 + E2) E2 D) ∧
    (∀ E1 dE E2 : ℝ, |dE - E1 - E2| < 1e-10 → |dE| < 1e-10 →
      F.xEqualT p E1 dE E2 D = F.xEqualT p E1 0 (-E1) D) ∧
    (∀ E1 E2 : ℝ, 1e-10 ≤ |E1 + E2| → E1 ≤ 709.77 → E2 ≤ 709.77 →
      Tendsto (fun x => genX (F.phi D) p E1 x E2) (𝓝[≠] 0) (𝓝 (F.xEqualT p E1 0 E2 D))) ∧
    (∀ E1 E2 : ℝ, 1e-10 ≤ |E1 + E2| → E1 ≤ 709.77 → E2 ≤ 709.77 → E1 + E2 ≤ 709.77 →
      Tendsto (fun x => genX (F.phi D) p E1 x E2) (𝓝[≠] (E1 + E2)) (𝓝 (F.xEqualT p E1 (E1 + E2) E2 D))) ∧
    (∀ E1 : ℝ, |E1| ≤ 709.77 →
      (∃ g : ℝ → ℝ, (∀ E2, E1 + E2 ≠ 0 → Tendsto (fun x => genX (F.phi D) p E1 x E2) (𝓝[≠] (E1 + E2)) (𝓝 (g E2))) ∧
        Tendsto g (𝓝[≠] (-E1)) (𝓝 (F.xEqualT p E1 0 (-E1) D))) ∧
      ∃ g : ℝ → ℝ, (∀ E2, E1 + E2 ≠ 0 → Tendsto (fun x => genX (F.phi D) p E1 x E2) (𝓝[≠] 0) (𝓝 (g E2))) ∧
        Tendsto g (𝓝[≠] (-E1)) (𝓝 (F.xEqualT p E1 0 (-E1) D))) := by
  have conv : ∀ {f : ℝ → ℝ} {a u v : ℝ}, u = v → Tendsto f (𝓝[≠] a) (𝓝 u) → Tendsto f (𝓝[≠] a) (𝓝 v) :=
    fun e => e ▸ id
  -- dE → 0
  have l1 : ∀ E1 E2 : ℝ, E1 + E2 ≠ 0 → Tendsto (fun x => genX (F.phi D) p E1 x E2) (𝓝[≠] 0)
      (𝓝 (p * (-1 / (E1 + E2) * (1 / (Real.exp E1 + 1) * F.deltaPhi D (-E1) E2
        + 1 / (Real.exp E2 + 1) * F.deltaPhi D (-E2) E1 - (F.diffPhi E1 + F.diffPhi E2))))) := by
    intro E1 E2 hs
    have b := bose_slope ((shift' (h.phi' D (-E1))).add (shift' (h.phi' D (-E2))))
    have c1 := cont (h.phi' D (-E1)) (shift E1)
    have c2 := cont (h.phi' D (-E2)) (shift E2)
    have c3 : Tendsto (fun x : ℝ => 1 / (x - E1 - E2)) (𝓝[≠] 0) (𝓝 (1 / (0 - E1 - E2))) := by
      have : ContinuousAt (fun x : ℝ => 1 / (x - E1 - E2)) 0 :=
        continuousAt_const.div ((continuousAt_id.sub continuousAt_const).sub continuousAt_const)
          (fun h0 => hs (by linarith [show (0 : ℝ) - E1 - E2 = 0 from h0]))
      exact this.tendsto.mono_left nhdsWithin_le_nhds
    have t := (c3.mul ((b.add ((c1.sub_const (F.phi D E2)).const_mul (1 / (Real.exp E1 + 1)))).add
      ((c2.sub_const (F.phi D E1)).const_mul (1 / (Real.exp E2 + 1))))).const_mul (p : ℝ)
    refine conv ?_ (t.congr fun x => ?_)
    · have : 1 / (0 - E1 - E2) = -1 / (E1 + E2) := by
        rw [show (0 : ℝ) - E1 - E2 = -(E1 + E2) by ring, div_neg, neg_div]
      rw [h.odd, h.odd, this]
      simp only [Fun.deltaPhi]
      ring
    · simp only [genX, Pi.add_apply, zero_sub, h.even]
      ring
  -- dE → E1 + E2
  have l2 : ∀ E1 E2 : ℝ, E1 + E2 ≠ 0 → Tendsto (fun x => genX (F.phi D) p E1 x E2) (𝓝[≠] (E1 + E2))
      (𝓝 (p * ((1 / (Real.exp E1 + 1) + 1 / (Real.exp (E1 + E2) - 1)) * F.diffPhi E2
        + F.diffPhi E1 * (1 / (Real.exp E2 + 1) + 1 / (Real.exp (E1 + E2) - 1))))) := by
    intro E1 E2 hs
    have d1 : HasDerivAt (fun x => F.phi D (x - E1)) (F.diffPhi E2) (E1 + E2) := by
      have := h.phi' D (E1 + E2 - E1)
      simpa using this.comp_sub_const (E1 + E2) E1
    have d2 : HasDerivAt (fun x => F.phi D (x - E2)) (F.diffPhi E1) (E1 + E2) := by
      have := h.phi' D (E1 + E2 - E2)
      simpa using this.comp_sub_const (E1 + E2) E2
    have hb : Real.exp (E1 + E2) - 1 ≠ 0 := by rw [sub_ne_zero, Ne, Real.exp_eq_one_iff]; exact hs
    have cb : Tendsto (fun x : ℝ => 1 / (Real.exp x - 1)) (𝓝[≠] (E1 + E2)) (𝓝 (1 / (Real.exp (E1 + E2) - 1))) := by
      have : ContinuousAt (fun x : ℝ => 1 / (Real.exp x - 1)) (E1 + E2) :=
        continuousAt_const.div (Real.continuous_exp.continuousAt.sub continuousAt_const) hb
      exact this.tendsto.mono_left nhdsWithin_le_nhds
    have t := ((((cb.const_add (1 / (Real.exp E1 + 1))).mul d1.tendsto_slope).add
      (d2.tendsto_slope.mul (cb.const_add (1 / (Real.exp E2 + 1)))))).const_mul (p : ℝ)
    refine t.congr fun x => ?_
    simp only [genX, slope_def_field, sub_sub, add_sub_cancel_left, add_sub_cancel_right]
    ring
  -- E2 → -E1 after dE → E1 + E2
  have tr : ∀ E1 : ℝ, Tendsto (fun y : ℝ => E1 + y) (𝓝[≠] (-E1)) (𝓝[≠] 0) := by
    intro E1
    refine tendsto_nhdsWithin_iff.2 ⟨?_, ?_⟩
    · have : Tendsto (fun y : ℝ => E1 + y) (𝓝 (-E1)) (𝓝 (E1 + -E1)) := (continuous_const.add continuous_id).tendsto _
      rw [add_neg_cancel] at this
      exact this.mono_left nhdsWithin_le_nhds
    · filter_upwards [self_mem_nhdsWithin] with y hy h0
      have h0 : E1 + y = 0 := h0
      exact hy (show y = -E1 by linarith)
  have l3 : ∀ E1 : ℝ, Tendsto (fun E2 => p * ((1 / (Real.exp E1 + 1) + 1 / (Real.exp (E1 + E2) - 1)) * F.diffPhi E2
        + F.diffPhi E1 * (1 / (Real.exp E2 + 1) + 1 / (Real.exp (E1 + E2) - 1)))) (𝓝[≠] (-E1))
      (𝓝 (p * (F.diff2Phi E1 + 1 / (Real.exp E1 + 1) * F.diffPhi (-E1) + F.diffPhi E1 * (1 / (Real.exp (-E1) + 1))))) := by
    intro E1
    have b := (bose_slope (shift' (h.phi'' (-E1)))).comp (tr E1)
    have i : Tendsto (fun y : ℝ => y) (𝓝[≠] (-E1)) (𝓝 (-E1)) := tendsto_id.mono_left nhdsWithin_le_nhds
    have c1 := cont (h.phi'' (-E1)) i
    have c2 := cont (fermi' (-E1)) i
    have t := ((b.add (c1.const_mul (1 / (Real.exp E1 + 1)))).add (c2.const_mul (F.diffPhi E1))).const_mul (p : ℝ)
    rw [h.even2] at t
    refine t.congr fun x => ?_
    simp only [Function.comp, zero_sub, add_sub_cancel_left, h.odd]
    ring
  have l4 : ∀ E1 : ℝ, Tendsto (fun E2 => p * (-1 / (E1 + E2) * (1 / (Real.exp E1 + 1) * F.deltaPhi D (-E1) E2
        + 1 / (Real.exp E2 + 1) * F.deltaPhi D (-E2) E1 - (F.diffPhi E1 + F.diffPhi E2)))) (𝓝[≠] (-E1))
      (𝓝 (p * (F.diff2Phi E1 + 1 / (Real.exp E1 + 1) * F.diffPhi (-E1) + F.diffPhi E1 * (1 / (Real.exp (-E1) + 1))))) := by
    intro E1
    have i : Tendsto (fun y : ℝ => y) (𝓝[≠] (-E1)) (𝓝 (-E1)) := tendsto_id.mono_left nhdsWithin_le_nhds
    have c2 := cont (fermi' (-E1)) i
    have s1 := (h.phi' D (-E1)).tendsto_slope
    have s2 := (h.phi'' (-E1)).tendsto_slope
    have t := (((s1.const_mul (1 / (Real.exp E1 + 1))).sub (c2.mul s1)).add s2).const_mul (p : ℝ)
    rw [h.even2] at t
    refine conv ?_ (t.congr fun x => ?_)
    · rw [h.odd]; ring
    · have e : -1 / (E1 + x) = -(1 / (x - -E1)) := by rw [sub_neg_eq_add, add_comm, neg_div]
      simp only [slope_def_field, Fun.deltaPhi, h.even, h.odd, e]
      ring
  refine ⟨fun E1 dE E2 a b c d e => ?_, fun E1 dE E2 a b c => ?_, fun E1 dE E2 a b c => ?_, fun E1 dE E2 a b => ?_,
    fun E1 E2 a b c => ?_, fun E1 E2 a b c d => ?_, fun E1 a => ?_⟩
  · rw [Fun.xEqualT, if_neg (not_lt.2 a), if_neg (not_lt.2 b), fermi_eq c, fermi_eq e, bose_eq d, genX, Fun.deltaPhi,
      Fun.deltaPhi]
  · have e : ¬ |(0 : ℝ) - E1 - E2| < 1e-10 := by
      rw [show (0 : ℝ) - E1 - E2 = -(E1 + E2) by ring, abs_neg]; exact not_lt.2 c
    simp only [Fun.xEqualT, if_neg (not_lt.2 b), if_pos a, if_pos zero_small, if_neg e]
  · have e : |E1 + E2 - E1 - E2| < 1e-10 := by
      rw [show E1 + E2 - E1 - E2 = 0 by ring]; exact zero_small
    simp only [Fun.xEqualT, if_pos a, if_neg (not_lt.2 b), if_neg (not_lt.2 c), if_pos e]
  · have e : |(0 : ℝ) - E1 - -E1| < 1e-10 := by
      rw [show (0 : ℝ) - E1 - -E1 = 0 by ring]; exact zero_small
    simp only [Fun.xEqualT, if_pos a, if_pos b, if_pos zero_small, if_pos e]
  · have e : ¬ |(0 : ℝ) - E1 - E2| < 1e-10 := by
      rw [show (0 : ℝ) - E1 - E2 = -(E1 + E2) by ring, abs_neg]; exact not_lt.2 a
    rw [Fun.xEqualT, if_neg e, if_pos zero_small, fermi_eq b, fermi_eq c]
    exact l1 E1 E2 fun h0 => by rw [h0] at a; norm_num at a
  · have e : |E1 + E2 - E1 - E2| < 1e-10 := by
      rw [show E1 + E2 - E1 - E2 = 0 by ring]; exact zero_small
    rw [Fun.xEqualT, if_pos e, if_neg (not_lt.2 a), fermi_eq b, fermi_eq c, bose_eq d]
    exact l2 E1 E2 fun h0 => by rw [h0] at a; norm_num at a
  · have e : |(0 : ℝ) - E1 - -E1| < 1e-10 := by
      rw [show (0 : ℝ) - E1 - -E1 = 0 by ring]; exact zero_small
    have a' := abs_le.1 a
    rw [Fun.xEqualT, if_pos e, if_pos zero_small, fermi_eq a'.2, fermi_eq (by linarith)]
    exact ⟨⟨_, fun E2 h0 => l2 E1 E2 h0, l3 E1⟩, ⟨_, fun E2 h0 => l1 E1 E2 h0, l4 E1⟩⟩

/-- The contribution of the second term of `_D_integral` away from `z1 = z3`. -/
def genOz (ψ : ℂ → ℂ) (z1 z3 T1 mu1 : ℝ) : ℂ :=
  (ψ (1 / 2 - I * ((z3 + mu1) / (2 * Real.pi * T1))) - ψ (1 / 2 - I * ((z1 + mu1) / (2 * Real.pi * T1))))
    / ((z3 - z1) / T1) * (-2 * Real.pi * I) / T1

/-- C72, leads of different temperatures: the sum over the poles of the Ozaki expansion is continuous and the term that
does not depend on them approaches the special case that the code uses for `z1 = z3`. -/
theorem c72_ozaki (h : F.Exact) (b : List (ℝ × ℝ)) (hb : ∀ n ∈ b, n.1 ≠ 0) (p : Int) (z2 z3 T1 T2 mu1 mu2 D : ℝ)
    (hT : 0 < T1) :
    (∀ z1, 1e-10 < |z3 / T1 - z1 / T1| → F.dOzaki b p z1 z2 z3 T1 T2 mu1 mu2 D =
      1 / 4 * (p * ((b.map (F.dPole z1 z2 z3 T1 T2 mu1 mu2 |D|)).sum * (-8 * Real.pi * T1 * I))
        - genOz Complex.digamma z1 z3 T1 mu1)) ∧
    Tendsto (fun z1 => 1 / 4 * (p * ((b.map (F.dPole z1 z2 z3 T1 T2 mu1 mu2 |D|)).sum * (-8 * Real.pi * T1 * I))
        - genOz Complex.digamma z1 z3 T1 mu1)) (𝓝[≠] z3) (𝓝 (F.dOzaki b p z3 z2 z3 T1 T2 mu1 mu2 D)) := by
  have hD : (|D| + |D|) * 0.5 = |D| := by ring
  have hpi := Real.pi_pos
  have arg : ∀ z : ℝ, (0.5 - (((z + mu1) / (2 * Real.pi * T1) : ℝ) : ℂ) * I : ℂ)
      = 1 / 2 - I * ((z + mu1) / (2 * Real.pi * T1)) := by
    intro z; push_cast; norm_num; ring
  refine ⟨fun z1 hz => ?_, ?_⟩
  · simp only [Fun.dOzaki, hD, if_pos hz, arg, h.psi, genOz]
    push_cast
    rw [sub_div (z3 : ℂ)]
    norm_num
  · have hz : ¬ |z3 / T1 - z3 / T1| > 1e-10 := by norm_num
    simp only [Fun.dOzaki, hD, if_neg hz]
    have poles : ∀ b : List (ℝ × ℝ), (∀ n ∈ b, n.1 ≠ 0) →
        Tendsto (fun z1 => (b.map (F.dPole z1 z2 z3 T1 T2 mu1 mu2 |D|)).sum) (𝓝[≠] z3)
          (𝓝 (b.map (F.dPole z3 z2 z3 T1 T2 mu1 mu2 |D|)).sum) := by
      intro b
      induction b with
      | nil => intro _; simp
      | cons n b ih =>
        intro hb
        simp only [List.map_cons, List.sum_cons]
        refine Tendsto.add ?_ (ih fun m hm => hb m (List.mem_cons_of_mem _ hm))
        unfold Fun.dPole
        split_ifs with hc
        · exact tendsto_const_nhds
        · have hn := hb n List.mem_cons_self
          have cC : ContinuousAt (fun z1 : ℝ => ((T1 / n.1 : ℝ) : ℂ) - ((z1 + mu1 : ℝ) : ℂ) * I) z3 := by fun_prop
          have c0 : ((T1 / n.1 : ℝ) : ℂ) - ((z3 + mu1 : ℝ) : ℂ) * I ≠ 0 := by
            intro h0
            have := congrArg Complex.re h0
            rw [Complex.sub_re, Complex.re_ofReal_mul, Complex.ofReal_re, Complex.I_re] at this
            simp only [mul_zero, sub_zero, Complex.zero_re] at this
            exact (div_ne_zero hT.ne' hn) this
          have := ((continuousAt_const (y := ((Real.log (|D| / (2 * Real.pi * T1)) : ℂ)
            - F.psi (0.5 + (T1 / n.1 / (2 * Real.pi * T2) : ℝ) - ((z2 + mu1 + mu2) / (2 * Real.pi * T2) : ℝ) * I))
            * 1 / (((T1 / n.1 : ℝ) : ℂ) - ((z3 + mu1 : ℝ) : ℂ) * I) * 1)).div cC c0).mul
              (continuousAt_const (y := (n.2 : ℂ)))
          exact this.tendsto.mono_left nhdsWithin_le_nhds
    have hr : 0 < ((0.5 : ℂ) - (((z3 + mu1) / (2 * Real.pi * T1) : ℝ) : ℂ) * I).re := by
      rw [Complex.sub_re, Complex.re_ofReal_mul, Complex.I_re]; norm_num
    have dz : HasDerivAt (fun z : ℝ => (0.5 : ℂ) - (((z + mu1) / (2 * Real.pi * T1) : ℝ) : ℂ) * I)
        (-(((1 / (2 * Real.pi * T1) : ℝ) : ℂ) * I)) z3 := by
      have := (((hasDerivAt_id z3).add_const mu1).div_const (2 * Real.pi * T1)).ofReal_comp
      exact (this.mul_const I).const_sub _
    have dp := (h.d1 hr).scomp z3 dz
    have t := dp.tendsto_slope
    have t' := (t.mul_const (-2 * Real.pi * I : ℂ))
    have tt := ((((poles b hb).mul_const (-8 * Real.pi * T1 * I : ℂ)).const_mul (p : ℂ)).sub t').const_mul (1 / 4 : ℂ)
    have conv : ∀ {f : ℝ → ℂ} {a : ℝ} {u v : ℂ}, u = v → Tendsto f (𝓝[≠] a) (𝓝 u) → Tendsto f (𝓝[≠] a) (𝓝 v) :=
      fun e => e ▸ id
    have hT' : (T1 : ℂ) ≠ 0 := by exact_mod_cast hT.ne'
    have hp' : (Real.pi : ℂ) ≠ 0 := by exact_mod_cast hpi.ne'
    refine conv ?_ (tt.congr' ?_)
    · have : ∀ y : ℂ, -(((1 / (2 * Real.pi * T1) : ℝ) : ℂ) * I) * y * (-2 * Real.pi * I : ℂ) = y * ((-1 / T1 : ℝ) : ℂ) := by
        intro y
        push_cast
        field_simp
        rw [Complex.I_sq, neg_one_mul]
      rw [smul_eq_mul, this]
      norm_num
    · filter_upwards [self_mem_nhdsWithin] with z1 hz1
      have hne : (z1 : ℂ) - z3 ≠ 0 := by
        rw [sub_ne_zero]; exact_mod_cast hz1
      have hne' : (z3 : ℂ) - z1 ≠ 0 := by
        rw [sub_ne_zero]; exact_mod_cast Ne.symm hz1
      congr 2
      simp only [slope_def_module, Function.comp, genOz, h.psi, arg]
      rw [Complex.real_smul]
      push_cast
      rw [show ((z1 : ℂ) - z3)⁻¹ = -((z3 : ℂ) - z1)⁻¹ by rw [← neg_sub, inv_neg]]
      field_simp
      ring

/-- The hypotheses hold for the digamma function, energies of the order of the temperature and an expansion with two poles. -/
example : ∃ F : Fun, F.Exact ∧ F.dEqualT 1 1 2 3 50 = genD (F.phi 50) 1 1 2 3 ∧
    Tendsto (fun x => genD (F.phi 50) 1 1 x 3) (𝓝[≠] 0) (𝓝 (F.dEqualT 1 1 0 3 50)) ∧
    Tendsto (fun x => genX (F.phi 50) (-1) 1 x 3) (𝓝[≠] 4) (𝓝 (F.xEqualT (-1) 1 4 3 50)) ∧
    ∀ n ∈ [((0.3 : ℝ), (1 : ℝ)), (0.1, 1.1)], n.1 ≠ 0 := by
  let F : Fun := ⟨⟨fun _ _ _ _ => 0, fun _ => 0⟩, Complex.digamma, deriv Complex.digamma, deriv (deriv Complex.digamma),
    fun _ => []⟩
  have h : F.Exact := ⟨rfl, rfl, rfl⟩
  refine ⟨F, h, ?_, ?_, ?_, ?_⟩
  · have := (c72_direct h 1 50).1 1 2 3 (by rw [abs_of_neg] <;> norm_num) (by rw [abs_of_pos] <;> norm_num)
      (by norm_num) (by norm_num) (by norm_num)
    simpa using this
  · have := (c72_direct h 1 50).2.2.2.1 1 3 (by rw [abs_of_neg] <;> norm_num) (by norm_num) (by norm_num)
    simpa using this
  · have := (c72_exchange h (-1) 50).2.2.2.2.2.1 1 3 (by rw [abs_of_pos] <;> norm_num) (by norm_num) (by norm_num)
      (by norm_num)
    rw [show (1 : ℝ) + 3 = 4 by norm_num] at this
    simpa using this
  · norm_num

end RTD

end

end Verif
