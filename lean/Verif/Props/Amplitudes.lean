import Verif.Lemmas.PV

/-! C82: the amplitudes of 1vN and Redfield are the integrals over the energies of the lead. -/

namespace Verif

open Filter Topology MeasureTheory
open scoped ComplexConjugate

noncomputable section

theorem fermi_meas : Measurable fermiFunc := by
  unfold fermiFunc
  refine Measurable.ite (isOpen_lt continuous_const continuous_id).measurableSet measurable_const ?_
  exact measurable_const.div (Real.measurable_exp.add_const 1)

theorem fermi_abs (x : ℝ) : |fermiFunc x| ≤ 1 := by
  obtain ⟨h1, h2⟩ := c32_fermi.1 x
  rw [abs_of_nonneg h1]; exact h2.le

/-- Up to the cutoff `fermi_func` is the Fermi function. -/
theorem fermi_cutoff (x : ℝ) : |fermiFunc x - 1 / (Real.exp x + 1)| ≤ Real.exp (-709.77) := by
  unfold fermiFunc
  split
  · rename_i h
    have hx := Real.exp_pos x
    rw [zero_sub, abs_neg, abs_of_pos (by positivity), Real.exp_neg, ← one_div]
    refine one_div_le_one_div_of_le (Real.exp_pos _) ?_
    have := Real.exp_le_exp.2 (le_of_lt h)
    linarith
  · rw [sub_self, abs_zero]; exact (Real.exp_pos _).le

/-- The integral of the Fermi function. -/
theorem int_fermi (a b : ℝ) :
    ∫ x in a..b, 1 / (Real.exp x + 1) = Real.log (1 + Real.exp (-a)) - Real.log (1 + Real.exp (-b)) := by
  have hd : ∀ x ∈ Set.uIcc a b, HasDerivAt (fun x => -Real.log (1 + Real.exp (-x))) (1 / (Real.exp x + 1)) x := by
    intro x _
    have h1 : HasDerivAt (fun x : ℝ => 1 + Real.exp (-x)) (-Real.exp (-x)) x := by
      have := ((hasDerivAt_neg x).exp).const_add 1
      simpa using this
    have hpos : 1 + Real.exp (-x) ≠ 0 := by have := Real.exp_pos (-x); linarith
    have h2 := (h1.log hpos).neg
    have e : 1 / (Real.exp x + 1) = -(-Real.exp (-x) / (1 + Real.exp (-x))) := by
      rw [Real.exp_neg] at hpos ⊢
      have := (Real.exp_pos x).ne'
      have h3 : Real.exp x + 1 ≠ 0 := by have := Real.exp_pos x; linarith
      field_simp
    rw [e]
    exact h2
  rw [intervalIntegral.integral_eq_sub_of_hasDerivAt hd]
  · ring
  · refine Continuous.intervalIntegrable ?_ a b
    exact continuous_const.div (Real.continuous_exp.add continuous_const) fun x => by
      have := Real.exp_pos x; linarith

theorem fermi_cont : Continuous fun x : ℝ => 1 / (Real.exp x + 1) :=
  continuous_const.div (Real.continuous_exp.add continuous_const) fun x => by
    have := Real.exp_pos x
    show Real.exp x + 1 ≠ 0
    linarith

theorem log_refl (R : ℝ) : Real.log (1 + Real.exp (-R)) = -R + Real.log (1 + Real.exp R) := by
  have h := Real.exp_pos R
  have : 1 + Real.exp (-R) = Real.exp (-R) * (1 + Real.exp R) := by
    rw [mul_add, ← Real.exp_add]; simp; ring
  rw [this, Real.log_mul (Real.exp_pos _).ne' (by linarith), Real.log_exp]

/-- For large bands the logarithm is replaced by a linear function. -/
theorem softPlus_err (R : ℝ) : 0 ≤ Real.log (1 + Real.exp (-R)) - softPlus R ∧
    Real.log (1 + Real.exp (-R)) - softPlus R ≤ Real.exp (-40) := by
  unfold softPlus
  split
  · rename_i h
    have h0 := Real.exp_pos R
    rw [log_refl, show -R + Real.log (1 + Real.exp R) - -R = Real.log (1 + Real.exp R) by ring]
    refine ⟨Real.log_nonneg (by linarith), ?_⟩
    have h1 := Real.log_le_sub_one_of_pos (x := 1 + Real.exp R) (by linarith)
    have h2 := Real.exp_le_exp.2 h.le
    linarith
  · rw [sub_self]; exact ⟨le_rfl, (Real.exp_pos _).le⟩

/-- The constant of the energy amplitudes is the integral of the occupations. -/
theorem const0_err {a b : ℝ} (hab : a ≤ b) :
    |softPlus a - softPlus b - ∫ x in a..b, fermiFunc x| ≤ Real.exp (-40) + (b - a) * Real.exp (-709.77) := by
  have h1 := softPlus_err a
  have h2 := softPlus_err b
  have h3 : |(∫ x in a..b, fermiFunc x) - ∫ x in a..b, 1 / (Real.exp x + 1)| ≤ (b - a) * Real.exp (-709.77) := by
    rw [← intervalIntegral.integral_sub (int_of_bound fermi_meas fermi_abs a b)
      (fermi_cont.intervalIntegrable a b)]
    have := intervalIntegral.norm_integral_le_of_norm_le_const (a := a) (b := b) (C := Real.exp (-709.77))
      (f := fun x => fermiFunc x - 1 / (Real.exp x + 1)) (fun x _ => by
        rw [Real.norm_eq_abs]; exact fermi_cutoff x)
    rw [Real.norm_eq_abs, abs_of_nonneg (by linarith : 0 ≤ b - a)] at this
    linarith
  rw [int_fermi] at h3
  rw [abs_le] at h3 ⊢
  constructor <;> linarith [h3.1, h3.2, h1.1, h1.2, h2.1, h2.2]

/-! ### The amplitudes of `itype=0` -/

theorem div_lt' {T : ℝ} (hT : 0 < T) (a b m : ℝ) : (a - m) / T < (b - m) / T ↔ a < b := by
  rw [div_lt_div_iff_of_pos_right hT, sub_lt_sub_iff_right]

/-- From the reduced variable to energies. -/
theorem pv_energy {g : ℝ → ℝ} {Ecb mu T Dm Dp I : ℝ} (hT : 0 < T)
    (h : PV (fun x => g x / (x - (Ecb - mu) / T)) ((Dm - mu) / T) ((Dp - mu) / T) ((Ecb - mu) / T) I) :
    PV (fun e => g ((e - mu) / T) / (e - Ecb)) Dm Dp Ecb I := by
  have h1 := (h.scale hT mu).smul (1 / T)
  have e : ∀ d : ℝ, T * ((d - mu) / T) + mu = d := fun d => by field_simp; ring
  rw [e, e, e, show 1 / T * (T * I) = I by field_simp] at h1
  refine h1.congr fun x _ hx => ?_
  have : x - Ecb ≠ 0 := sub_ne_zero.2 hx
  rw [show (x - mu) / T - (Ecb - mu) / T = (x - Ecb) / T by ring]
  field_simp

theorem pv_hole {a b α I : ℝ} (hab : a < b) (ha : α ≠ a) (hb : α ≠ b)
    (h : PV (fun x => fermiFunc x / (x - α)) a b α I) :
    PV (fun x => (fermiFunc x - 1) / (x - α)) a b α (I + Real.log |(a - α) / (b - α)|) := by
  have h1 := (pv_pole hab ha hb).smul (-1)
  have h2 := h.add h1 (cutInt_pole fermi_meas fermi_abs a b α)
    (CutInt.smul (cutInt_pole (f := fun _ => 1) measurable_const (K := 1) (by simp) a b α) (-1))
  have e : -1 * Real.log |(b - α) / (a - α)| = Real.log |(a - α) / (b - α)| := by
    rw [neg_one_mul, ← Real.log_inv, ← abs_inv, inv_div]
  rw [e] at h2
  refine h2.congr fun x _ _ => ?_
  ring

/-- The factor of the energy. -/
theorem pv_weight {g : ℝ → ℝ} (hg : Measurable g) {K : ℝ} (hK : ∀ x, |g x| ≤ K) {Ecb mu T a b I : ℝ} (hT : 0 < T)
    (h : PV (fun x => g x / (x - (Ecb - mu) / T)) a b ((Ecb - mu) / T) I) :
    PV (fun x => ((T * x + mu) * g x) / (x - (Ecb - mu) / T)) a b ((Ecb - mu) / T)
      (T * (∫ x in a..b, g x) + Ecb * I) := by
  have h1 := (pv_bounded hg hK a b ((Ecb - mu) / T)).smul T
  have h2 := h1.add (h.smul Ecb) (CutInt.smul (cutInt_bounded hg hK a b _) T) (CutInt.smul (cutInt_pole hg hK a b _) Ecb)
  refine h2.congr fun x _ hx => ?_
  have h3 : x - (Ecb - mu) / T ≠ 0 := sub_ne_zero.2 hx
  have h4 : T * x + mu = T * (x - (Ecb - mu) / T) + Ecb := by field_simp; ring
  rw [h4]
  generalize x - (Ecb - mu) / T = y at h3
  field_simp

/-- The parts of the amplitudes. -/
theorem amp0_eq (lib : NumLib) {Ecb mu T : ℝ} (hT : 0 < T) (Dm Dp : ℝ) (limit : Int) :
    (func1vN lib Ecb mu T Dm Dp 0 limit).cur0.re =
      lib.quadPV ((Dm - mu) / T) ((Dp - mu) / T) ((Ecb - mu) / T) limit ∧
    (func1vN lib Ecb mu T Dm Dp 0 limit).cur0.im =
      (if Dm < Ecb ∧ Ecb < Dp then -Real.pi * fermiFunc ((Ecb - mu) / T) else 0) ∧
    (func1vN lib Ecb mu T Dm Dp 0 limit).cur1.re = (func1vN lib Ecb mu T Dm Dp 0 limit).cur0.re +
      Real.log |((Dm - mu) / T - (Ecb - mu) / T) / ((Dp - mu) / T - (Ecb - mu) / T)| ∧
    (func1vN lib Ecb mu T Dm Dp 0 limit).cur1.im =
      (if Dm < Ecb ∧ Ecb < Dp then -Real.pi * (fermiFunc ((Ecb - mu) / T) - 1) else 0) ∧
    (func1vN lib Ecb mu T Dm Dp 0 limit).en0.re =
      T * (softPlus ((Dm - mu) / T) - softPlus ((Dp - mu) / T)) + Ecb * (func1vN lib Ecb mu T Dm Dp 0 limit).cur0.re ∧
    (func1vN lib Ecb mu T Dm Dp 0 limit).en1.re =
      T * (softPlus ((Dm - mu) / T) - softPlus ((Dp - mu) / T)) + Dm - Dp +
        Ecb * (func1vN lib Ecb mu T Dm Dp 0 limit).cur1.re ∧
    (func1vN lib Ecb mu T Dm Dp 0 limit).en0.im = Ecb * (func1vN lib Ecb mu T Dm Dp 0 limit).cur0.im ∧
    (func1vN lib Ecb mu T Dm Dp 0 limit).en1.im = Ecb * (func1vN lib Ecb mu T Dm Dp 0 limit).cur1.im := by
  rw [func1vN, if_pos rfl]
  unfold func1vN0
  simp only [div_lt' hT]
  generalize softPlus ((Dm - mu) / T) = s1
  generalize softPlus ((Dp - mu) / T) = s2
  generalize lib.quadPV ((Dm - mu) / T) ((Dp - mu) / T) ((Ecb - mu) / T) limit = Q
  generalize fermiFunc ((Ecb - mu) / T) = f
  generalize Real.log |((Dm - mu) / T - (Ecb - mu) / T) / ((Dp - mu) / T - (Ecb - mu) / T)| = L
  by_cases hin : Dm < Ecb ∧ Ecb < Dp
  · simp only [if_pos hin]
    simp
    ring
  · simp only [if_neg hin]
    simp

/-- **C82**, `itype=0`. If `quad` yields principal values, the amplitudes of `func_1vN` are the integrals of the
occupied (`cur0`) and minus the empty (`cur1`) states of the lead over `1/(e-Ecb+i0)`: the real part is the principal
value, the imaginary part is `-π` times the value at `Ecb` if it lies in the band. The energy amplitudes are the same
integrals weighted with the energy `e`, up to an error below `10⁻¹⁷ T + 10⁻³⁰⁰ (Dp-Dm)`. -/
theorem c82_integrals {lib : NumLib} (hq : QuadOk lib) {Ecb mu T Dm Dp : ℝ} (hT : 0 < T) (hD : Dm < Dp)
    (hm : Ecb ≠ Dm) (hp : Ecb ≠ Dp) (hc : (Ecb - mu) / T ≠ 709.77) (limit : Int) {A : Amp}
    (hA : A = func1vN lib Ecb mu T Dm Dp 0 limit) :
    PV (fun e => fermiFunc ((e - mu) / T) / (e - Ecb)) Dm Dp Ecb A.cur0.re ∧
    PV (fun e => (fermiFunc ((e - mu) / T) - 1) / (e - Ecb)) Dm Dp Ecb A.cur1.re ∧
    A.cur0.im = (if Dm < Ecb ∧ Ecb < Dp then -Real.pi * fermiFunc ((Ecb - mu) / T) else 0) ∧
    A.cur1.im = (if Dm < Ecb ∧ Ecb < Dp then -Real.pi * (fermiFunc ((Ecb - mu) / T) - 1) else 0) ∧
    (∃ J, PV (fun e => e * fermiFunc ((e - mu) / T) / (e - Ecb)) Dm Dp Ecb J ∧
      |A.en0.re - J| ≤ T * Real.exp (-40) + (Dp - Dm) * Real.exp (-709.77)) ∧
    (∃ J, PV (fun e => e * (fermiFunc ((e - mu) / T) - 1) / (e - Ecb)) Dm Dp Ecb J ∧
      |A.en1.re - J| ≤ T * Real.exp (-40) + (Dp - Dm) * Real.exp (-709.77)) ∧
    A.en0.im = Ecb * A.cur0.im ∧ A.en1.im = Ecb * A.cur1.im := by
  have hDx : (Dm - mu) / T < (Dp - mu) / T := (div_lt' hT _ _ _).2 hD
  have inj : ∀ d, Ecb ≠ d → (Ecb - mu) / T ≠ (d - mu) / T := by
    intro d hd e
    have := (div_left_inj' hT.ne').1 e
    exact hd (by linarith)
  have h0 := hq ((Dm - mu) / T) ((Dp - mu) / T) ((Ecb - mu) / T) limit hDx (inj _ hm) (inj _ hp) hc
  have h1 := pv_hole hDx (inj _ hm) (inj _ hp) h0
  have f1 : ∀ x, |fermiFunc x - 1| ≤ 1 := by
    intro x
    obtain ⟨g1, g2⟩ := c32_fermi.1 x
    rw [abs_le]; constructor <;> linarith
  have w0 := pv_weight fermi_meas fermi_abs hT h0
  have w1 := pv_weight (fermi_meas.sub_const 1) f1 hT h1
  have hc0 := const0_err hDx.le
  have e1 : T * ((Dp - mu) / T - (Dm - mu) / T) = Dp - Dm := by field_simp; ring
  have eJ : ∫ x in ((Dm - mu) / T)..((Dp - mu) / T), (fermiFunc x - 1) =
      (∫ x in ((Dm - mu) / T)..((Dp - mu) / T), fermiFunc x) - ((Dp - mu) / T - (Dm - mu) / T) := by
    rw [intervalIntegral.integral_sub (int_of_bound fermi_meas fermi_abs _ _) intervalIntegrable_const]
    simp
  have hA0 := amp0_eq lib (Ecb := Ecb) (mu := mu) hT Dm Dp limit
  rw [← hA] at hA0
  obtain ⟨a1, a2, a3, a4, a5, a6, a7, a8⟩ := hA0
  rw [← a1] at h0 h1 w0 w1
  rw [← a3] at h1 w1
  have bound : ∀ x : ℝ, |softPlus ((Dm - mu) / T) - softPlus ((Dp - mu) / T) - x| ≤
      Real.exp (-40) + ((Dp - mu) / T - (Dm - mu) / T) * Real.exp (-709.77) →
      |T * (softPlus ((Dm - mu) / T) - softPlus ((Dp - mu) / T)) - T * x| ≤
      T * Real.exp (-40) + (Dp - Dm) * Real.exp (-709.77) := by
    intro x hx
    rw [← mul_sub, abs_mul, abs_of_pos hT, ← e1]
    have := mul_le_mul_of_nonneg_left hx hT.le
    linarith
  have p0 := pv_energy (g := fermiFunc) hT h0
  have p1 := pv_energy (g := fun x => fermiFunc x - 1) hT h1
  have q0 := pv_energy (g := fun x => (T * x + mu) * fermiFunc x) hT w0
  have q1 := pv_energy (g := fun x => (T * x + mu) * (fermiFunc x - 1)) hT w1
  have ex : ∀ x, T * ((x - mu) / T) + mu = x := fun x => by field_simp; ring
  simp only [ex] at q0 q1
  refine ⟨p0, p1, a2, a4, ⟨_, q0, ?_⟩, ⟨_, q1, ?_⟩, a7, a8⟩
  · have := bound _ hc0
    rw [a5]
    convert this using 2
    ring
  · have := bound _ hc0
    have e2 : T * ((∫ x in ((Dm - mu) / T)..((Dp - mu) / T), fermiFunc x) - ((Dp - mu) / T - (Dm - mu) / T)) =
        T * (∫ x in ((Dm - mu) / T)..((Dp - mu) / T), fermiFunc x) - (Dp - Dm) := by rw [mul_sub, e1]
    rw [a6, eJ, e2]
    convert this using 2
    ring

/-- There are principal values of the Fermi function. -/
theorem pv_exists {a b α : ℝ} (hab : a < b) (ha : α ≠ a) (hb : α ≠ b) (hc : α ≠ 709.77) :
    ∃ I, PV (fun x => fermiFunc x / (x - α)) a b α I := by
  have hδ : 0 < |α - 709.77| := abs_pos.2 (sub_ne_zero.2 hc)
  have hmono : ∀ x y : ℝ, x ≤ y → Real.exp y - Real.exp x ≤ (y - x) * Real.exp y := by
    intro x y _
    have h1 := Real.add_one_le_exp (x - y)
    have h2 : Real.exp x = Real.exp (x - y) * Real.exp y := by rw [← Real.exp_add]; ring_nf
    have h3 := Real.exp_pos y
    nlinarith
  have hle : ∀ x y : ℝ, x ≤ y → |1 / (Real.exp x + 1) - 1 / (Real.exp y + 1)| ≤ |x - y| := by
    intro x y hxy
    have h1 := hmono x y hxy
    have h2 := Real.exp_pos x
    have h3 := Real.exp_pos y
    have h4 := Real.exp_le_exp.2 hxy
    rw [show 1 / (Real.exp x + 1) - 1 / (Real.exp y + 1) =
      (Real.exp y - Real.exp x) / ((Real.exp x + 1) * (Real.exp y + 1)) by field_simp; ring, abs_div,
      abs_of_nonneg (by linarith : 0 ≤ Real.exp y - Real.exp x), abs_of_pos (by positivity :
        0 < (Real.exp x + 1) * (Real.exp y + 1)), div_le_iff₀ (by positivity), abs_sub_comm,
      abs_of_nonneg (by linarith : 0 ≤ y - x)]
    refine h1.trans (mul_le_mul_of_nonneg_left ?_ (by linarith))
    nlinarith [mul_pos h2 h3]
  have hlip : ∀ x, x ≠ α → |(fermiFunc x - fermiFunc α) / (x - α)| ≤ 1 / |α - 709.77| + 1 := by
    intro x hx
    have hx' : 0 < |x - α| := abs_pos.2 (sub_ne_zero.2 hx)
    rw [abs_div]
    rcases le_or_gt |α - 709.77| |x - α| with hfar | hnear
    · have h1 : |fermiFunc x - fermiFunc α| ≤ 1 := by
        obtain ⟨g1, g2⟩ := c32_fermi.1 x
        obtain ⟨g3, g4⟩ := c32_fermi.1 α
        rw [abs_le]; constructor <;> linarith
      have := div_le_div₀ (by norm_num) h1 hδ hfar
      linarith
    · have h1 : |fermiFunc x - fermiFunc α| ≤ |x - α| := by
        rcases lt_or_gt_of_ne hc with hlt | hgt
        · rw [abs_of_neg (a := α - 709.77) (by linarith)] at hnear
          have := (abs_lt.1 hnear).2
          rw [c32_fermi.2.2.2.2.1 x (by linarith), c32_fermi.2.2.2.2.1 α hlt.le]
          rcases le_total x α with h | h
          · exact hle x α h
          · rw [abs_sub_comm, abs_sub_comm x α]; exact hle α x h
        · rw [abs_of_pos (a := α - 709.77) (by linarith)] at hnear
          have := (abs_lt.1 hnear).1
          rw [c32_fermi.2.2.2.2.2 x (by linarith), c32_fermi.2.2.2.2.2 α hgt]
          simp
      have h2 := (div_le_one hx').2 h1
      have : 0 < 1 / |α - 709.77| := by positivity
      linarith
  have hall : ∀ x, |(fermiFunc x - fermiFunc α) / (x - α)| ≤ 1 / |α - 709.77| + 1 := by
    intro x
    by_cases hx : x = α
    · rw [hx, sub_self, sub_self, div_zero, abs_zero]; positivity
    · exact hlip x hx
  have hm : Measurable fun x => (fermiFunc x - fermiFunc α) / (x - α) :=
    (fermi_meas.sub_const _).div (measurable_id.sub_const _)
  have h1 := pv_bounded hm hall a b α
  have h2 := h1.add ((pv_pole hab ha hb).smul (fermiFunc α)) (cutInt_bounded hm hall a b α)
    (CutInt.smul (cutInt_pole (f := fun _ => 1) measurable_const (K := 1) (by simp) a b α) _)
  exact ⟨_, h2.congr fun x _ _ => by ring⟩

/-- A routine as assumed exists. -/
theorem quad_exists (ψ : ℝ → ℝ) : ∃ lib : NumLib, QuadOk lib ∧ lib.digammaRe = ψ := by
  classical
  refine ⟨⟨fun a b α _ => if h : ∃ I, PV (fun x => fermiFunc x / (x - α)) a b α I then h.choose else 0, ψ⟩, ?_, rfl⟩
  intro a b α limit hab ha hb hc
  have h := pv_exists hab ha hb hc
  show PV _ a b α (dite _ _ _)
  rw [dif_pos h]
  exact h.choose_spec

/-- The hypotheses of `c82_integrals` can be met: a level at 0.5 in a band from -60 to 60. -/
example : ∃ lib : NumLib, QuadOk lib ∧ (0 : ℝ) < 1 ∧ (-60 : ℝ) < 60 ∧ (0.5 : ℝ) ≠ -60 ∧ (0.5 : ℝ) ≠ 60 ∧
    ((0.5 : ℝ) - 0.1) / 1 ≠ 709.77 := by
  obtain ⟨lib, h, -⟩ := quad_exists fun _ => 0
  exact ⟨lib, h, by norm_num, by norm_num, by norm_num, by norm_num, by norm_num⟩

/-! ### Particles and holes -/

theorem fermi_refl {x : ℝ} (h : |x| ≤ 709.77) : fermiFunc (-x) = 1 - fermiFunc x := by
  have := c32_fermi.2.2.2.1 x h
  linarith

theorem hole_half {lib : NumLib} (hq : QuadOk lib) (hψ : ∀ x, lib.digammaRe (-x) = lib.digammaRe x)
    {Ecb mu T Dm Dp : ℝ} {itype : Int} (hT : 0 < T) (hα : |(Ecb - mu) / T| < 709.77)
    (h0 : itype = 0 → Dm < Dp ∧ Ecb ≠ Dm ∧ Ecb ≠ Dp ∧ |(Dm - mu) / T| ≤ 709.77 ∧ |(Dp - mu) / T| ≤ 709.77)
    (h1 : itype = 1 → Dm ≠ 0 ∧ Dp ≠ 0) (limit : Int) :
    (func1vN lib (-Ecb) (-mu) T (-Dp) (-Dm) itype limit).cur0 = conj (func1vN lib Ecb mu T Dm Dp itype limit).cur1 ∧
    ‖(func1vN lib (-Ecb) (-mu) T (-Dp) (-Dm) itype limit).en0 + conj (func1vN lib Ecb mu T Dm Dp itype limit).en1‖ ≤
      (if itype = 0 then 2 * T * Real.exp (-40) else 0) := by
  have en : ∀ d : ℝ, (-d - -mu) / T = -((d - mu) / T) := fun d => by ring
  have hf := fermi_refl hα.le
  have hband : (-Dp < -Ecb ∧ -Ecb < -Dm) ↔ (Dm < Ecb ∧ Ecb < Dp) := by
    rw [neg_lt_neg_iff, neg_lt_neg_iff]; exact and_comm
  by_cases i0 : itype = 0
  · subst i0
    obtain ⟨hD, hm, hp, hRm, hRp⟩ := h0 rfl
    have hDx : (Dm - mu) / T < (Dp - mu) / T := (div_lt' hT _ _ _).2 hD
    have inj : ∀ d, Ecb ≠ d → (Ecb - mu) / T ≠ (d - mu) / T := by
      intro d hd e
      have := (div_left_inj' hT.ne').1 e
      exact hd (by linarith)
    have hα' := abs_lt.1 hα
    have p0 := hq ((Dm - mu) / T) ((Dp - mu) / T) ((Ecb - mu) / T) limit hDx (inj _ hm) (inj _ hp) hα'.2.ne
    have p1 := (pv_hole hDx (inj _ hm) (inj _ hp) p0).neg
    have p2 := hq (-((Dp - mu) / T)) (-((Dm - mu) / T)) (-((Ecb - mu) / T)) limit (by linarith)
      (fun e => inj _ hp (neg_injective e)) (fun e => inj _ hm (neg_injective e)) (by linarith [hα'.1] : _ < _).ne
    have p3 := p1.congr (h := fun x => fermiFunc x / (x - -((Ecb - mu) / T))) fun x hx hxa => by
      rw [Set.uIcc_of_le (by linarith), Set.mem_Icc] at hx
      have hx1 : |x| ≤ 709.77 := by
        rw [abs_le] at hRm hRp ⊢
        constructor <;> linarith [hx.1, hx.2, hRm.1, hRm.2, hRp.1, hRp.2]
      rw [fermi_refl hx1, show 1 - fermiFunc x - 1 = -fermiFunc x by ring,
        show -x - (Ecb - mu) / T = -(x - -((Ecb - mu) / T)) by ring, neg_div_neg_eq]
    have hu := p2.unique p3
    obtain ⟨a1, a2, a3, a4, a5, a6, a7, a8⟩ := amp0_eq lib (Ecb := Ecb) (mu := mu) hT Dm Dp limit
    obtain ⟨b1, b2, b3, b4, b5, b6, b7, b8⟩ := amp0_eq lib (Ecb := -Ecb) (mu := -mu) hT (-Dp) (-Dm) limit
    simp only [en, hband, hf] at b1 b2 b5
    rw [hu, ← a1, ← a3] at b1
    have c : (func1vN lib (-Ecb) (-mu) T (-Dp) (-Dm) 0 limit).cur0 = conj (func1vN lib Ecb mu T Dm Dp 0 limit).cur1 := by
      apply Complex.ext
      · rw [b1, Complex.conj_re]
      · rw [b2, Complex.conj_im, a4]
        split <;> ring
    refine ⟨c, ?_⟩
    rw [if_pos rfl]
    have him : ((func1vN lib (-Ecb) (-mu) T (-Dp) (-Dm) 0 limit).en0 +
        conj (func1vN lib Ecb mu T Dm Dp 0 limit).en1).im = 0 := by
      rw [Complex.add_im, Complex.conj_im, b7, a8, c, Complex.conj_im]; ring
    have hre : ((func1vN lib (-Ecb) (-mu) T (-Dp) (-Dm) 0 limit).en0 +
        conj (func1vN lib Ecb mu T Dm Dp 0 limit).en1).re =
        T * (softPlus (-((Dp - mu) / T)) - softPlus (-((Dm - mu) / T))) +
          T * (softPlus ((Dm - mu) / T) - softPlus ((Dp - mu) / T)) + Dm - Dp := by
      rw [Complex.add_re, Complex.conj_re, b5, a6, b1]; ring
    have e : ((func1vN lib (-Ecb) (-mu) T (-Dp) (-Dm) 0 limit).en0 +
        conj (func1vN lib Ecb mu T Dm Dp 0 limit).en1) = ((T * (softPlus (-((Dp - mu) / T)) -
          softPlus (-((Dm - mu) / T))) + T * (softPlus ((Dm - mu) / T) - softPlus ((Dp - mu) / T)) + Dm - Dp : ℝ) : ℂ) :=
      Complex.ext (by rw [hre, Complex.ofReal_re]) (by rw [him, Complex.ofReal_im])
    rw [e, Complex.norm_real, Real.norm_eq_abs]
    have s1 := softPlus_err ((Dm - mu) / T)
    have s2 := softPlus_err ((Dp - mu) / T)
    have s3 := softPlus_err (-((Dm - mu) / T))
    have s4 := softPlus_err (-((Dp - mu) / T))
    have r1 := log_refl ((Dm - mu) / T)
    have r2 := log_refl ((Dp - mu) / T)
    rw [neg_neg] at s3 s4
    have d1 : Dm = T * ((Dm - mu) / T) + mu := by field_simp; ring
    have d2 : Dp = T * ((Dp - mu) / T) + mu := by field_simp; ring
    have key : T * (softPlus (-((Dp - mu) / T)) - softPlus (-((Dm - mu) / T))) +
        T * (softPlus ((Dm - mu) / T) - softPlus ((Dp - mu) / T)) + Dm - Dp =
        T * (softPlus (-((Dp - mu) / T)) - softPlus (-((Dm - mu) / T)) +
        softPlus ((Dm - mu) / T) - softPlus ((Dp - mu) / T) + (Dm - mu) / T - (Dp - mu) / T) := by
      field_simp; ring
    rw [key, abs_mul, abs_of_pos hT, mul_comm 2 T, mul_assoc]
    refine mul_le_mul_of_nonneg_left ?_ hT.le
    rw [abs_le]
    constructor <;> linarith [s1.1, s1.2, s2.1, s2.2, s3.1, s3.2, s4.1, s4.2]
  rw [if_neg i0]
  by_cases i1 : itype = 1
  · subst i1
    obtain ⟨hm, hp⟩ := h1 rfl
    have hpi := Real.pi_pos
    have hl : Real.log (|Dm / T| / (2 * Real.pi)) - Real.log |Dm / T / (Dp / T)| = Real.log (|Dp / T| / (2 * Real.pi)) := by
      have u1 : |Dm / T| ≠ 0 := abs_ne_zero.2 (div_ne_zero hm hT.ne')
      have u2 : |Dp / T| ≠ 0 := abs_ne_zero.2 (div_ne_zero hp hT.ne')
      rw [abs_div (Dm / T), Real.log_div u1 (by positivity), Real.log_div u1 u2, Real.log_div u2 (by positivity)]
      ring
    have c : (func1vN lib (-Ecb) (-mu) T (-Dp) (-Dm) 1 limit).cur0 = conj (func1vN lib Ecb mu T Dm Dp 1 limit).cur1 := by
      simp only [func1vN, if_neg one_ne_zero, if_true, func1vN1, en, hf, neg_div, hψ, abs_neg]
      rw [Real.log_abs (Dm / T / (Dp / T))] at hl
      apply Complex.ext
      · simp; linarith
      · simp; ring
    refine ⟨c, le_of_eq ?_⟩
    have e1 : (func1vN lib (-Ecb) (-mu) T (-Dp) (-Dm) 1 limit).en0 =
        Dp - Ecb * (func1vN lib (-Ecb) (-mu) T (-Dp) (-Dm) 1 limit).cur0 := by
      have : ((-T * (-Dp / T) : ℝ) : ℂ) = Dp := by
        rw [show -T * (-Dp / T) = Dp by field_simp]
      simp only [func1vN, if_neg one_ne_zero, if_true, func1vN1, this, Complex.ofReal_neg]
      ring
    have e2 : (func1vN lib Ecb mu T Dm Dp 1 limit).en1 = -Dp + Ecb * (func1vN lib Ecb mu T Dm Dp 1 limit).cur1 := by
      have : ((-T * (Dp / T) : ℝ) : ℂ) = -Dp := by
        rw [show -T * (Dp / T) = -Dp by field_simp]; simp
      simp only [func1vN, if_neg one_ne_zero, if_true, func1vN1, this]
    rw [e1, e2, c, map_add, map_mul, map_neg, Complex.conj_ofReal, Complex.conj_ofReal, norm_eq_zero]
    ring
  by_cases i2 : itype = 2
  · subst i2
    by_cases hin : Dm < Ecb ∧ Ecb < Dp
    · simp only [func1vN, func1vN2, div_lt' hT, hband, if_pos hin]
      simp only [en, hf]
      norm_num
      constructor <;> ring
    · simp only [func1vN, func1vN2, div_lt' hT, hband, if_neg hin]
      norm_num
  by_cases i3 : itype = 3
  · subst i3
    simp only [func1vN, func1vN3, en, hf]
    norm_num
    constructor <;> ring
  simp only [func1vN, if_neg i0, if_neg i1, if_neg i2, if_neg i3]
  simp

/-- **C82**, particles and holes. Exchanging electrons with holes (all energies change the sign) exchanges the
amplitudes of occupied and empty states of the lead, up to complex conjugation. For the energy amplitudes of `itype=0`
there is an error of at most `10⁻¹⁶ T`, as the logarithm is replaced by a linear function for wide bands. -/
theorem c82_hole {lib : NumLib} (hq : QuadOk lib) (hψ : ∀ x, lib.digammaRe (-x) = lib.digammaRe x)
    {Ecb mu T Dm Dp : ℝ} {itype : Int} (hT : 0 < T) (hα : |(Ecb - mu) / T| < 709.77)
    (h0 : itype = 0 → Dm < Dp ∧ Ecb ≠ Dm ∧ Ecb ≠ Dp ∧ |(Dm - mu) / T| ≤ 709.77 ∧ |(Dp - mu) / T| ≤ 709.77)
    (h1 : itype = 1 → Dm ≠ 0 ∧ Dp ≠ 0) (limit : Int) {A A' : Amp} (hA : A = func1vN lib Ecb mu T Dm Dp itype limit)
    (hA' : A' = func1vN lib (-Ecb) (-mu) T (-Dp) (-Dm) itype limit) :
    A'.cur0 = conj A.cur1 ∧ A'.cur1 = conj A.cur0 ∧
    ‖A'.en0 + conj A.en1‖ ≤ (if itype = 0 then 2 * T * Real.exp (-40) else 0) ∧
    ‖A'.en1 + conj A.en0‖ ≤ (if itype = 0 then 2 * T * Real.exp (-40) else 0) := by
  have en : ∀ d : ℝ, (-d - -mu) / T = -((d - mu) / T) := fun d => by ring
  have k1 := hole_half hq hψ hT hα h0 h1 limit
  have k2 := hole_half hq hψ (Ecb := -Ecb) (mu := -mu) (Dm := -Dp) (Dp := -Dm) (itype := itype) hT
    (by rw [en, abs_neg]; exact hα)
    (fun h => by
      obtain ⟨a, b, c, d, e⟩ := h0 h
      exact ⟨by linarith, fun h => c (neg_injective h), fun h => b (neg_injective h), by rw [en, abs_neg]; exact e,
        by rw [en, abs_neg]; exact d⟩)
    (fun h => ⟨neg_ne_zero.2 (h1 h).2, neg_ne_zero.2 (h1 h).1⟩) limit
  simp only [neg_neg] at k2
  rw [← hA, ← hA'] at k1 k2
  refine ⟨k1.1, by rw [k2.1, Complex.conj_conj], k1.2, ?_⟩
  have := k2.2
  rw [← Complex.norm_conj, map_add, Complex.conj_conj, add_comm] at this
  exact this

/-- The hypotheses of `c82_hole` can be met: a level at 0.5 in a band from -60 to 60. -/
example : ∃ lib : NumLib, QuadOk lib ∧ (∀ x, lib.digammaRe (-x) = lib.digammaRe x) ∧ |((0.5 : ℝ) - 0.1) / 1| < 709.77 ∧
    (-60 : ℝ) < 60 ∧ (0.5 : ℝ) ≠ -60 ∧ (0.5 : ℝ) ≠ 60 ∧ |((-60 : ℝ) - 0.1) / 1| ≤ 709.77 ∧
    |((60 : ℝ) - 0.1) / 1| ≤ 709.77 := by
  obtain ⟨lib, h, e⟩ := quad_exists fun x => x ^ 2
  refine ⟨lib, h, fun x => by rw [e]; ring, ?_, by norm_num, by norm_num, by norm_num, ?_, ?_⟩ <;>
    norm_num [abs_lt, abs_le]

/-! ### The approximations -/

/-- **C82**, `itype=1` is the limit of wide bands of `itype=0`, as far as the sum of occupied and empty states is
concerned: the ends of the band enter only through their ratio. The sum of the energy amplitudes follows in the same way
from them for both. -/
theorem c82_wide (lib : NumLib) {Ecb mu T Dm Dp : ℝ} (hT : 0 < T) (hm : Dm < 0) (hp : 0 < Dp) (limit : Int) :
    Tendsto (fun s : ℝ => (func1vN lib Ecb mu T (s * Dm) (s * Dp) 0 limit).cur1 -
        (func1vN lib Ecb mu T (s * Dm) (s * Dp) 0 limit).cur0) atTop
      (𝓝 ((func1vN lib Ecb mu T Dm Dp 1 limit).cur1 - (func1vN lib Ecb mu T Dm Dp 1 limit).cur0)) ∧
    ∀ itype : Int, itype = 0 ∨ itype = 1 → ∀ A, A = func1vN lib Ecb mu T Dm Dp itype limit →
      A.en1 - A.en0 = Dm - Dp + Ecb * (A.cur1 - A.cur0) := by
  constructor
  · have e1 : (func1vN lib Ecb mu T Dm Dp 1 limit).cur1 - (func1vN lib Ecb mu T Dm Dp 1 limit).cur0 =
        (Real.log |Dm / Dp| : ℝ) + Complex.I * Real.pi := by
      have : Dm / T / (Dp / T) = Dm / Dp := by field_simp
      simp only [func1vN, if_neg one_ne_zero, if_true, func1vN1, this]
      ring
    rw [e1]
    have hev : ∀ᶠ s : ℝ in atTop, s * Dm < Ecb ∧ Ecb < s * Dp ∧ 0 < s := by
      have t1 : Tendsto (fun s : ℝ => s * Dm) atTop atBot := tendsto_id.atTop_mul_const_of_neg hm
      have t2 : Tendsto (fun s : ℝ => s * Dp) atTop atTop := tendsto_id.atTop_mul_const hp
      filter_upwards [t1.eventually_lt_atBot Ecb, t2.eventually_gt_atTop Ecb, eventually_gt_atTop 0] with s a b c
      exact ⟨a, b, c⟩
    have hlim : Tendsto (fun s : ℝ => Real.log |(Dm - Ecb * s⁻¹) / (Dp - Ecb * s⁻¹)|) atTop (𝓝 (Real.log |Dm / Dp|)) := by
      have i : Tendsto (fun s : ℝ => Ecb * s⁻¹) atTop (𝓝 0) := by
        simpa using tendsto_inv_atTop_zero.const_mul Ecb
      have j : Tendsto (fun s : ℝ => (Dm - Ecb * s⁻¹) / (Dp - Ecb * s⁻¹)) atTop (𝓝 ((Dm - 0) / (Dp - 0))) :=
        (tendsto_const_nhds.sub i).div (tendsto_const_nhds.sub i) (by linarith)
      rw [sub_zero, sub_zero] at j
      exact (j.abs).log (abs_ne_zero.2 (div_ne_zero hm.ne hp.ne'))
    have h2 : Tendsto (fun s : ℝ => ((Real.log |(Dm - Ecb * s⁻¹) / (Dp - Ecb * s⁻¹)| : ℝ) : ℂ) + Complex.I * Real.pi)
        atTop (𝓝 ((Real.log |Dm / Dp| : ℝ) + Complex.I * Real.pi)) :=
      ((Complex.continuous_ofReal.tendsto _).comp hlim).add_const _
    refine h2.congr' ?_
    filter_upwards [hev] with s hs
    have e : ((s * Dm - mu) / T - (Ecb - mu) / T) / ((s * Dp - mu) / T - (Ecb - mu) / T) =
        (Dm - Ecb * s⁻¹) / (Dp - Ecb * s⁻¹) := by
      have hs0 := hs.2.2.ne'
      rw [show (s * Dm - mu) / T - (Ecb - mu) / T = (Dm - Ecb * s⁻¹) * (s / T) by field_simp; ring,
        show (s * Dp - mu) / T - (Ecb - mu) / T = (Dp - Ecb * s⁻¹) * (s / T) by field_simp; ring,
        mul_div_mul_right _ _ (div_ne_zero hs0 hT.ne')]
    simp only [func1vN, if_true, func1vN0, div_lt' hT, e, if_pos (⟨hs.1, hs.2.1⟩ : s * Dm < Ecb ∧ Ecb < s * Dp)]
    ring
  · rintro itype (rfl | rfl) A rfl
    · simp only [func1vN, if_true, func1vN0]
      push_cast
      ring
    · have e1 : -T * (Dm / T) = -Dm := by field_simp
      have e2 : -T * (Dp / T) = -Dp := by field_simp
      simp only [func1vN, if_neg one_ne_zero, if_true, func1vN1, e1, e2]
      push_cast
      ring

/-- **C82**, `itype=2` is `itype=0` without the principal parts, and `itype=3` is `itype=2` for a level in the band. -/
theorem c82_imaginary (lib : NumLib) {Ecb mu T : ℝ} (hT : 0 < T) (Dm Dp : ℝ) (limit : Int) {A B C : Amp}
    (hA : A = func1vN lib Ecb mu T Dm Dp 0 limit) (hB : B = func1vN lib Ecb mu T Dm Dp 2 limit)
    (hC : C = func1vN lib Ecb mu T Dm Dp 3 limit) :
    (B.cur0.re = 0 ∧ B.cur1.re = 0 ∧ B.en0.re = 0 ∧ B.en1.re = 0) ∧
    (B.cur0.im = A.cur0.im ∧ B.cur1.im = A.cur1.im ∧ B.en0.im = A.en0.im ∧ B.en1.im = A.en1.im) ∧
    (Dm < Ecb → Ecb < Dp → C = B) := by
  obtain ⟨a1, a2, a3, a4, a5, a6, a7, a8⟩ := amp0_eq lib (Ecb := Ecb) (mu := mu) hT Dm Dp limit
  rw [← hA] at a1 a2 a3 a4 a5 a6 a7 a8
  rw [a7, a8, a2, a4, hB, hC]
  by_cases hin : Dm < Ecb ∧ Ecb < Dp
  · simp only [func1vN, func1vN2, func1vN3, div_lt' hT, if_pos hin]
    norm_num
    refine ⟨?_, ?_⟩ <;> ring
  · simp only [func1vN, func1vN2, func1vN3, div_lt' hT, if_neg hin]
    norm_num
    intro h1 h2
    exact absurd ⟨h1, h2⟩ hin

end

end Verif
