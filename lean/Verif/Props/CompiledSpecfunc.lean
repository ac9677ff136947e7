import Verif.Lemmas.CompiledSpecfunc
import Verif.Props.Ozaki

/-!
C100: the compiled special functions compute what the Python ones compute. The Python version takes the digamma function from scipy;
the compiled one computes it, and the error is bounded.
-/

namespace Verif

open Complex (I)

namespace CSpec

/-- In the half-plane of positive real part the compiled `digamma` differs from the digamma function by at most `1e-13`. -/
theorem c100_digamma {z : ℂ} (hz : 0 < z.re) : ‖digamma z - Complex.digamma z‖ ≤ 1e-13 := digamma_near hz

/-- The compiled `polygamma` is the Python one, for all arguments and all orders but zero. -/
theorem c100_polygamma (z : ℂ) {K : ℤ} (hK : K ≠ 0) : polygamma z K = Verif.polygamma z K := polygamma_eq z hK

/-- At order zero the two differ by less than can be seen, for all arguments. -/
theorem c100_polygamma_zero (z : ℂ) : ‖polygamma z 0 - Verif.polygamma z 0‖ ≤ 1e-20 := polygamma_near z

/-- Away from the half-plane the compiled `digamma` is the Python `polygamma`, which is not the digamma function there. -/
theorem c100_digamma_left {z : ℂ} (hz : z.re ≤ 0) : ‖digamma z - Verif.polygamma z 0‖ ≤ 1e-20 := by
  unfold digamma
  rw [if_pos hz]
  exact polygamma_near z

/-- At `-1/2` it is off by more than one half. -/
theorem c100_digamma_left_false : 1 / 2 ≤ ‖digamma (-(1 / 2)) - Complex.digamma (-(1 / 2))‖ := by
  have r2 : (Complex.digamma (-(1 / 2))).im = 0 := by
    have h := RTD.digamma_conj (-(1 / 2))
    rw [show (starRingEnd ℂ) (-(1 / 2)) = -(1 / 2) by simp [Complex.conj_ofNat]] at h
    exact Complex.conj_eq_iff_im.mp h.symm
  have r1 : (Complex.digamma (1 / 2)).im = 0 := by
    have h := RTD.digamma_conj (1 / 2)
    rw [show (starRingEnd ℂ) (1 / 2) = 1 / 2 by simp [Complex.conj_ofNat]] at h
    exact Complex.conj_eq_iff_im.mp h.symm
  have i1 : |(Verif.polygamma (1 / 2) 0).im| ≤ 1e-16 := by
    have h := (Complex.abs_im_le_norm _).trans (c88_polygamma (z := 1 / 2) (by norm_num) (K := 0) (by norm_num))
    rwa [iteratedDeriv_zero, Complex.sub_im, r1, sub_zero] at h
  have e0 : Verif.pgShift (1 / 2) (1 / 2) 1 = (33 / 2, (Verif.pgShift (1 / 2) (1 / 2) 1).2) := by
    refine Prod.ext ?_ rfl
    unfold Verif.pgShift
    have hi : VN2.pyInt (1 / 2) = 0 := by
      unfold VN2.pyInt
      rw [if_pos (by norm_num)]
      norm_num
    have hl : (pyRange 0 (15 - 0) 1).length = 15 := by simp [pyRange]
    simp only [Polygamma.shift_fold, hi, hl]
    norm_num
  have e : Verif.polygamma (-(1 / 2)) 0 = Verif.polygamma (1 / 2) 0 + Verif.pgReflect (1 / 2) (33 / 2) 0 := by
    have a1 : (-(1 / 2) : ℂ).re = -(1 / 2) := by norm_num
    have a2 : (1 / 2 : ℂ).re = 1 / 2 := by norm_num
    unfold Verif.polygamma
    simp only [a1, a2, neg_neg, abs_neg]
    rw [abs_of_pos (by norm_num : (0 : ℝ) < 1 / 2)]
    norm_num
    rw [e0]
  set T := Real.tanh (33 / 2 * Real.pi) with hT
  have hT1 : 1 / 2 ≤ T := tanh_half (by nlinarith [Real.pi_gt_three])
  have hT2 : T < 1 := Real.tanh_lt_one _
  have i2 : (Verif.pgReflect (1 / 2) (33 / 2) 0).im ≤ -(3 / 4) := by
    have hs : Real.sin (33 / 2 * Real.pi) = 1 := by
      rw [show 33 / 2 * Real.pi = Real.pi / 2 + (8 : ℕ) * (2 * Real.pi) by push_cast; ring, Real.sin_add_nat_mul_two_pi,
        Real.sin_pi_div_two]
    have hc : Real.cos (33 / 2 * Real.pi) = 0 := by
      rw [show 33 / 2 * Real.pi = Real.pi / 2 + (8 : ℕ) * (2 * Real.pi) by push_cast; ring, Real.cos_add_nat_mul_two_pi,
        Real.cos_pi_div_two]
    have hre : ((33 / 2 : ℂ) * (Real.pi : ℂ)).re = 33 / 2 * Real.pi := by
      rw [show (33 / 2 : ℂ) = ((33 / 2 : ℝ) : ℂ) by push_cast; rfl, ← Complex.ofReal_mul, Complex.ofReal_re]
    have hd : (1 + T ^ 2) ≠ 0 := by positivity
    have hdc : ((1 : ℂ) + (T : ℂ) ^ 2) ≠ 0 := by exact_mod_cast hd
    have hne : (1 : ℂ) + I * (T : ℂ) ≠ 0 := by
      intro h
      have := congrArg Complex.re h
      simp at this
    have hP : (0 : ℂ) - I * 1 * (T : ℂ) / (1 + I * 1 * (T : ℂ)) =
        ((-(T ^ 2) / (1 + T ^ 2) : ℝ) : ℂ) + ((-T / (1 + T ^ 2) : ℝ) : ℂ) * I := by
      rw [mul_one, zero_sub, neg_eq_iff_eq_neg, div_eq_iff hne]
      push_cast
      field_simp
      linear_combination -(T : ℂ) ^ 2 * Complex.I_sq
    have hval : Verif.pgReflect (1 / 2) (33 / 2) 0 = ((2 + -(T ^ 2) / (1 + T ^ 2) * Real.pi : ℝ) : ℂ) +
        ((-T / (1 + T ^ 2) * Real.pi : ℝ) : ℂ) * I := by
      unfold Verif.pgReflect
      simp only [hre, hs, hc, ← hT, Complex.ofReal_one, Complex.ofReal_zero, if_true]
      rw [hP]
      push_cast
      ring
    rw [hval, Complex.add_im, Complex.ofReal_im, Complex.im_ofReal_mul, Complex.I_im, mul_one, zero_add]
    have h1 : 1 / 4 ≤ T / (1 + T ^ 2) := by
      rw [le_div_iff₀ (by positivity)]
      nlinarith
    have h2 := mul_le_mul h1 Real.pi_gt_three.le (by norm_num) (by positivity)
    rw [neg_div, neg_mul]
    linarith
  have hn := c100_digamma_left (z := -(1 / 2)) (by norm_num)
  have hn' := abs_le.mp ((Complex.abs_im_le_norm _).trans hn)
  rw [e, Complex.sub_im, Complex.add_im] at hn'
  have hi := abs_le.mp i1
  refine le_trans ?_ (Complex.abs_im_le_norm _)
  rw [Complex.sub_im, r2, sub_zero]
  refine le_trans ?_ (neg_le_abs _)
  norm_num at hn' hi i2 ⊢
  linarith [hn'.1, hn'.2, hi.1, hi.2]

/-- `func_pauli`. -/
theorem c100_pauli (Ecb mu T Dm Dp : ℝ) (itype : ℤ) :
    funcPauli Ecb mu T Dm Dp itype = Verif.funcPauli Ecb mu T Dm Dp itype := rfl

theorem arg_eq (a : ℝ) : (0.5 + I * a / (2 * Real.pi) : ℂ) = 0.5 + I * ((a / (2 * Real.pi) : ℝ) : ℂ) := by
  push_cast
  ring

theorem arg_re (x : ℝ) : 0 < (0.5 + I * (x : ℂ) : ℂ).re := by
  rw [Complex.add_re, Complex.mul_re, Complex.I_re, Complex.I_im, Complex.ofReal_im]
  norm_num

/-- `func_1vN` with the digamma function of this module. -/
theorem func1vN_eq (quad : ℝ → ℝ → ℝ → ℤ → ℝ) (Ecb mu T Dm Dp : ℝ) {itype : ℤ} (h0 : 0 ≤ itype) (h3 : itype ≤ 3) (limit : ℤ) :
    func1vN quad Ecb mu T Dm Dp itype limit =
      .ok (Verif.func1vN ⟨quad, fun x => (digamma (0.5 + I * x)).re⟩ Ecb mu T Dm Dp itype limit) := by
  have : itype = 0 ∨ itype = 1 ∨ itype = 2 ∨ itype = 3 := by omega
  rcases this with rfl | rfl | rfl | rfl
  · rfl
  · simp only [func1vN, Verif.func1vN, func1vN1, one_ne_zero, if_false, if_true]
    rw [arg_eq]
    rfl
  · rfl
  · rfl

/-- `func_1vN`: with the same integration routine the compiled version gives the four numbers of the Python one, which calls the
digamma function, up to `1e-13` for the first two and `1e-13 |Ecb|` for the others. -/
theorem c100_1vN_partial (lib : NumLib) (hlib : ∀ x : ℝ, lib.digammaRe x = (Complex.digamma (0.5 + I * x)).re)
    (Ecb mu T Dm Dp : ℝ) {itype : ℤ} (h0 : 0 ≤ itype) (h3 : itype ≤ 3) (limit : ℤ) :
    ∃ a, func1vN lib.quadPV Ecb mu T Dm Dp itype limit = .ok a ∧
      ‖a.cur0 - (Verif.func1vN lib Ecb mu T Dm Dp itype limit).cur0‖ ≤ 1e-13 ∧
      ‖a.cur1 - (Verif.func1vN lib Ecb mu T Dm Dp itype limit).cur1‖ ≤ 1e-13 ∧
      ‖a.en0 - (Verif.func1vN lib Ecb mu T Dm Dp itype limit).en0‖ ≤ |Ecb| * 1e-13 ∧
      ‖a.en1 - (Verif.func1vN lib Ecb mu T Dm Dp itype limit).en1‖ ≤ |Ecb| * 1e-13 ∧
      (itype ≠ 1 → a = Verif.func1vN lib Ecb mu T Dm Dp itype limit) := by
  refine ⟨_, func1vN_eq lib.quadPV Ecb mu T Dm Dp h0 h3 limit, ?_⟩
  by_cases h1 : itype = 1
  · subst h1
    set x := (Ecb - mu) / T / (2 * Real.pi) with hx
    have hd : ‖(((digamma (0.5 + I * (x : ℂ))).re - lib.digammaRe x : ℝ) : ℂ)‖ ≤ 1e-13 := by
      rw [hlib, ← Complex.sub_re, Complex.norm_real, Real.norm_eq_abs]
      exact (Complex.abs_re_le_norm _).trans (digamma_near (arg_re x))
    have hE : ‖(Ecb : ℂ) * (((digamma (0.5 + I * (x : ℂ))).re - lib.digammaRe x : ℝ) : ℂ)‖ ≤ |Ecb| * 1e-13 := by
      rw [norm_mul, Complex.norm_real, Real.norm_eq_abs]
      gcongr
    refine ⟨le_of_eq_of_le ?_ hd, le_of_eq_of_le ?_ hd, le_of_eq_of_le ?_ hE, le_of_eq_of_le ?_ hE, fun h => absurd rfl h⟩ <;>
    · simp only [Verif.func1vN, func1vN1, one_ne_zero, if_false, if_true, ← hx]
      congr 1
      push_cast
      ring
  · have e : Verif.func1vN ⟨lib.quadPV, fun x => (digamma (0.5 + I * x)).re⟩ Ecb mu T Dm Dp itype limit =
        Verif.func1vN lib Ecb mu T Dm Dp itype limit := by
      simp only [Verif.func1vN, if_neg h1]
      rfl
    rw [e]
    simp only [sub_self, norm_zero]
    exact ⟨by norm_num, by norm_num, by positivity, by positivity, fun _ => trivial⟩

/-- For other values of `itype` the Python function gives zeros, and the compiled one reads variables that were never set. -/
theorem c100_1vN_false (lib : NumLib) (Ecb mu T Dm Dp : ℝ) (limit : ℤ) :
    func1vN lib.quadPV Ecb mu T Dm Dp 4 limit = .error .value ∧ Verif.func1vN lib Ecb mu T Dm Dp 4 limit = ⟨0, 0, 0, 0⟩ :=
  ⟨rfl, rfl⟩

/-! ### Second order -/

/-- The functions of this module, in the form that the Python integrals take them. -/
noncomputable def fns (base : NumLib) (oz : ℝ → List (ℝ × ℝ)) : RTD.Fun where
  base := base
  psi := digamma
  psi1 := fun z => Verif.polygamma z 1
  psi2 := fun z => Verif.polygamma z 2
  ozaki := oz

theorem diffFermi_eq (x : ℝ) : diffFermi x = RTD.diffFermi x := by
  unfold diffFermi RTD.diffFermi
  rw [show (709.77 / 2 : ℝ) = 354.885 by norm_num]

theorem phi_eq (base : NumLib) (oz : ℝ → List (ℝ × ℝ)) (x D : ℝ) : phi x D D = (fns base oz).phi D x := rfl

theorem diffPhi_eq (base : NumLib) (oz : ℝ → List (ℝ × ℝ)) (x : ℝ) : diffPhi x = (fns base oz).diffPhi x := by
  unfold diffPhi
  simp only
  rw [polygamma_eq _ one_ne_zero]
  rfl

theorem diff2Phi_eq (base : NumLib) (oz : ℝ → List (ℝ × ℝ)) (x : ℝ) : diff2Phi x = (fns base oz).diff2Phi x := by
  unfold diff2Phi RTD.Fun.diff2Phi
  simp only
  rw [polygamma_eq _ two_ne_zero, show (2 * Real.pi) ^ 2 = 2 * Real.pi * 2 * Real.pi by ring]
  rfl

theorem zOf_re (x : ℝ) : 0 < (RTD.zOf x).re := by
  unfold RTD.zOf
  rw [Complex.add_re, Complex.re_ofReal_mul, Complex.I_re]
  norm_num

/-- The function `phi` and its derivatives that the compiled integrals use are those with the digamma function and its
derivatives, up to `1e-13` and `1e-16`. -/
theorem c100_phi {F : RTD.Fun} (hF : F.Exact) (x D : ℝ) : |phi x D D - F.phi D x| ≤ 1e-13 ∧
    |diffPhi x - F.diffPhi x| ≤ 1e-16 ∧ |diff2Phi x - F.diff2Phi x| ≤ 1e-16 := by
  have hpi : 1 ≤ 2 * Real.pi := by nlinarith [Real.pi_gt_three]
  refine ⟨?_, ?_, ?_⟩
  · rw [phi_eq F.base F.ozaki]
    have h := (Complex.abs_re_le_norm _).trans (digamma_near (zOf_re x))
    unfold RTD.Fun.phi
    rw [hF.psi, ← abs_neg]
    refine le_of_eq_of_le ?_ h
    rw [Complex.sub_re]
    congr 1
    show -(-(digamma (RTD.zOf x)).re + _ - _) = _
    ring
  · rw [diffPhi_eq F.base F.ozaki]
    have h := (Complex.abs_im_le_norm _).trans (c88_polygamma (zOf_re x) (K := 1) (by norm_num))
    rw [iteratedDeriv_one, Complex.sub_im] at h
    unfold RTD.Fun.diffPhi
    rw [hF.psi1, ← mul_sub, abs_mul, abs_of_nonneg (by positivity)]
    calc _ ≤ 1 * (1e-16 : ℝ) := mul_le_mul (div_le_one_of_le₀ hpi (by positivity)) h (abs_nonneg _) (by norm_num)
      _ = _ := one_mul _
  · rw [diff2Phi_eq F.base F.ozaki]
    have h := (Complex.abs_re_le_norm _).trans (c88_polygamma (zOf_re x) (K := 2) (by norm_num))
    rw [iteratedDeriv_succ, iteratedDeriv_one, Complex.sub_re] at h
    unfold RTD.Fun.diff2Phi
    rw [hF.psi2, ← mul_sub, abs_mul, abs_of_nonneg (by positivity)]
    calc _ ≤ 1 * (1e-16 : ℝ) :=
          mul_le_mul (div_le_one_of_le₀ (by nlinarith [Real.pi_gt_three]) (by positivity)) h (abs_nonneg _) (by norm_num)
      _ = _ := one_mul _

/-- `D_integral_equal_T`, as `integralD` calls it. -/
theorem c100_dEqualT (base : NumLib) (oz : ℝ → List (ℝ × ℝ)) (p1 : ℤ) (E1 dE E2 D : ℝ) :
    dEqualT p1 1 E1 dE E2 D D = (fns base oz).dEqualT p1 E1 dE E2 D := by
  unfold dEqualT RTD.Fun.dEqualT
  simp only [mul_one, diffFermi_eq, phi_eq base oz, diffPhi_eq base oz, diff2Phi_eq base oz]
  rfl

/-- `X_integral_equal_T`, as `integralX` calls it. -/
theorem c100_xEqualT (base : NumLib) (oz : ℝ → List (ℝ × ℝ)) (p1 : ℤ) (E1 dE E2 D : ℝ) :
    xEqualT p1 1 E1 dE E2 D D = (fns base oz).xEqualT p1 E1 dE E2 D := by
  unfold xEqualT RTD.Fun.xEqualT
  simp only [mul_one, diffPhi_eq base oz, diff2Phi_eq base oz]
  rfl

theorem fold_sum {α : Type} (p : α → Prop) [DecidablePred p] (f : α → ℂ) : ∀ (l : List α) (s : ℂ),
    l.foldl (fun s n => if p n then s else s + f n) s = s + (l.map fun n => if p n then 0 else f n).sum
  | [], s => by simp
  | a :: l, s => by
    rw [List.foldl_cons, fold_sum p f l, List.map_cons, List.sum_cons]
    split_ifs <;> ring

/-- `D_integral`, as `integralD` calls it. -/
theorem c100_dOzaki (base : NumLib) (oz : ℝ → List (ℝ × ℝ)) (b : List (ℝ × ℝ)) (p2 : ℤ) (z1 z2 z3 T1 T2 mu1 mu2 D : ℝ) :
    dOzaki b 1 p2 z1 z2 z3 T1 T2 mu1 mu2 D D = (fns base oz).dOzaki b p2 z1 z2 z3 T1 T2 mu1 mu2 D := by
  unfold dOzaki RTD.Fun.dOzaki
  simp only
  rw [fold_sum (fun n : ℝ × ℝ => 1 / n.1 > (|D| + |D|) * 0.5 / T2), zero_add, polygamma_eq _ one_ne_zero]
  simp only [Complex.ofReal_one, one_mul, Complex.ofReal_intCast]
  have e : (0 - 8 * Real.pi * T1 * I : ℂ) = -8 * Real.pi * T1 * I := by ring
  rw [e]
  rfl

/-- `X_integral`, as `integralX` calls it. -/
theorem c100_xOzaki (base : NumLib) (oz : ℝ → List (ℝ × ℝ)) (b : List (ℝ × ℝ)) (p2 : ℤ) (z1 z2 z3 T1 T2 mu1 mu2 D : ℝ) :
    xOzaki b 1 p2 z1 z2 z3 T1 T2 mu1 mu2 D D = (fns base oz).xOzaki b p2 z1 z2 z3 T1 T2 mu1 mu2 D := by
  unfold xOzaki RTD.Fun.xOzaki
  simp only
  rw [fold_sum (fun n : ℝ × ℝ => 1 / n.1 > (|D| + |D|) * 0.5 / T2), zero_add]
  simp only [Complex.ofReal_one, one_mul, Complex.ofReal_intCast]
  rfl

/-- `Ozaki`. -/
theorem c100_ozaki (eigh : EighTri) (N : ℕ) : ozaki eigh N = Verif.ozaki eigh N := rfl

theorem pyInt_neg (x : ℝ) : VN2.pyInt (-x) = -VN2.pyInt x := by
  unfold VN2.pyInt
  rcases lt_trichotomy x 0 with h | rfl | h
  · rw [if_pos (by linarith), if_neg (by linarith), Int.floor_neg]
  · simp
  · rw [if_neg (by linarith), if_pos h.le, Int.ceil_neg]

/-- `BW_Ozaki`, if the number of poles is the root of a quadratic equation, as intended. -/
theorem c100_bw_partial (eigh : EighTri) {D : ℝ} (hD : 4 * 2.54647909 * (0.52325856 - D) ≤ 1.27324094 ^ 2) :
    bwOzaki eigh D = Verif.bwOzaki eigh D := by
  set disc : ℝ := 1.27324094 ^ 2 - 4 * 2.54647909 * (0.52325856 - D) with hdisc
  have hd : 0 ≤ disc := by linarith
  have e1 : (1.27324094 / 2.54647909) * (1.27324094 / 2.54647909) / 4 - (0.52325856 - D) / 2.54647909 =
      disc / (2 * 2.54647909) ^ 2 := by rw [hdisc]; ring
  have e2 : Real.sqrt (disc / (2 * 2.54647909) ^ 2) = Real.sqrt disc / (2 * 2.54647909) := by
    rw [Real.sqrt_div hd, Real.sqrt_sq (by norm_num)]
  have e3 : (1.27324094 / 2.54647909 / 2 - Real.sqrt disc / (2 * 2.54647909) : ℝ) =
      -((-1.27324094 + Real.sqrt disc) / (2 * 2.54647909)) := by ring
  have hb : bwCount D = VN2.pyInt ((-1.27324094 + Real.sqrt disc) / (2 * 2.54647909)) := by
    unfold bwCount
    simp only
    rw [if_neg (not_lt.mpr hd)]
  have hn : 0 ≤ bwCount D := by
    rw [hb]
    have hx : (-1 : ℝ) < (-1.27324094 + Real.sqrt disc) / (2 * 2.54647909) := by
      have := Real.sqrt_nonneg disc
      rw [lt_div_iff₀ (by norm_num)]
      linarith
    unfold VN2.pyInt
    split_ifs with h0
    · exact Int.floor_nonneg.mpr h0
    · have : (-1 : ℝ) < ⌈(-1.27324094 + Real.sqrt disc) / (2 * 2.54647909)⌉ := lt_of_lt_of_le hx (Int.le_ceil _)
      have : (-1 : Int) < ⌈(-1.27324094 + Real.sqrt disc) / (2 * 2.54647909)⌉ := by exact_mod_cast this
      omega
  unfold bwOzaki Verif.bwOzaki
  simp only
  rw [e1, if_neg (not_lt.mpr (by positivity)), e2, e3, pyInt_neg, ← hb, if_neg (by omega), c100_ozaki]
  congr 1
  omega

/-- For narrow bands the Python function gives one pole, and the compiled one raises an exception. -/
theorem c100_bw_false {eigh : EighTri} (h : EighTriOk eigh) : bwOzaki eigh 0 = .error .value ∧
    ∃ rows, Verif.bwOzaki eigh 0 = .ok rows ∧ 1 ≤ rows.length := by
  constructor
  · unfold bwOzaki
    simp only
    rw [if_pos (by norm_num)]
  · obtain ⟨_, _, _, _, h⟩ := c87_bw h 0
    exact h

/-! ### Phonons -/

/-- `FuncPauliElPh.eval`. -/
theorem c100_rate (B : PhBaths) (E : ℝ) (l : ℕ) : rate B E l = B.rate E l := rfl

/-- `Func1vNElPh.eval`. -/
theorem c100_1vN_elph (B : PhBaths) (quad : (ℝ → ℝ) → ℝ → ℝ → ℝ → ℝ) (itype : ℤ) (E : ℝ) (l : ℕ) :
    func1vNElPh B quad itype E l = B.func1vN quad itype E l := rfl

/-- The arguments at which RTD and 1vN evaluate the digamma function are in the half-plane. -/
example (x : ℝ) : ‖digamma (0.5 + I * x) - Complex.digamma (0.5 + I * x)‖ ≤ 1e-13 := c100_digamma (arg_re x)

/-- A band width of ten times the temperature. -/
example (eigh : EighTri) : bwOzaki eigh 10 = Verif.bwOzaki eigh 10 := c100_bw_partial eigh (by norm_num)

/-- A routine with the digamma function. -/
example (quad : ℝ → ℝ → ℝ → ℤ → ℝ) : ∃ a, func1vN quad 1 0 1 (-10) 10 1 100 = .ok a ∧
    ‖a.cur0 - (Verif.func1vN ⟨quad, fun x => (Complex.digamma (0.5 + I * x)).re⟩ 1 0 1 (-10) 10 1 100).cur0‖ ≤ 1e-13 := by
  obtain ⟨a, h, h', _⟩ := c100_1vN_partial ⟨quad, fun x => (Complex.digamma (0.5 + I * x)).re⟩ (fun _ => rfl) 1 0 1 (-10) 10
    (itype := 1) (by norm_num) (by norm_num) 100
  exact ⟨a, h, h'⟩

end CSpec

end Verif
