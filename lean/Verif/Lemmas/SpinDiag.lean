import Verif.Spec.SpinVec
import Verif.Props.SpinOps
import Mathlib.Analysis.SpecialFunctions.Sqrt

/-! Vectors with definite total spin: raising and lowering. -/

namespace Verif
open Verif.Spec Matrix

variable {n : Nat}

noncomputable section

theorem map_cast_mul (A B : Matrix (Occ n) (Occ n) ℤ) :
    ((A * B).map fun x => (x : ℂ)) = (A.map fun x => (x : ℂ)) * B.map fun x => (x : ℂ) :=
  Matrix.map_mul (f := Int.castRingHom ℂ)

theorem cM_eq : (cM : Matrix (Occ n) (Occ n) ℂ) = cPᴴ := by
  ext s' s
  unfold cM cP
  rw [Matrix.conjTranspose_apply, Matrix.map_apply, Matrix.map_apply, ← minus_transpose,
    Matrix.transpose_apply]
  simp

theorem cP_eq : (cP : Matrix (Occ n) (Occ n) ℂ) = cMᴴ := by
  rw [cM_eq, Matrix.conjTranspose_conjTranspose]

theorem cQ_cP : (cQ * cP : Matrix (Occ n) (Occ n) ℂ) = cP * cQ := by
  unfold cQ cP
  rw [← map_cast_mul, ← map_cast_mul, square_plus]

theorem cQ_cM : (cQ * cM : Matrix (Occ n) (Occ n) ℂ) = cM * cQ := by
  unfold cQ cM
  rw [← map_cast_mul, ← map_cast_mul, square_minus]

theorem cQ_herm : (cQ : Matrix (Occ n) (Occ n) ℂ)ᴴ = cQ := by
  ext s' s
  rw [Matrix.conjTranspose_apply]
  unfold cQ
  have : (spinSquare4 : Matrix (Occ n) (Occ n) ℤ) s s' = spinSquare4 s' s :=
    congrFun (congrFun square_transpose s') s
  rw [Matrix.map_apply, Matrix.map_apply, this]
  simp

theorem Spec.InSec.zero {c : Nat} {z : Int} : InSec c z (0 : Occ n → ℂ) := fun _ h => absurd rfl h

theorem Spec.InSec.smul {c : Nat} {z : Int} {x : Occ n → ℂ} (h : InSec c z x) (a : ℂ) : InSec c z (a • x) :=
  fun s hs => h s (right_ne_zero_of_mul (by simpa using hs))

theorem Spec.InSec.sum {ι : Type} {c : Nat} {z : Int} (I : Finset ι) {x : ι → Occ n → ℂ}
    (h : ∀ i ∈ I, InSec c z (x i)) : InSec c z (∑ i ∈ I, x i) := by
  intro s hs
  rw [Finset.sum_apply] at hs
  obtain ⟨i, hi, hx⟩ := Finset.exists_ne_zero_of_sum_ne_zero hs
  exact h i hi s hx

theorem Spec.InSec.raise {c : Nat} {z : Int} {x : Occ n → ℂ} (h : InSec c z x) :
    InSec c (z + 2) (cP *ᵥ x) := by
  intro s hs
  obtain ⟨u, _, hu⟩ := Finset.exists_ne_zero_of_sum_ne_zero hs
  have h1 := h u (right_ne_zero_of_mul hu)
  have h2 : (spinPlus : Matrix (Occ n) (Occ n) ℤ) s u ≠ 0 := by
    intro h0
    exact left_ne_zero_of_mul hu (by show ((spinPlus s u : ℤ) : ℂ) = 0; rw [h0, Int.cast_zero])
  have h3 := spinPlus_support h2
  exact ⟨by rw [h3.1, h1.1], by rw [h3.2, h1.2]⟩

theorem Spec.InSec.lower {c : Nat} {z : Int} {x : Occ n → ℂ} (h : InSec c z x) :
    InSec c (z - 2) (cM *ᵥ x) := by
  intro s hs
  obtain ⟨u, _, hu⟩ := Finset.exists_ne_zero_of_sum_ne_zero hs
  have h1 := h u (right_ne_zero_of_mul hu)
  have h2 : (spinMinus : Matrix (Occ n) (Occ n) ℤ) s u ≠ 0 := by
    intro h0
    exact left_ne_zero_of_mul hu (by show ((spinMinus s u : ℤ) : ℂ) = 0; rw [h0, Int.cast_zero])
  have h3 := spinMinus_support h2
  exact ⟨by rw [h3.1, h1.1], by rw [h3.2, h1.2]⟩

/-- `4 S⁻S⁺ = 4 S² - 2 Sᶻ (2 Sᶻ + 2)`. -/
theorem Spec.InSec.down_up (hn : n % 2 = 0) {c : Nat} {z : Int} {x : Occ n → ℂ} (h : InSec c z x) :
    (4 : ℂ) • (cM *ᵥ (cP *ᵥ x)) = cQ *ᵥ x - ((z * (z + 2) : ℤ) : ℂ) • x := by
  rw [Matrix.mulVec_mulVec]
  have e : (cM * cP : Matrix (Occ n) (Occ n) ℂ) = (spinMinus * spinPlus).map fun x => (x : ℂ) := by
    rw [map_cast_mul]; rfl
  rw [e]
  ext s
  rw [Pi.smul_apply, Pi.sub_apply, Pi.smul_apply, smul_eq_mul, smul_eq_mul]
  unfold Matrix.mulVec dotProduct
  rw [Finset.mul_sum, eq_sub_iff_add_eq]
  have e2 : ((z * (z + 2) : ℤ) : ℂ) * x s
      = ∑ u, (((if s = u then twoSz n (ofOcc u) * (twoSz n (ofOcc u) + 2) else 0 : ℤ)) : ℂ) * x u := by
    rw [Finset.sum_eq_single s]
    · rw [if_pos rfl]
      by_cases hx : x s = 0
      · rw [hx, mul_zero, mul_zero]
      · rw [(h s hx).2]
    · intro u _ hu
      rw [if_neg (Ne.symm hu), Int.cast_zero, zero_mul]
    · intro hh; exact absurd (Finset.mem_univ _) hh
  rw [e2, ← Finset.sum_add_distrib]
  refine Finset.sum_congr rfl fun u _ => ?_
  show 4 * ((((spinMinus * spinPlus : Matrix (Occ n) (Occ n) ℤ) s u : ℤ) : ℂ) * x u) + _
    = ((spinSquare4 s u : ℤ) : ℂ) * x u
  rw [square_eq'_apply hn s u]
  push_cast
  ring

/-- `4 S⁺S⁻ = 4 S² - 2 Sᶻ (2 Sᶻ - 2)`. -/
theorem Spec.InSec.up_down (hn : n % 2 = 0) {c : Nat} {z : Int} {x : Occ n → ℂ} (h : InSec c z x) :
    (4 : ℂ) • (cP *ᵥ (cM *ᵥ x)) = cQ *ᵥ x - ((z * (z - 2) : ℤ) : ℂ) • x := by
  rw [Matrix.mulVec_mulVec]
  have e : (cP * cM : Matrix (Occ n) (Occ n) ℂ) = (spinPlus * spinMinus).map fun x => (x : ℂ) := by
    rw [map_cast_mul]; rfl
  rw [e]
  ext s
  rw [Pi.smul_apply, Pi.sub_apply, Pi.smul_apply, smul_eq_mul, smul_eq_mul]
  unfold Matrix.mulVec dotProduct
  rw [Finset.mul_sum, eq_sub_iff_add_eq]
  have e2 : ((z * (z - 2) : ℤ) : ℂ) * x s
      = ∑ u, (((if s = u then twoSz n (ofOcc u) * (twoSz n (ofOcc u) - 2) else 0 : ℤ)) : ℂ) * x u := by
    rw [Finset.sum_eq_single s]
    · rw [if_pos rfl]
      by_cases hx : x s = 0
      · rw [hx, mul_zero, mul_zero]
      · rw [(h s hx).2]
    · intro u _ hu
      rw [if_neg (Ne.symm hu), Int.cast_zero, zero_mul]
    · intro hh; exact absurd (Finset.mem_univ _) hh
  rw [e2, ← Finset.sum_add_distrib]
  refine Finset.sum_congr rfl fun u _ => ?_
  show 4 * ((((spinPlus * spinMinus : Matrix (Occ n) (Occ n) ℤ) s u : ℤ) : ℂ) * x u) + _
    = ((spinSquare4 s u : ℤ) : ℂ) * x u
  rw [square_eq_apply hn s u]
  push_cast
  ring

theorem Spec.HasSpin.smul {q : Int} {x : Occ n → ℂ} (h : HasSpin q x) (a : ℂ) : HasSpin q (a • x) := by
  unfold HasSpin at *
  rw [Matrix.mulVec_smul, h, smul_comm]

theorem Spec.HasSpin.raise {q : Int} {x : Occ n → ℂ} (h : HasSpin q x) : HasSpin q (cP *ᵥ x) := by
  unfold HasSpin at *
  rw [Matrix.mulVec_mulVec, cQ_cP, ← Matrix.mulVec_mulVec, h, Matrix.mulVec_smul]

theorem Spec.HasSpin.lower {q : Int} {x : Occ n → ℂ} (h : HasSpin q x) : HasSpin q (cM *ᵥ x) := by
  unfold HasSpin at *
  rw [Matrix.mulVec_mulVec, cQ_cM, ← Matrix.mulVec_mulVec, h, Matrix.mulVec_smul]

theorem down_up_spin (hn : n % 2 = 0) {c : Nat} {z q : Int} {x : Occ n → ℂ} (h : InSec c z x)
    (hq : HasSpin q x) : cM *ᵥ (cP *ᵥ x) = (((q * (q + 2) - z * (z + 2) : ℤ) : ℂ) / 4) • x := by
  have := h.down_up hn
  rw [hq, ← sub_smul, ← Int.cast_sub] at this
  have h4 : cM *ᵥ (cP *ᵥ x) = (4 : ℂ)⁻¹ • ((4 : ℂ) • (cM *ᵥ (cP *ᵥ x))) := by
    rw [smul_smul, inv_mul_cancel₀ (by norm_num), one_smul]
  rw [h4, this, smul_smul, inv_mul_eq_div]

theorem up_down_spin (hn : n % 2 = 0) {c : Nat} {z q : Int} {x : Occ n → ℂ} (h : InSec c z x)
    (hq : HasSpin q x) : cP *ᵥ (cM *ᵥ x) = (((q * (q + 2) - z * (z - 2) : ℤ) : ℂ) / 4) • x := by
  have := h.up_down hn
  rw [hq, ← sub_smul, ← Int.cast_sub] at this
  have h4 : cP *ᵥ (cM *ᵥ x) = (4 : ℂ)⁻¹ • ((4 : ℂ) • (cP *ᵥ (cM *ᵥ x))) := by
    rw [smul_smul, inv_mul_cancel₀ (by norm_num), one_smul]
  rw [h4, this, smul_smul, inv_mul_eq_div]

theorem ip_adj (A : Matrix (Occ n) (Occ n) ℂ) (x y : Occ n → ℂ) : ip (A *ᵥ x) y = ip x (Aᴴ *ᵥ y) := by
  unfold ip
  rw [Matrix.star_mulVec, Matrix.dotProduct_mulVec]

theorem ip_smul_right (a : ℂ) (x y : Occ n → ℂ) : ip x (a • y) = a * ip x y := by
  unfold ip; rw [dotProduct_smul, smul_eq_mul]

theorem ip_smul_left (a : ℂ) (x y : Occ n → ℂ) : ip (a • x) y = starRingEnd ℂ a * ip x y := by
  unfold ip
  rw [star_smul, smul_dotProduct, smul_eq_mul]
  rfl

theorem ip_eq_sum (x y : Occ n → ℂ) : ip x y = ∑ s, starRingEnd ℂ (x s) * y s := rfl

theorem ip_self_eq_zero {x : Occ n → ℂ} (h : ip x x = 0) : x = 0 := by
  rw [ip_eq_sum] at h
  have e : ∀ s, starRingEnd ℂ (x s) * x s = ((Complex.normSq (x s) : ℝ) : ℂ) := fun s => by
    rw [mul_comm, Complex.mul_conj]
  simp only [e] at h
  rw [← Complex.ofReal_sum, Complex.ofReal_eq_zero,
    Finset.sum_eq_zero_iff_of_nonneg (fun s _ => Complex.normSq_nonneg _)] at h
  ext s
  exact Complex.normSq_eq_zero.1 (h s (Finset.mem_univ _))

theorem ip_sec_ne {c c' : Nat} {z z' : Int} {x y : Occ n → ℂ} (hx : InSec c z x) (hy : InSec c' z' y)
    (h : c ≠ c' ∨ z ≠ z') : ip x y = 0 := by
  rw [ip_eq_sum]
  refine Finset.sum_eq_zero fun s _ => ?_
  by_contra hne
  have h1 := hx s (fun h0 => left_ne_zero_of_mul hne (by rw [h0, map_zero]))
  have h2 := hy s (right_ne_zero_of_mul hne)
  rcases h with h | h
  · exact h (h1.1.symm.trans h2.1)
  · exact h (h1.2.symm.trans h2.2)

theorem ip_spin_ne {q q' : Int} {x y : Occ n → ℂ} (hx : HasSpin q x) (hy : HasSpin q' y)
    (h0 : 0 ≤ q) (h0' : 0 ≤ q') (h : q ≠ q') : ip x y = 0 := by
  have e := ip_adj cQ x y
  rw [cQ_herm, hx, hy, ip_smul_left, ip_smul_right] at e
  have : (((q * (q + 2) : ℤ) : ℂ) - ((q' * (q' + 2) : ℤ) : ℂ)) * ip x y = 0 := by
    rw [sub_mul, sub_eq_zero, ← e, map_intCast]
  rcases mul_eq_zero.1 this with h1 | h1
  · exfalso
    rw [← Int.cast_sub, Int.cast_eq_zero] at h1
    have : (q - q') * (q + q' + 2) = 0 := by rw [← h1]; ring
    rcases mul_eq_zero.1 this with h2 | h2 <;> omega
  · exact h1

/-- The norm of `2 S⁺ x` for `x` with the projection `z` and total spin `q`. -/
def lad (q z : Int) : ℝ := Real.sqrt ((q * (q + 2) - z * (z + 2) : ℤ) : ℝ)

theorem lad_pos {q z : Int} (h1 : -q ≤ z) (h2 : z + 2 ≤ q) : 0 < lad q z := by
  unfold lad
  rw [Real.sqrt_pos, Int.cast_pos]
  nlinarith

theorem lad_sq {q z : Int} (h1 : -q ≤ z) (h2 : z + 2 ≤ q) :
    ((lad q z : ℝ) : ℂ) * (lad q z : ℝ) = ((q * (q + 2) - z * (z + 2) : ℤ) : ℂ) := by
  rw [← Complex.ofReal_mul]
  unfold lad
  rw [Real.mul_self_sqrt]
  · push_cast; rfl
  · exact_mod_cast (by nlinarith : (0 : ℤ) ≤ q * (q + 2) - z * (z + 2))

theorem lad_ne {q z : Int} (h1 : -q ≤ z) (h2 : z + 2 ≤ q) : ((lad q z : ℝ) : ℂ) ≠ 0 := by
  exact_mod_cast (lad_pos h1 h2).ne'

/-- Normalised raising and lowering between the projections `z` and `z + 2`. -/
def raise (q z : Int) (x : Occ n → ℂ) : Occ n → ℂ := (2 / ((lad q z : ℝ) : ℂ)) • (cP *ᵥ x)
def lower (q z : Int) (x : Occ n → ℂ) : Occ n → ℂ := (2 / ((lad q z : ℝ) : ℂ)) • (cM *ᵥ x)

theorem lower_raise (hn : n % 2 = 0) {c : Nat} {z q : Int} {x : Occ n → ℂ} (h : InSec c z x)
    (hq : HasSpin q x) (h1 : -q ≤ z) (h2 : z + 2 ≤ q) : lower q z (raise q z x) = x := by
  unfold lower raise
  rw [Matrix.mulVec_smul, down_up_spin hn h hq, smul_smul, smul_smul, ← lad_sq h1 h2]
  have := lad_ne h1 h2
  rw [show (2 / ((lad q z : ℝ) : ℂ)) * (2 / ((lad q z : ℝ) : ℂ)) *
    (((lad q z : ℝ) : ℂ) * (lad q z : ℝ) / 4) = 1 by field_simp; norm_num, one_smul]

theorem raise_lower (hn : n % 2 = 0) {c : Nat} {z q : Int} {x : Occ n → ℂ} (h : InSec c (z + 2) x)
    (hq : HasSpin q x) (h1 : -q ≤ z) (h2 : z + 2 ≤ q) : raise q z (lower q z x) = x := by
  unfold lower raise
  rw [Matrix.mulVec_smul, up_down_spin hn h hq, smul_smul, smul_smul,
    show (z + 2) * (z + 2 - 2) = z * (z + 2) by ring, ← lad_sq h1 h2]
  have := lad_ne h1 h2
  rw [show (2 / ((lad q z : ℝ) : ℂ)) * (2 / ((lad q z : ℝ) : ℂ)) *
    (((lad q z : ℝ) : ℂ) * (lad q z : ℝ) / 4) = 1 by field_simp; norm_num, one_smul]

theorem ip_raise (q z : Int) (x y : Occ n → ℂ) : ip (raise q z x) y = ip x (lower q z y) := by
  unfold raise lower
  rw [ip_smul_left, ip_smul_right, ip_adj, ← cM_eq, map_div₀, map_ofNat, Complex.conj_ofReal]

theorem ip_lower (q z : Int) (x y : Occ n → ℂ) : ip (lower q z x) y = ip x (raise q z y) := by
  unfold raise lower
  rw [ip_smul_left, ip_smul_right, ip_adj, ← cP_eq, map_div₀, map_ofNat, Complex.conj_ofReal]

/-- The highest state of a multiplet. -/
theorem raise_top (hn : n % 2 = 0) {c : Nat} {q : Int} {x : Occ n → ℂ} (h : InSec c q x)
    (hq : HasSpin q x) : cP *ᵥ x = 0 := by
  apply ip_self_eq_zero
  rw [ip_adj, ← cM_eq, down_up_spin hn h hq, sub_self, ip_smul_right]
  simp

/-- The lowest state of a multiplet. -/
theorem lower_bottom (hn : n % 2 = 0) {c : Nat} {q : Int} {x : Occ n → ℂ} (h : InSec c (-q) x)
    (hq : HasSpin q x) : cM *ᵥ x = 0 := by
  apply ip_self_eq_zero
  rw [ip_adj, ← cP_eq, up_down_spin hn h hq, show -q * (-q - 2) = q * (q + 2) by ring, sub_self,
    ip_smul_right]
  simp

end

end Verif
