import Verif.Lemmas.SpinDiag

/-! The states of the multiplets from those with the lowest projection. -/

namespace Verif
open Verif.Spec Matrix

variable {n : Nat}

section
variable {H : Matrix (Occ n) (Occ n) ℂ} (hH : SpinConserving H)

include hH

theorem Spec.SpinConserving.minus : H * cM = cM * H := by
  have h := congrArg conjTranspose hH.spin
  rw [conjTranspose_mul, conjTranspose_mul, hH.herm, ← cM_eq] at h
  exact h.symm

theorem Spec.SpinConserving.square : H * cQ = cQ * H := by
  have e : (cQ : Matrix (Occ n) (Occ n) ℂ)
      = 2 • (cP * cM + cM * cP) + (cP * cM - cM * cP) * (cP * cM - cM * cP) := by
    unfold cQ cP cM spinSquare4
    rw [← plus_minus]
    ext i j
    simp only [Matrix.map_apply, ← map_cast_mul]
    rw [two_mul, two_smul]
    simp only [Matrix.add_apply, Matrix.mul_apply, Matrix.sub_apply, Matrix.map_apply]
    push_cast
    rfl
  have a : H * (cP * cM) = cP * cM * H := by
    rw [← Matrix.mul_assoc, hH.spin, Matrix.mul_assoc, hH.minus, Matrix.mul_assoc]
  have b : H * (cM * cP) = cM * cP * H := by
    rw [← Matrix.mul_assoc, hH.minus, Matrix.mul_assoc, hH.spin, Matrix.mul_assoc]
  have d : H * (cP * cM - cM * cP) = (cP * cM - cM * cP) * H := by
    rw [Matrix.mul_sub, Matrix.sub_mul, a, b]
  rw [e, Matrix.mul_add, Matrix.add_mul, Matrix.mul_smul, Matrix.smul_mul, Matrix.mul_add, Matrix.add_mul,
    a, b, ← Matrix.mul_assoc H (cP * cM - cM * cP), d, Matrix.mul_assoc (cP * cM - cM * cP) H, d,
    ← Matrix.mul_assoc (cP * cM - cM * cP) (cP * cM - cM * cP)]

/-- The Hamiltonian does not change the spin projection. -/
theorem Spec.SpinConserving.sz (hn : n % 2 = 0) {s' s : Occ n} (h : H s' s ≠ 0) :
    twoSz n (ofOcc s') = twoSz n (ofOcc s) := by
  have hz : H * (spinZ2.map fun x => ((x : ℤ) : ℂ)) = (spinZ2.map fun x => ((x : ℤ) : ℂ)) * H := by
    have e : ((spinZ2 : Matrix (Occ n) (Occ n) ℤ).map fun x => ((x : ℤ) : ℂ)) = cP * cM - cM * cP := by
      rw [← plus_minus]
      unfold cP cM
      rw [← map_cast_mul, ← map_cast_mul]
      ext i j
      simp only [Matrix.map_apply, Matrix.sub_apply]
      push_cast
      rfl
    rw [e, Matrix.mul_sub, Matrix.sub_mul, ← Matrix.mul_assoc, hH.spin, Matrix.mul_assoc, hH.minus,
      ← Matrix.mul_assoc, ← Matrix.mul_assoc H, hH.minus, Matrix.mul_assoc cM, hH.spin, ← Matrix.mul_assoc]
  have := congrFun (congrFun hz s') s
  rw [Matrix.mul_apply, Matrix.mul_apply] at this
  simp only [Matrix.map_apply, spinZ2_apply hn] at this
  rw [Finset.sum_eq_single s, Finset.sum_eq_single s', if_pos rfl, if_pos rfl, mul_comm] at this
  · have := mul_right_cancel₀ h this
    exact_mod_cast this.symm
  · intro u _ hu
    rw [if_neg (Ne.symm hu), Int.cast_zero, zero_mul]
  · intro hh; exact absurd (Finset.mem_univ _) hh
  · intro u _ hu
    rw [if_neg hu, Int.cast_zero, mul_zero]
  · intro hh; exact absurd (Finset.mem_univ _) hh

theorem Spec.SpinConserving.inSec (hn : n % 2 = 0) {c : Nat} {z : Int} {x : Occ n → ℂ} (h : InSec c z x) :
    InSec c z (H *ᵥ x) := by
  intro s hs
  obtain ⟨u, _, hu⟩ := Finset.exists_ne_zero_of_sum_ne_zero hs
  have h1 := h u (right_ne_zero_of_mul hu)
  have h2 : H s u ≠ 0 := left_ne_zero_of_mul hu
  exact ⟨by rw [hH.charge _ _ h2, h1.1], by rw [hH.sz hn h2, h1.2]⟩

theorem Spec.SpinConserving.hasSpin {q : Int} {x : Occ n → ℂ} (h : HasSpin q x) : HasSpin q (H *ᵥ x) := by
  unfold HasSpin at *
  rw [Matrix.mulVec_mulVec, ← hH.square, ← Matrix.mulVec_mulVec, h, Matrix.mulVec_smul]

theorem Spec.SpinConserving.raise (q z : Int) (x : Occ n → ℂ) :
    H *ᵥ Verif.raise q z x = Verif.raise q z (H *ᵥ x) := by
  unfold Verif.raise
  rw [Matrix.mulVec_smul, Matrix.mulVec_mulVec, hH.spin, ← Matrix.mulVec_mulVec]

theorem Spec.SpinConserving.lower (q z : Int) (x : Occ n → ℂ) :
    H *ᵥ Verif.lower q z x = Verif.lower q z (H *ᵥ x) := by
  unfold Verif.lower
  rw [Matrix.mulVec_smul, Matrix.mulVec_mulVec, hH.minus, ← Matrix.mulVec_mulVec]

end

theorem raise_smul (q z : Int) (a : ℂ) (x : Occ n → ℂ) : raise q z (a • x) = a • raise q z x := by
  unfold raise
  rw [Matrix.mulVec_smul, smul_comm]

theorem lower_smul (q z : Int) (a : ℂ) (x : Occ n → ℂ) : lower q z (a • x) = a • lower q z x := by
  unfold lower
  rw [Matrix.mulVec_smul, smul_comm]

/-- Orthonormal common eigenvectors of charge, projection, total spin and energy. -/
structure Joint (H : Matrix (Occ n) (Occ n) ℂ) (c : Nat) (z q : Int) (m : Nat) (e : Nat → ℝ)
    (x : Nat → Occ n → ℂ) : Prop where
  sec : ∀ i, i < m → InSec c z (x i)
  spin : ∀ i, i < m → HasSpin q (x i)
  eig : ∀ i, i < m → H *ᵥ x i = ((e i : ℝ) : ℂ) • x i
  orth : ∀ i j, i < m → j < m → ip (x i) (x j) = if i = j then 1 else 0

variable {H : Matrix (Occ n) (Occ n) ℂ} {c : Nat} {z q : Int} {m : Nat} {e : Nat → ℝ} {x : Nat → Occ n → ℂ}

theorem Joint.raise (hn : n % 2 = 0) (hH : SpinConserving H) (h : Joint H c z q m e x) (h1 : -q ≤ z)
    (h2 : z + 2 ≤ q) : Joint H c (z + 2) q m e fun i => raise q z (x i) := by
  refine ⟨fun i hi => ((h.sec i hi).raise).smul _, fun i hi => ((h.spin i hi).raise).smul _, ?_, ?_⟩
  · intro i hi
    rw [hH.raise, h.eig i hi, raise_smul]
  · intro i j hi hj
    rw [ip_raise, lower_raise hn (h.sec j hj) (h.spin j hj) h1 h2, h.orth i j hi hj]

theorem Joint.lower (hn : n % 2 = 0) (hH : SpinConserving H) (h : Joint H c (z + 2) q m e x) (h1 : -q ≤ z)
    (h2 : z + 2 ≤ q) : Joint H c z q m e fun i => lower q z (x i) := by
  refine ⟨fun i hi => ?_, fun i hi => ((h.spin i hi).lower).smul _, ?_, ?_⟩
  · have := ((h.sec i hi).lower).smul (2 / ((lad q z : ℝ) : ℂ))
    rwa [add_sub_cancel_right] at this
  · intro i hi
    rw [hH.lower, h.eig i hi, lower_smul]
  · intro i j hi hj
    rw [ip_lower, raise_lower hn (h.sec j hj) (h.spin j hj) h1 h2, h.orth i j hi hj]

noncomputable section

/-- `r` times raised from, or lowered from, the projection `z`. -/
def upN (q z : Int) (x : Occ n → ℂ) : Nat → Occ n → ℂ
  | 0 => x
  | r + 1 => raise q (z + 2 * r) (upN q z x r)

def dnN (q z : Int) (x : Occ n → ℂ) : Nat → Occ n → ℂ
  | 0 => x
  | r + 1 => lower q (z - 2 * (r + 1)) (dnN q z x r)

/-- The state at position `k` of a multiplet with the state `x` at position `k0`; the projection there is
`z`. -/
def chain (q z : Int) (k0 : Nat) (x : Occ n → ℂ) (k : Nat) : Occ n → ℂ :=
  if k0 ≤ k then upN q z x (k - k0) else dnN q z x (k0 - k)

end

theorem upN_joint (hn : n % 2 = 0) (hH : SpinConserving H) (h : Joint H c z q m e x) (h1 : -q ≤ z) :
    ∀ r : Nat, z + 2 * r ≤ q → Joint H c (z + 2 * r) q m e fun i => upN q z (x i) r
  | 0, _ => by simpa [upN] using h
  | r + 1, hr => by
    have := (upN_joint hn hH h h1 r (by push_cast at hr; omega)).raise hn hH (by omega)
      (by push_cast at hr; omega)
    rw [show z + 2 * ((r + 1 : Nat) : Int) = z + 2 * r + 2 by push_cast; ring]
    exact this

theorem dnN_joint (hn : n % 2 = 0) (hH : SpinConserving H) (h : Joint H c z q m e x) (h2 : z ≤ q) :
    ∀ r : Nat, -q ≤ z - 2 * r → Joint H c (z - 2 * r) q m e fun i => dnN q z (x i) r
  | 0, _ => by simpa [dnN] using h
  | r + 1, hr => by
    have ih := dnN_joint hn hH h h2 r (by push_cast at hr; omega)
    rw [show z - 2 * (r : Int) = (z - 2 * (r + 1)) + 2 by ring] at ih
    have := ih.lower hn hH (by push_cast at hr; omega) (by omega)
    rw [show z - 2 * ((r + 1 : Nat) : Int) = z - 2 * (r + 1) by push_cast; ring]
    exact this

theorem chain_joint (hn : n % 2 = 0) (hH : SpinConserving H) {k0 : Nat}
    (h : Joint H c z q m e x) (k : Nat) (h1 : -q ≤ z) (h2 : z ≤ q)
    (h3 : -q ≤ z - 2 * k0 + 2 * k) (h4 : z - 2 * k0 + 2 * k ≤ q) :
    Joint H c (z - 2 * k0 + 2 * k) q m e fun i => chain q z k0 (x i) k := by
  unfold chain
  by_cases hk : k0 ≤ k
  · simp only [if_pos hk]
    have := upN_joint hn hH h h1 (k - k0) (by omega)
    rwa [show z + 2 * ((k - k0 : Nat) : Int) = z - 2 * k0 + 2 * k by omega] at this
  · simp only [if_neg hk]
    have := dnN_joint hn hH h h2 (k0 - k) (by omega)
    rwa [show z - 2 * ((k0 - k : Nat) : Int) = z - 2 * k0 + 2 * k by omega] at this

/-- Neighbouring states. -/
theorem chain_step (hn : n % 2 = 0) (hH : SpinConserving H) {k0 : Nat}
    (h : Joint H c z q m e x) (k i : Nat) (hi : i < m) (h1 : -q ≤ z) (h2 : z ≤ q)
    (h3 : -q ≤ z - 2 * k0 + 2 * k) (h4 : z - 2 * k0 + 2 * (k + 1) ≤ q) :
    chain q z k0 (x i) (k + 1) = raise q (z - 2 * k0 + 2 * k) (chain q z k0 (x i) k) := by
  by_cases hk : k0 ≤ k
  · unfold chain
    rw [if_pos hk, if_pos (by omega), show k + 1 - k0 = (k - k0) + 1 by omega]
    show raise q (z + 2 * ((k - k0 : Nat) : Int)) _ = _
    rw [show z + 2 * ((k - k0 : Nat) : Int) = z - 2 * k0 + 2 * k by omega]
  · have e : chain q z k0 (x i) k = lower q (z - 2 * k0 + 2 * k) (chain q z k0 (x i) (k + 1)) := by
      have e1 : chain q z k0 (x i) (k + 1) = dnN q z (x i) (k0 - k - 1) := by
        unfold chain
        by_cases hk' : k0 ≤ k + 1
        · rw [if_pos hk', show k + 1 - k0 = 0 by omega, show k0 - k - 1 = 0 by omega]
          rfl
        · rw [if_neg hk', show k0 - (k + 1) = k0 - k - 1 by omega]
      rw [e1]
      unfold chain
      rw [if_neg hk]
      obtain ⟨r, hr⟩ : ∃ r, k0 - k = r + 1 := ⟨k0 - k - 1, by omega⟩
      rw [hr]
      show lower q (z - 2 * ((r : Int) + 1)) (dnN q z (x i) r) = _
      rw [show z - 2 * ((r : Int) + 1) = z - 2 * k0 + 2 * k by omega]
      rfl
    rw [e]
    have hj := chain_joint hn hH (k0 := k0) h (k + 1) h1 h2 (by push_cast; omega) (by push_cast; exact h4)
    have hs := hj.sec i hi
    rw [show z - 2 * (k0 : Int) + 2 * ((k + 1 : Nat) : Int) = z - 2 * k0 + 2 * k + 2 by push_cast; ring] at hs
    exact (raise_lower hn hs (hj.spin i hi) h3 (by omega)).symm

end Verif
