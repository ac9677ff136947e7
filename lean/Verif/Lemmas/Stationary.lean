import Mathlib.LinearAlgebra.Matrix.ToLinearEquiv
import Mathlib.Data.Real.Basic
import Mathlib.Tactic.Linarith
import Mathlib.Algebra.Order.BigOperators.Group.Finset
import Mathlib.Algebra.BigOperators.Fin
import Mathlib.Algebra.BigOperators.Field

/-! Stationary vectors of rate matrices. -/

namespace Verif

open Finset

/-- A matrix with nonnegative off-diagonal entries and vanishing column sums annihilates a
probability distribution. -/
theorem exists_stationary {n : Nat} (hn : 0 < n) (A : Nat → Nat → ℝ)
    (hcol : ∀ j, j < n → ∑ i ∈ range n, A i j = 0)
    (hoff : ∀ i j, i < n → j < n → i ≠ j → 0 ≤ A i j) :
    ∃ p : Nat → ℝ, (∀ i, i < n → 0 ≤ p i) ∧ ∑ i ∈ range n, p i = 1 ∧
      ∀ i, i < n → ∑ j ∈ range n, A i j * p j = 0 := by
  let B : Matrix (Fin n) (Fin n) ℝ := fun i j => A i j
  have hB : Matrix.vecMul (fun _ => 1) B = 0 := by
    funext j
    simp only [Matrix.vecMul, dotProduct, one_mul, Pi.zero_apply, B]
    rw [Fin.sum_univ_eq_sum_range (fun i => A i j)]
    exact hcol j j.2
  have hdet : B.det = 0 := by
    apply Matrix.exists_vecMul_eq_zero_iff.1
    exact ⟨fun _ => 1, by intro e; have := congrFun e ⟨0, hn⟩; simp at this, hB⟩
  obtain ⟨w, hw0, hw⟩ := Matrix.exists_mulVec_eq_zero_iff.2 hdet
  -- absolute values
  have hrow : ∀ i : Fin n, ∑ j, B i j * w j = 0 := fun i => congrFun hw i
  have hge : ∀ i : Fin n, 0 ≤ ∑ j, B i j * |w j| := by
    intro i
    have h1 : B i i * w i = -∑ j ∈ univ.erase i, B i j * w j := by
      have := hrow i
      rw [← add_sum_erase _ _ (mem_univ i)] at this
      linarith
    have h2 : |B i i| * |w i| ≤ ∑ j ∈ univ.erase i, B i j * |w j| := by
      rw [← abs_mul, h1, abs_neg]
      refine (abs_sum_le_sum_abs _ _).trans (sum_le_sum fun j hj => ?_)
      rw [abs_mul, abs_of_nonneg]
      exact hoff i j i.2 j.2 (fun e => (mem_erase.1 hj).1 (Fin.ext e.symm))
    rw [← add_sum_erase _ _ (mem_univ i)]
    have h3 : -(|B i i| * |w i|) ≤ B i i * |w i| := by
      rw [← neg_mul]
      exact mul_le_mul_of_nonneg_right (neg_abs_le _) (abs_nonneg _)
    linarith
  have hsum : ∑ i : Fin n, ∑ j, B i j * |w j| = 0 := by
    rw [sum_comm]
    apply sum_eq_zero
    intro j _
    rw [← sum_mul]
    have : ∑ i : Fin n, B i j = 0 := by
      have := congrFun hB j
      simpa [Matrix.vecMul, dotProduct] using this
    rw [this, zero_mul]
  have hz : ∀ i : Fin n, ∑ j, B i j * |w j| = 0 := by
    intro i
    exact (sum_eq_zero_iff_of_nonneg (fun i _ => hge i)).1 hsum i (mem_univ i)
  have hpos : 0 < ∑ j : Fin n, |w j| := by
    obtain ⟨k, hk⟩ : ∃ k, w k ≠ 0 := by
      by_contra hh
      push Not at hh
      exact hw0 (funext hh)
    exact lt_of_lt_of_le (abs_pos.2 hk)
      (single_le_sum (f := fun j => |w j|) (fun j _ => abs_nonneg _) (mem_univ k))
  refine ⟨fun i => if hi : i < n then |w ⟨i, hi⟩| / ∑ j : Fin n, |w j| else 0, ?_, ?_, ?_⟩
  · intro i hi
    simp only [hi, dif_pos]
    exact div_nonneg (abs_nonneg _) hpos.le
  · rw [← Fin.sum_univ_eq_sum_range]
    simp only [Fin.is_lt, dif_pos, Fin.eta]
    rw [← sum_div, div_self hpos.ne']
  · intro i hi
    rw [← Fin.sum_univ_eq_sum_range (fun j => A i j * _)]
    simp only [Fin.is_lt, dif_pos, Fin.eta]
    have := hz ⟨i, hi⟩
    simp only [B] at this
    simp only [← mul_div_assoc]
    rw [← sum_div, this, zero_div]

end Verif
