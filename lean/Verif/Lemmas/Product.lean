import Mathlib.Algebra.BigOperators.Ring.Finset
import Mathlib.Algebra.BigOperators.Group.Finset.Sigma
import Mathlib.Data.Real.Basic
import Mathlib.Tactic.Ring

/-! Products of independent probabilities. -/

namespace Verif

open Finset

theorem sum_powerset_prod (s : Finset Nat) (f g : Nat → ℝ) :
    ∑ S ∈ s.powerset, ∏ i ∈ s, (if i ∈ S then f i else g i) = ∏ i ∈ s, (f i + g i) := by
  rw [prod_add]
  refine sum_congr rfl fun S hS => ?_
  have hS := mem_powerset.1 hS
  rw [← prod_sdiff hS, mul_comm]
  congr 1
  · exact prod_congr rfl fun i hi => if_pos hi
  · exact prod_congr rfl fun i hi => if_neg (mem_sdiff.1 hi).2

theorem sum_powerset_one (s : Finset Nat) (n : Nat → ℝ) :
    ∑ S ∈ s.powerset, ∏ i ∈ s, (if i ∈ S then n i else 1 - n i) = 1 := by
  rw [sum_powerset_prod]
  exact prod_eq_one fun i _ => by ring

theorem prod_out {s S : Finset Nat} {i : Nat} (hi : i ∈ s) (hS : i ∉ S) (n : Nat → ℝ) :
    ∏ j ∈ s, (if j ∈ S then n j else 1 - n j) = (1 - n i) * ∏ j ∈ s.erase i, (if j ∈ S then n j else 1 - n j) := by
  rw [← mul_prod_erase s _ hi, if_neg hS]

theorem prod_in {s S : Finset Nat} {i : Nat} (hi : i ∈ s) (n : Nat → ℝ) :
    ∏ j ∈ s, (if j ∈ insert i S then n j else 1 - n j)
      = n i * ∏ j ∈ s.erase i, (if j ∈ S then n j else 1 - n j) := by
  rw [← mul_prod_erase s _ hi, if_pos (mem_insert_self _ _)]
  congr 1
  refine prod_congr rfl fun j hj => ?_
  have : j ≠ i := (mem_erase.1 hj).1
  simp [mem_insert, this]

/-- A sum over the sets and their missing elements. -/
theorem sum_missing (s : Finset Nat) (F : Nat → Finset Nat → ℝ) :
    ∑ S ∈ s.powerset, ∑ i ∈ s \ S, F i S = ∑ i ∈ s, ∑ S ∈ (s.erase i).powerset, F i S := by
  refine sum_comm' fun S i => ?_
  simp only [mem_powerset, mem_sdiff]
  constructor
  · rintro ⟨h1, h2, h3⟩
    exact ⟨fun x hx => mem_erase.2 ⟨fun e => h3 (e ▸ hx), h1 hx⟩, h2⟩
  · rintro ⟨h1, h2⟩
    exact ⟨h1.trans (erase_subset _ _), h2, fun h => (mem_erase.1 (h1 h)).1 rfl⟩

end Verif
