import Verif.Lemmas.Stationary
import Mathlib.Logic.Relation

/-! Rate matrices: which distributions are stationary, from the graph of the transitions. -/

namespace Verif

open Finset

/-- There is a transition from `j` to `i`. -/
def Step (n : Nat) (A : Nat → Nat → ℝ) (j i : Nat) : Prop := i < n ∧ j < n ∧ i ≠ j ∧ 0 < A i j

/-- The position `i` can be reached from all positions. -/
def IsHub (n : Nat) (A : Nat → Nat → ℝ) (i : Nat) : Prop :=
  i < n ∧ ∀ j, j < n → Relation.ReflTransGen (Step n A) j i

section
variable {n : Nat} {A : Nat → Nat → ℝ} (hcol : ∀ j, j < n → ∑ i ∈ range n, A i j = 0)
  (hoff : ∀ i j, i < n → j < n → i ≠ j → 0 ≤ A i j)

theorem reach_lt {j i : Nat} (hj : j < n) (hr : Relation.ReflTransGen (Step n A) j i) : i < n := by
  cases hr with
  | refl => exact hj
  | tail _ hs => exact hs.1

/-- A set that contains the targets of all transitions from its members contains what can be reached. -/
theorem reach_closed {P : Nat → Prop} (hP : ∀ j i, P j → Step n A j i → P i) {j i : Nat} (hj : P j)
    (hr : Relation.ReflTransGen (Step n A) j i) : P i := by
  induction hr with
  | refl => exact hj
  | tail _ hs ih => exact hP _ _ ih hs

include hcol hoff

/-- Where a stationary vector is positive it stays positive. -/
theorem pos_closed {φ : Nat → ℝ} (hφ : ∀ i, i < n → ∑ j ∈ range n, A i j * φ j = 0) {j i : Nat} (hj : 0 < φ j)
    (hs : Step n A j i) : 0 < φ i := by
  obtain ⟨hi, hj', hij, hA⟩ := hs
  by_contra hn
  let P := (range n).filter fun k => 0 < φ k
  have hin : i ∉ P := by simp [P, hn]
  have hjP : j ∈ P := by simp [P, hj, hj']
  -- the total flow into the set
  have tot : ∑ k ∈ range n, (∑ i ∈ P, A i k) * φ k = 0 := by
    have : ∑ i ∈ P, ∑ k ∈ range n, A i k * φ k = 0 :=
      sum_eq_zero fun i hi => hφ i (mem_range.1 (mem_filter.1 hi).1)
    rw [sum_comm] at this
    simpa only [sum_mul] using this
  have split : ∀ k, k < n → ∑ i ∈ P, A i k = -∑ i ∈ (range n).filter (fun i => ¬ 0 < φ i), A i k := by
    intro k hk
    have := sum_filter_add_sum_filter_not (range n) (fun i => 0 < φ i) (fun i => A i k)
    rw [hcol k hk] at this
    exact eq_neg_of_add_eq_zero_left this
  have le : ∀ k ∈ range n, (∑ i ∈ P, A i k) * φ k ≤ 0 := by
    intro k hk
    have hk' := mem_range.1 hk
    by_cases hp : 0 < φ k
    · refine mul_nonpos_of_nonpos_of_nonneg ?_ hp.le
      rw [split k hk', neg_nonpos]
      refine sum_nonneg fun i hi => hoff i k (mem_range.1 (mem_filter.1 hi).1) hk' ?_
      rintro rfl
      exact (mem_filter.1 hi).2 hp
    · refine mul_nonpos_of_nonneg_of_nonpos ?_ (not_lt.1 hp)
      refine sum_nonneg fun i hi => hoff i k (mem_range.1 (mem_filter.1 hi).1) hk' ?_
      rintro rfl
      exact hp (mem_filter.1 hi).2
  have z := (sum_eq_zero_iff_of_nonpos le).1 tot j (mem_range.2 hj')
  rcases mul_eq_zero.1 z with z | z
  · rw [split j hj', neg_eq_zero] at z
    have := (sum_eq_zero_iff_of_nonneg (fun i hi => hoff i j (mem_range.1 (mem_filter.1 hi).1) hj' (by
      rintro rfl
      exact (mem_filter.1 hi).2 hj))).1 z i (mem_filter.2 ⟨mem_range.2 hi, hn⟩)
    exact hA.ne' this
  · exact hj.ne' z

/-- If a position can be reached from all, then stationary vectors with the same sum are equal. -/
theorem hub_unique {h : Nat} (hh : IsHub n A h) {φ φ' : Nat → ℝ} (hφ : ∀ i, i < n → ∑ j ∈ range n, A i j * φ j = 0)
    (hφ' : ∀ i, i < n → ∑ j ∈ range n, A i j * φ' j = 0) (e : ∑ j ∈ range n, φ j = ∑ j ∈ range n, φ' j) :
    ∀ j, j < n → φ j = φ' j := by
  have key : ∀ δ : Nat → ℝ, (∀ i, i < n → ∑ j ∈ range n, A i j * δ j = 0) → (∃ j, j < n ∧ 0 < δ j) → 0 < δ h := by
    rintro δ hδ ⟨j, hj, hp⟩
    exact reach_closed (P := fun i => 0 < δ i) (fun j i h1 h2 => pos_closed hcol hoff hδ h1 h2) hp (hh.2 j hj)
  have d1 : ∀ i, i < n → ∑ j ∈ range n, A i j * (φ j - φ' j) = 0 := by
    intro i hi
    simp only [mul_sub, sum_sub_distrib, hφ i hi, hφ' i hi, sub_zero]
  have d2 : ∀ i, i < n → ∑ j ∈ range n, A i j * (φ' j - φ j) = 0 := by
    intro i hi
    simp only [mul_sub, sum_sub_distrib, hφ i hi, hφ' i hi, sub_zero]
  have s : ∑ j ∈ range n, (φ j - φ' j) = 0 := by rw [sum_sub_distrib, e, sub_self]
  by_contra hne
  push Not at hne
  obtain ⟨j, hj, hne⟩ := hne
  have ex : (∃ j, j < n ∧ 0 < φ j - φ' j) ∧ ∃ j, j < n ∧ 0 < φ' j - φ j := by
    constructor
    · by_contra hno
      push Not at hno
      have := (sum_eq_zero_iff_of_nonpos fun k hk => hno k (mem_range.1 hk)).1 s j (mem_range.2 hj)
      exact hne (sub_eq_zero.1 this)
    · by_contra hno
      push Not at hno
      have := (sum_eq_zero_iff_of_nonneg fun k hk => sub_nonneg.2 (sub_nonpos.1 (hno k (mem_range.1 hk)))).1 s j
        (mem_range.2 hj)
      exact hne (sub_eq_zero.1 this)
  have p1 := key _ d1 ex.1
  have p2 := key _ d2 ex.2
  linarith

/-- A set that is not left carries a stationary distribution. -/
theorem closed_stationary {C : Finset Nat} (hC : C ⊆ range n) (hne : C.Nonempty)
    (hcl : ∀ j i, j ∈ C → Step n A j i → i ∈ C) :
    ∃ p : Nat → ℝ, (∀ i, i < n → 0 ≤ p i) ∧ ∑ i ∈ range n, p i = 1 ∧
      (∀ i, i < n → ∑ j ∈ range n, A i j * p j = 0) ∧ ∀ i, i < n → i ∉ C → p i = 0 := by
  obtain ⟨c, hc⟩ := hne
  have hcn : c < n := mem_range.1 (hC hc)
  let B : Nat → Nat → ℝ := fun i j => if j ∈ C then A i j else (if i = c then 1 else 0) - (if i = j then 1 else 0)
  obtain ⟨p, p0, p1, pB⟩ := exists_stationary (lt_of_le_of_lt (Nat.zero_le c) hcn) B (by
      intro j hj
      by_cases h : j ∈ C
      · simp only [B, h, if_true]; exact hcol j hj
      · simp [B, h, sum_sub_distrib, hcn, hj]) (by
      intro i j hi hj hij
      by_cases h : j ∈ C
      · simp only [B, h, if_true]; exact hoff i j hi hj hij
      · simp only [B, h, if_false, hij, sub_zero]
        split <;> norm_num)
  have off : ∀ i, i < n → i ∉ C → p i = 0 := by
    intro i hi hn
    have := pB i hi
    rw [sum_eq_single i] at this
    · have e : B i i = -1 := by
        have : i ≠ c := by rintro rfl; exact hn hc
        simp [B, hn, this]
      rw [e] at this
      linarith
    · intro j hj hji
      have hj' := mem_range.1 hj
      by_cases h : j ∈ C
      · have z : A i j = 0 := by
          by_contra hz
          exact hn (hcl j i h ⟨hi, hj', hji.symm, lt_of_le_of_ne (hoff i j hi hj' hji.symm) (Ne.symm hz)⟩)
        simp [B, h, z]
      · have : i ≠ c := by rintro rfl; exact hn hc
        simp [B, h, this, hji.symm]
    · intro h; exact absurd (mem_range.2 hi) h
  refine ⟨p, p0, p1, fun i hi => ?_, off⟩
  rw [← pB i hi]
  refine sum_congr rfl fun j hj => ?_
  by_cases h : j ∈ C
  · simp [B, h]
  · rw [off j (mem_range.1 hj) h, mul_zero, mul_zero]

/-- If the stationary distribution is unique then some position can be reached from all. -/
theorem unique_hub (hn : 0 < n) (hu : ∀ p p' : Nat → ℝ, (∀ i, i < n → 0 ≤ p i) → (∀ i, i < n → 0 ≤ p' i) →
      ∑ i ∈ range n, p i = 1 → ∑ i ∈ range n, p' i = 1 → (∀ i, i < n → ∑ j ∈ range n, A i j * p j = 0) →
      (∀ i, i < n → ∑ j ∈ range n, A i j * p' j = 0) → ∀ i, i < n → p i = p' i) : ∃ i, IsHub n A i := by
  classical
  let Q : Nat → Prop := fun k => ∃ C : Finset Nat, C ⊆ range n ∧ C.Nonempty ∧
    (∀ j i, j ∈ C → Step n A j i → i ∈ C) ∧ C.card = k
  have hQ : ∃ k, Q k := ⟨_, range n, Subset.refl _, ⟨0, mem_range.2 hn⟩, fun j i _ h => mem_range.2 h.1, rfl⟩
  obtain ⟨C, hC, hne, hcl, hk⟩ := Nat.find_spec hQ
  obtain ⟨i, hi⟩ := hne
  refine ⟨i, mem_range.1 (hC hi), ?_⟩
  by_contra hno
  push Not at hno
  obtain ⟨x, hx, hxi⟩ := hno
  let R : Finset Nat := (range n).filter fun k => Relation.ReflTransGen (Step n A) x k
  have hR : R ⊆ range n := filter_subset _ _
  have hRcl : ∀ j i, j ∈ R → Step n A j i → i ∈ R := fun j i h1 h2 =>
    mem_filter.2 ⟨mem_range.2 h2.1, (mem_filter.1 h1).2.tail h2⟩
  have hdis : ∀ k, k ∈ R → k ∉ C := by
    intro k hkR hkC
    have hlt : (R ∩ C).card < Nat.find hQ := by
      rw [← hk]
      refine card_lt_card ((ssubset_iff_of_subset inter_subset_right).2 ⟨i, hi, fun h => ?_⟩)
      exact hxi (mem_filter.1 (mem_inter.1 h).1).2
    exact Nat.find_min hQ hlt ⟨R ∩ C, fun a ha => hR (mem_inter.1 ha).1, ⟨k, mem_inter.2 ⟨hkR, hkC⟩⟩,
      fun a b ha hs => mem_inter.2 ⟨hRcl a b (mem_inter.1 ha).1 hs, hcl a b (mem_inter.1 ha).2 hs⟩, rfl⟩
  obtain ⟨p, a1, a2, a3, a4⟩ := closed_stationary hcol hoff hC ⟨i, hi⟩ hcl
  obtain ⟨p', b1, b2, b3, b4⟩ := closed_stationary hcol hoff hR ⟨x, mem_filter.2 ⟨mem_range.2 hx, .refl⟩⟩ hRcl
  have e := hu p p' a1 b1 a2 b2 a3 b3
  have : ∑ k ∈ range n, p k = 0 := by
    refine sum_eq_zero fun k hk => ?_
    have hk' := mem_range.1 hk
    by_cases h : k ∈ C
    · rw [e k hk', b4 k hk' fun hR => hdis k hR h]
    · exact a4 k hk' h
  rw [a2] at this
  exact one_ne_zero this

/-- The unique stationary distribution is positive exactly where one gets from everywhere. -/
theorem hub_support {h : Nat} (hh : IsHub n A h) {p : Nat → ℝ} (p0 : ∀ i, i < n → 0 ≤ p i)
    (p1 : ∑ i ∈ range n, p i = 1) (pA : ∀ i, i < n → ∑ j ∈ range n, A i j * p j = 0) {i : Nat} (hi : i < n) :
    0 < p i ↔ IsHub n A i := by
  classical
  constructor
  · intro hp
    by_contra hno
    obtain ⟨p', b1, b2, b3, b4⟩ := closed_stationary hcol hoff (C := (range n).filter (IsHub n A)) (filter_subset _ _)
      ⟨h, mem_filter.2 ⟨mem_range.2 hh.1, hh⟩⟩ (fun j i hj hs =>
        mem_filter.2 ⟨mem_range.2 hs.1, hs.1, fun k hk => ((mem_filter.1 hj).2.2 k hk).tail hs⟩)
    have := hub_unique hcol hoff hh pA b3 (p1.trans b2.symm) i hi
    rw [b4 i hi (fun h => hno (mem_filter.1 h).2)] at this
    exact hp.ne' this
  · intro hi'
    have : ∃ k, k < n ∧ 0 < p k := by
      by_contra hno
      push Not at hno
      have : ∑ i ∈ range n, p i = 0 := sum_eq_zero fun k hk =>
        le_antisymm (hno k (mem_range.1 hk)) (p0 k (mem_range.1 hk))
      rw [p1] at this
      exact one_ne_zero this
    obtain ⟨k, hk, hp⟩ := this
    exact reach_closed (P := fun i => 0 < p i) (fun j i h1 h2 => pos_closed hcol hoff pA h1 h2) hp (hi'.2 k hk)

end

end Verif
