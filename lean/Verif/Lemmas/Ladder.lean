import Mathlib.LinearAlgebra.Eigenspace.Basic
import Mathlib.LinearAlgebra.Matrix.ToLin
import Mathlib.LinearAlgebra.FiniteDimensional.Lemmas
import Mathlib.Data.Real.Basic
import Mathlib.Tactic.Linarith
import Mathlib.Tactic.Ring
import Mathlib.Tactic.LinearCombination
import Mathlib.LinearAlgebra.Matrix.DotProduct

/-! Linear algebra of raising and lowering operators: a chain of real matrices
`U 0, U 1, ...` with `M k = (U k)ᵀ (U k) + a k` and `M (k+1) = (U k) (U k)ᵀ + a k`. -/

namespace Verif

open Matrix Module

/-- The ladder over the steps `0, ..., w`. -/
structure Ladder (w : Nat) (d : Nat → Nat) (M : ∀ k, Matrix (Fin (d k)) (Fin (d k)) ℝ)
    (U : ∀ k, Matrix (Fin (d (k + 1))) (Fin (d k)) ℝ) (z : Nat → ℝ) : Prop where
  low : ∀ k, k < w → M k = (U k)ᵀ * U k + (z k * (z k + 2)) • (1 : Matrix (Fin (d k)) (Fin (d k)) ℝ)
  high : ∀ k, k < w → M (k + 1) = U k * (U k)ᵀ
    + (z k * (z k + 2)) • (1 : Matrix (Fin (d (k + 1))) (Fin (d (k + 1))) ℝ)
  top : M w = (z w * (z w + 2)) • (1 : Matrix (Fin (d w)) (Fin (d w)) ℝ)
  bot : M 0 = (z 0 * (z 0 - 2)) • (1 : Matrix (Fin (d 0)) (Fin (d 0)) ℝ)
  step : ∀ k, z k = -(w : ℝ) + 2 * k

variable {w : Nat} {d : Nat → Nat} {M : ∀ k, Matrix (Fin (d k)) (Fin (d k)) ℝ}
  {U : ∀ k, Matrix (Fin (d (k + 1))) (Fin (d k)) ℝ} {z : Nat → ℝ}

theorem Ladder.up_comm (h : Ladder w d M U z) {k : Nat} (hk : k < w) : M (k + 1) * U k = U k * M k := by
  rw [h.low k hk, h.high k hk, Matrix.add_mul, Matrix.mul_add, Matrix.mul_assoc, Matrix.smul_mul, Matrix.mul_smul, Matrix.one_mul,
    Matrix.mul_one]

theorem Ladder.down_comm (h : Ladder w d M U z) {k : Nat} (hk : k < w) :
    M k * (U k)ᵀ = (U k)ᵀ * M (k + 1) := by
  rw [h.low k hk, h.high k hk, Matrix.add_mul, Matrix.mul_add, Matrix.mul_assoc, Matrix.smul_mul, Matrix.mul_smul, Matrix.one_mul,
    Matrix.mul_one]

/-- The eigenvalues, by raising. -/
theorem Ladder.eig_up (h : Ladder w d M U z) (lam : ℝ) : ∀ r k : Nat, k + r = w →
    ∀ v : Fin (d k) → ℝ, v ≠ 0 → M k *ᵥ v = lam • v →
      ∃ j, k ≤ j ∧ j ≤ w ∧ lam = z j * (z j + 2) := by
  intro r
  induction r with
  | zero =>
    intro k hk v hv e
    have hk' : k = w := by omega
    subst hk'
    refine ⟨k, le_rfl, le_rfl, ?_⟩
    rw [h.top, smul_mulVec, one_mulVec] at e
    have : (z k * (z k + 2) - lam) • v = 0 := by rw [sub_smul, e, sub_self]
    rcases smul_eq_zero.1 this with h0 | h0
    · linarith
    · exact absurd h0 hv
  | succ r ih =>
    intro k hk v hv e
    have hkw : k < w := by omega
    by_cases h0 : U k *ᵥ v = 0
    · refine ⟨k, le_rfl, by omega, ?_⟩
      rw [h.low k hkw, add_mulVec, ← mulVec_mulVec, h0, mulVec_zero, zero_add, smul_mulVec,
        one_mulVec] at e
      have : (z k * (z k + 2) - lam) • v = 0 := by rw [sub_smul, e, sub_self]
      rcases smul_eq_zero.1 this with h0 | h0
      · linarith
      · exact absurd h0 hv
    · obtain ⟨j, h1, h2, h3⟩ := ih (k + 1) (by omega) (U k *ᵥ v) h0 (by
        rw [mulVec_mulVec, h.up_comm hkw, ← mulVec_mulVec, e, mulVec_smul])
      exact ⟨j, by omega, h2, h3⟩

/-- The eigenvalues, by lowering. -/
theorem Ladder.eig_down (h : Ladder w d M U z) (lam : ℝ) : ∀ k : Nat, k ≤ w →
    ∀ v : Fin (d k) → ℝ, v ≠ 0 → M k *ᵥ v = lam • v →
      ∃ j, j ≤ k ∧ lam = z j * (z j - 2) := by
  intro k
  induction k with
  | zero =>
    intro _ v hv e
    refine ⟨0, le_rfl, ?_⟩
    rw [h.bot, smul_mulVec, one_mulVec] at e
    have : (z 0 * (z 0 - 2) - lam) • v = 0 := by rw [sub_smul, e, sub_self]
    rcases smul_eq_zero.1 this with h0 | h0
    · linarith
    · exact absurd h0 hv
  | succ k ih =>
    intro hk v hv e
    have hkw : k < w := by omega
    by_cases h0 : (U k)ᵀ *ᵥ v = 0
    · refine ⟨k + 1, le_rfl, ?_⟩
      rw [h.high k hkw, add_mulVec, ← mulVec_mulVec, h0, mulVec_zero, zero_add, smul_mulVec,
        one_mulVec] at e
      have : (z k * (z k + 2) - lam) • v = 0 := by rw [sub_smul, e, sub_self]
      rcases smul_eq_zero.1 this with h0 | h0
      · have e1 := h.step k
        have e2 := h.step (k + 1)
        push_cast at e2
        have : z (k + 1) = z k + 2 := by rw [e1, e2]; ring
        rw [this]
        linarith
      · exact absurd h0 hv
    · obtain ⟨j, h1, h2⟩ := ih (by omega) ((U k)ᵀ *ᵥ v) h0 (by
        rw [mulVec_mulVec, h.down_comm hkw, ← mulVec_mulVec, e, mulVec_smul])
      exact ⟨j, by omega, h2⟩

/-- **Eigenvalues**: `s (s + 2)` with `s = z j`, `s ≥ |z k|`. -/
theorem Ladder.eig (h : Ladder w d M U z) {lam : ℝ} {k : Nat} (hk : k ≤ w)
    {v : Fin (d k) → ℝ} (hv : v ≠ 0) (e : M k *ᵥ v = lam • v) :
    ∃ j, k ≤ j ∧ j ≤ w ∧ w ≤ j + k ∧ lam = z j * (z j + 2) := by
  obtain ⟨j, h1, h2, h3⟩ := h.eig_up lam (w - k) k (by omega) v hv e
  obtain ⟨i, g1, g2⟩ := h.eig_down lam k hk v hv e
  refine ⟨j, h1, h2, ?_, h3⟩
  rw [h3, h.step, h.step] at g2
  have : (2 * (j : ℝ) + 2 - 2 * i) * (2 * j + 2 * i - 2 * w) = 0 := by linear_combination g2
  have hij : (i : ℝ) ≤ j := by exact_mod_cast (by omega : i ≤ j)
  rcases mul_eq_zero.1 this with h0 | h0
  · linarith
  · have h5 : (j : ℝ) + i = w := by linarith
    have h6 : j + i = w := by exact_mod_cast h5
    omega

/-- The eigenspace of `A` for `lam`. -/
noncomputable abbrev eigSp {m : Nat} (A : Matrix (Fin m) (Fin m) ℝ) (lam : ℝ) :
    Submodule ℝ (Fin m → ℝ) := End.eigenspace (Matrix.toLin' A) lam

theorem mem_eigSp {m : Nat} {A : Matrix (Fin m) (Fin m) ℝ} {lam : ℝ} {v : Fin m → ℝ} :
    v ∈ eigSp A lam ↔ A *ᵥ v = lam • v := by
  rw [End.mem_eigenspace_iff, Matrix.toLin'_apply]

/-- One step does not change the multiplicity of another eigenvalue. -/
theorem Ladder.step_eq (h : Ladder w d M U z) {lam : ℝ} {k : Nat} (hk : k < w)
    (hne : lam ≠ z k * (z k + 2)) :
    finrank ℝ (eigSp (M k) lam) = finrank ℝ (eigSp (M (k + 1)) lam) := by
  apply le_antisymm
  · refine LinearMap.finrank_le_finrank_of_injective
      (f := (Matrix.toLin' (U k)).restrict (p := eigSp (M k) lam) (q := eigSp (M (k + 1)) lam) ?_) ?_
    · intro v hv
      rw [mem_eigSp] at hv ⊢
      rw [Matrix.toLin'_apply, mulVec_mulVec, h.up_comm hk, ← mulVec_mulVec, hv, mulVec_smul]
    · rw [← LinearMap.ker_eq_bot, LinearMap.ker_eq_bot']
      rintro ⟨v, hv⟩ e
      have e' : U k *ᵥ v = 0 := congrArg Subtype.val e
      rw [mem_eigSp, h.low k hk, add_mulVec, ← mulVec_mulVec, e', mulVec_zero, zero_add, smul_mulVec,
        one_mulVec] at hv
      have : (z k * (z k + 2) - lam) • v = 0 := by rw [sub_smul, hv, sub_self]
      rcases smul_eq_zero.1 this with h0 | h0
      · exact absurd (by linarith) hne
      · exact Subtype.ext h0
  · refine LinearMap.finrank_le_finrank_of_injective
      (f := (Matrix.toLin' (U k)ᵀ).restrict (p := eigSp (M (k + 1)) lam) (q := eigSp (M k) lam) ?_) ?_
    · intro v hv
      rw [mem_eigSp] at hv ⊢
      rw [Matrix.toLin'_apply, mulVec_mulVec, h.down_comm hk, ← mulVec_mulVec, hv, mulVec_smul]
    · rw [← LinearMap.ker_eq_bot, LinearMap.ker_eq_bot']
      rintro ⟨v, hv⟩ e
      have e' : (U k)ᵀ *ᵥ v = 0 := congrArg Subtype.val e
      rw [mem_eigSp, h.high k hk, add_mulVec, ← mulVec_mulVec, e', mulVec_zero, zero_add, smul_mulVec,
        one_mulVec] at hv
      have : (z k * (z k + 2) - lam) • v = 0 := by rw [sub_smul, hv, sub_self]
      rcases smul_eq_zero.1 this with h0 | h0
      · exact absurd (by linarith) hne
      · exact Subtype.ext h0

theorem Ladder.value_ne (h : Ladder w d M U z) {i j : Nat} (hij : i < j) (hw : w < i + j + 1) :
    z j * (z j + 2) ≠ z i * (z i + 2) := by
  intro e
  rw [h.step, h.step] at e
  have : (2 * (j : ℝ) - 2 * i) * (2 * j + 2 * i + 2 - 2 * w) = 0 := by linear_combination e
  rcases mul_eq_zero.1 this with h0 | h0
  · have : (i : ℝ) < j := by exact_mod_cast hij
    linarith
  · have h1 : (w : ℝ) < i + j + 1 := by exact_mod_cast hw
    linarith

/-- The multiplicity does not depend on the step. -/
theorem Ladder.climb (h : Ladder w d M U z) {j : Nat} (hj : j ≤ w) : ∀ r k : Nat, k + r = j → w ≤ j + k →
    finrank ℝ (eigSp (M k) (z j * (z j + 2))) = finrank ℝ (eigSp (M j) (z j * (z j + 2))) := by
  intro r
  induction r with
  | zero =>
    intro k hk _
    have : k = j := by omega
    rw [this]
  | succ r ih =>
    intro k hk hw
    rw [h.step_eq (by omega) (h.value_ne (by omega) (by omega)), ih (k + 1) (by omega) (by omega)]

theorem mulVec_transpose_self {m n : Nat} (A : Matrix (Fin m) (Fin n) ℝ) {v : Fin n → ℝ}
    (h : (Aᵀ * A) *ᵥ v = 0) : A *ᵥ v = 0 := by
  have h1 : v ⬝ᵥ ((Aᵀ * A) *ᵥ v) = 0 := by rw [h, dotProduct_zero]
  rw [← mulVec_mulVec, dotProduct_mulVec, vecMul_transpose] at h1
  exact _root_.dotProduct_self_eq_zero.1 h1

/-- **Multiplicities**. -/
theorem Ladder.mult (h : Ladder w d M U z) {j k : Nat} (hkj : k ≤ j) (hj : j ≤ w) (hw : w ≤ j + k) :
    finrank ℝ (eigSp (M k) (z j * (z j + 2))) + (if j = w then 0 else d (j + 1)) = d j := by
  rw [h.climb hj (j - k) k (by omega) hw]
  by_cases hjw : j = w
  · subst hjw
    rw [if_pos rfl, add_zero]
    have : eigSp (M j) (z j * (z j + 2)) = ⊤ := by
      rw [eq_top_iff]
      intro v _
      rw [mem_eigSp, h.top, smul_mulVec, one_mulVec]
    rw [this, finrank_top]
    simp
  · rw [if_neg hjw]
    have hj' : j < w := by omega
    have h1 : eigSp (M j) (z j * (z j + 2)) = LinearMap.ker (Matrix.toLin' (U j)) := by
      ext v
      rw [mem_eigSp, h.low j hj', add_mulVec, smul_mulVec, one_mulVec, LinearMap.mem_ker,
        Matrix.toLin'_apply]
      constructor
      · intro e
        exact mulVec_transpose_self _ (by simpa using e)
      · intro e
        rw [← mulVec_mulVec, e, mulVec_zero, zero_add]
    have h2 : LinearMap.range (Matrix.toLin' (U j)) = ⊤ := by
      have hinj : Function.Injective (Matrix.toLin' (U j * (U j)ᵀ)) := by
        rw [← LinearMap.ker_eq_bot, LinearMap.ker_eq_bot']
        intro v e
        by_contra hv
        rw [Matrix.toLin'_apply] at e
        obtain ⟨i, g1, g2, _, g4⟩ := h.eig (lam := z j * (z j + 2)) (k := j + 1) (by omega) hv (by
          rw [h.high j hj', add_mulVec, e, zero_add, smul_mulVec, one_mulVec])
        exact h.value_ne (i := j) (j := i) (by omega) (by omega) g4.symm
      have hsurj := LinearMap.surjective_of_injective hinj
      rw [eq_top_iff]
      intro v _
      obtain ⟨u, hu⟩ := hsurj v
      refine ⟨(U j)ᵀ *ᵥ u, ?_⟩
      rw [Matrix.toLin'_apply, mulVec_mulVec, ← Matrix.toLin'_apply, hu]
    have h3 := LinearMap.finrank_range_add_finrank_ker (Matrix.toLin' (U j))
    rw [h2, finrank_top, ← h1] at h3
    simp only [finrank_fintype_fun_eq_card, Fintype.card_fin] at h3
    omega

end Verif
