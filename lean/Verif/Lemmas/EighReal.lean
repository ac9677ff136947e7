import Verif.Lemmas.SpinBase
import Mathlib.Data.Fin.Tuple.Sort

/-! A function with the properties assumed of `np.linalg.eigh`. -/

namespace Verif
open Verif.Spec Matrix

theorem exists_eighReal : ∃ eigh, EighReal eigh := by
  classical
  obtain ⟨eigh, he⟩ := exists_eigh
  have key : ∀ A : Arr, ∃ p : List ℝ × Arr, ∀ m, A.dims = [m, m] →
      (∀ i j, i < m → j < m → (A.val [i, j]).im = 0 ∧ A.val [j, i] = A.val [i, j]) →
      p.1.length = m ∧ p.2.dims = [m, m] ∧
      (∀ i j, i < m → j < m → ∑ x ∈ Finset.range m, starRingEnd ℂ (p.2.val [x, i]) * p.2.val [x, j]
        = if i = j then 1 else 0) ∧
      (∀ (i j : Nat) (x : ℝ), i < m → p.1[j]? = some x →
        ∑ y ∈ Finset.range m, A.val [i, y] * p.2.val [y, j] = p.2.val [i, j] * x) ∧
      p.1.Pairwise (· ≤ ·) ∧ ∀ i j, i < m → j < m → (p.2.val [i, j]).im = 0 := by
    intro A
    by_cases hA : ∃ m, A.dims = [m, m] ∧
      ∀ i j, i < m → j < m → (A.val [i, j]).im = 0 ∧ A.val [j, i] = A.val [i, j]
    swap
    · exact ⟨([], A), fun m h1 h2 => absurd ⟨m, h1, h2⟩ hA⟩
    obtain ⟨m, hd, hh⟩ := hA
    let B : Matrix (Fin m) (Fin m) ℝ := fun i j => (A.val [i.val, j.val]).re
    have hB : B.IsHermitian := by
      ext i j
      rw [Matrix.conjTranspose_apply]
      exact congrArg Complex.re (hh i j i.2 j.2).2
    have hAB : ∀ i j : Fin m, A.val [i.val, j.val] = ((B i j : ℝ) : ℂ) := fun i j =>
      Complex.ext rfl (hh i j i.2 j.2).1
    let σ := Tuple.sort hB.eigenvalues
    let U : Matrix (Fin m) (Fin m) ℝ := hB.eigenvectorUnitary
    have hU : star U * U = 1 := Unitary.coe_star_mul_self hB.eigenvectorUnitary
    have hBU : B * U = U * Matrix.diagonal fun i => hB.eigenvalues i := by
      have := hB.spectral_theorem
      rw [Unitary.conjStarAlgAut_apply] at this
      have h2 : B * U = U * (Matrix.diagonal fun i => hB.eigenvalues i) * (star U * U) := by
        rw [← Matrix.mul_assoc]
        exact congrArg (· * U) this
      rw [h2, hU, Matrix.mul_one]
    refine ⟨(List.ofFn (hB.eigenvalues ∘ σ), Arr.ofMat m m fun i j =>
      if h : i < m ∧ j < m then ((U ⟨i, h.1⟩ (σ ⟨j, h.2⟩) : ℝ) : ℂ) else 0), ?_⟩
    intro m' hd' _
    have e : m' = m := by
      rw [hd] at hd'
      simpa using hd'.symm
    subst e
    have hval : ∀ i j (hi : i < m') (hj : j < m'), (Arr.ofMat m' m' fun i j =>
        if h : i < m' ∧ j < m' then ((U ⟨i, h.1⟩ (σ ⟨j, h.2⟩) : ℝ) : ℂ) else 0).val [i, j]
        = ((U ⟨i, hi⟩ (σ ⟨j, hj⟩) : ℝ) : ℂ) := by
      intro i j hi hj
      show (if h : _ then _ else _) = _
      rw [dif_pos ⟨hi, hj⟩]
    refine ⟨List.length_ofFn, Arr.ofMat_dims _ _ _, ?_, ?_, ?_, ?_⟩
    · intro i j hi hj
      have := congrFun (congrFun hU (σ ⟨i, hi⟩)) (σ ⟨j, hj⟩)
      rw [Matrix.mul_apply, Matrix.one_apply] at this
      rw [Finset.sum_range]
      have h2 := congrArg (fun x : ℝ => (x : ℂ)) this
      simp only [Complex.ofReal_sum, Complex.ofReal_mul] at h2
      refine Eq.trans (Finset.sum_congr rfl fun x _ => ?_) (h2.trans ?_)
      · rw [hval _ _ x.2 hi, hval _ _ x.2 hj, Complex.conj_ofReal]
        rfl
      · rw [apply_ite (fun x : ℝ => (x : ℂ))]
        simp only [Complex.ofReal_one, Complex.ofReal_zero]
        refine if_congr ?_ rfl rfl
        rw [σ.injective.eq_iff, Fin.mk.injEq]
    · intro i j x hi hx
      obtain ⟨hj, rfl⟩ := List.getElem?_eq_some_iff.1 hx
      rw [List.length_ofFn] at hj
      have := congrFun (congrFun hBU ⟨i, hi⟩) (σ ⟨j, hj⟩)
      rw [Matrix.mul_apply, Matrix.mul_diagonal] at this
      rw [Finset.sum_range]
      have h2 := congrArg (fun x : ℝ => (x : ℂ)) this
      simp only [Complex.ofReal_sum, Complex.ofReal_mul] at h2
      refine Eq.trans (Finset.sum_congr rfl fun y _ => ?_) (h2.trans ?_)
      · rw [hval _ _ y.2 hj, hAB ⟨i, hi⟩ y]
      · rw [hval _ _ hi hj, List.getElem_ofFn]
        rfl
    · rw [List.pairwise_ofFn]
      intro i j hij
      exact Tuple.monotone_sort hB.eigenvalues hij.le
    · intro i j hi hj
      rw [hval _ _ hi hj, Complex.ofReal_im]
  choose f hf using key
  refine ⟨fun A => if ∃ m, A.dims = [m, m] ∧
      ∀ i j, i < m → j < m → (A.val [i, j]).im = 0 ∧ A.val [j, i] = A.val [i, j] then .ok (f A) else eigh A, ?_, ?_⟩
  · intro A m hd hh
    by_cases hA : ∃ m, A.dims = [m, m] ∧
      ∀ i j, i < m → j < m → (A.val [i, j]).im = 0 ∧ A.val [j, i] = A.val [i, j]
    · have hA' := hA
      obtain ⟨m', h1, h2⟩ := hA
      have e : m' = m := by
        rw [hd] at h1
        simpa using h1.symm
      subst e
      obtain ⟨a1, a2, a3, a4, -⟩ := hf A m' h1 h2
      exact ⟨(f A).1, (f A).2, by simp only [if_pos hA'], a1, a2, a3, a4⟩
    · simp only [if_neg hA]
      exact he A m hd hh
  · intro A m w v hd hh hr
    rw [if_pos ⟨m, hd, hh⟩] at hr
    obtain ⟨-, -, -, -, a5, a6⟩ := hf A m hd hh
    have := Except.ok.inj hr
    rw [this] at a5 a6
    exact ⟨a5, a6⟩

end Verif
