import Verif.Spec.SpinVec
import Verif.Lemmas.SpinOps
import Mathlib.Tactic.NoncommRing
import Mathlib.Tactic.Abel

/-! Commutators of the spin operators with creation and annihilation operators. -/

namespace Verif
open Verif.Spec Matrix

variable {n : Nat}

theorem cast_ann (i : Fin n) : (Int.castRingHom ℂ).mapMatrix (ann i : Matrix (Occ n) (Occ n) ℤ) = ann i := by
  ext s' s
  simp only [RingHom.mapMatrix_apply, Matrix.map_apply, ann, Matrix.of_apply]
  split <;> simp

theorem cast_cre (i : Fin n) : (Int.castRingHom ℂ).mapMatrix (cre i : Matrix (Occ n) (Occ n) ℤ) = cre i := by
  ext s' s
  have := congrFun (congrFun (cast_ann i) s) s'
  simpa [cre] using this

theorem cP_sum : (cP : Matrix (Occ n) (Occ n) ℂ) = ∑ i : Fin (n / 2), cre (up i) * ann (dn i) := by
  show (Int.castRingHom ℂ).mapMatrix spinPlus = _
  unfold spinPlus
  rw [map_sum]
  exact Finset.sum_congr rfl fun i _ => by rw [map_mul, cast_ann, cast_cre]

theorem cM_sum : (cM : Matrix (Occ n) (Occ n) ℂ) = ∑ i : Fin (n / 2), cre (dn i) * ann (up i) := by
  show (Int.castRingHom ℂ).mapMatrix spinMinus = _
  unfold spinMinus
  rw [map_sum]
  exact Finset.sum_congr rfl fun i _ => by rw [map_mul, cast_ann, cast_cre]

theorem pair_cre (a b x : Fin n) :
    (cre a * ann b * cre x - cre x * (cre a * ann b) : Matrix (Occ n) (Occ n) ℂ) = if b = x then cre a else 0 := by
  have h1 := cre_cre (K := ℂ) a x
  split
  · next h =>
    subst h
    have h2 := ann_cre_self (K := ℂ) b
    calc _ = cre a * (ann b * cre b + cre b * ann b) - (cre a * cre b + cre b * cre a) * ann b := by noncomm_ring
      _ = _ := by rw [h1, h2]; simp
  · next h =>
    have h2 := ann_cre_ne (K := ℂ) h
    calc _ = cre a * (ann b * cre x + cre x * ann b) - (cre a * cre x + cre x * cre a) * ann b := by noncomm_ring
      _ = _ := by rw [h1, h2]; simp

theorem pair_ann (a b x : Fin n) :
    (cre a * ann b * ann x - ann x * (cre a * ann b) : Matrix (Occ n) (Occ n) ℂ) = if x = a then - ann b else 0 := by
  have h1 := ann_ann (K := ℂ) b x
  split
  · next h =>
    subst h
    have h2 := ann_cre_self (K := ℂ) x
    calc _ = cre x * (ann b * ann x + ann x * ann b) - (ann x * cre x + cre x * ann x) * ann b := by noncomm_ring
      _ = _ := by rw [h1, h2]; simp
  · next h =>
    have h2 := ann_cre_ne (K := ℂ) h
    calc _ = cre a * (ann b * ann x + ann x * ann b) - (ann x * cre a + cre a * ann x) * ann b := by noncomm_ring
      _ = _ := by rw [h1, h2]; simp

/-- The commutator. -/
def brk (A B : Matrix (Occ n) (Occ n) ℂ) : Matrix (Occ n) (Occ n) ℂ := A * B - B * A

theorem brk_mul (A B C : Matrix (Occ n) (Occ n) ℂ) : brk A (B * C) = brk A B * C + B * brk A C := by
  unfold brk; noncomm_ring

theorem brk_add (A B C : Matrix (Occ n) (Occ n) ℂ) : brk A (B + C) = brk A B + brk A C := by
  unfold brk; noncomm_ring

theorem brk_smul (A B : Matrix (Occ n) (Occ n) ℂ) (c : ℂ) : brk A (c • B) = c • brk A B := by
  unfold brk; rw [Matrix.mul_smul, Matrix.smul_mul, smul_sub]

theorem brk_zero (A : Matrix (Occ n) (Occ n) ℂ) : brk A 0 = 0 := by simp [brk]

theorem brk_sum_left {ι : Type} (s : Finset ι) (f : ι → Matrix (Occ n) (Occ n) ℂ) (B : Matrix (Occ n) (Occ n) ℂ) :
    brk (∑ i ∈ s, f i) B = ∑ i ∈ s, brk (f i) B := by
  unfold brk
  rw [Finset.sum_mul, Finset.mul_sum, Finset.sum_sub_distrib]

theorem brk_list (A : Matrix (Occ n) (Occ n) ℂ) (l : List (Matrix (Occ n) (Occ n) ℂ)) :
    brk A l.sum = (l.map (brk A)).sum := by
  induction l with
  | nil => simp [brk_zero]
  | cons a l ih => simp [brk_add, ih]

theorem brk_eq_zero {A B : Matrix (Occ n) (Occ n) ℂ} : brk A B = 0 ↔ B * A = A * B := by
  unfold brk
  rw [sub_eq_zero]
  exact eq_comm

theorem plus_creUp (j : Fin (n / 2)) : brk cP (cre (up j) : Matrix (Occ n) (Occ n) ℂ) = 0 := by
  rw [cP_sum, brk_sum_left]
  refine Finset.sum_eq_zero fun i _ => ?_
  unfold brk
  rw [pair_cre, if_neg (up_ne_dn _ _).symm]

theorem plus_creDn (j : Fin (n / 2)) : brk cP (cre (dn j) : Matrix (Occ n) (Occ n) ℂ) = cre (up j) := by
  rw [cP_sum, brk_sum_left]
  unfold brk
  simp_rw [pair_cre, dn_inj]
  simp

theorem plus_annUp (j : Fin (n / 2)) : brk cP (ann (up j) : Matrix (Occ n) (Occ n) ℂ) = - ann (dn j) := by
  rw [cP_sum, brk_sum_left]
  unfold brk
  simp_rw [pair_ann, up_inj]
  simp

theorem plus_annDn (j : Fin (n / 2)) : brk cP (ann (dn j) : Matrix (Occ n) (Occ n) ℂ) = 0 := by
  rw [cP_sum, brk_sum_left]
  refine Finset.sum_eq_zero fun i _ => ?_
  unfold brk
  rw [pair_ann, if_neg (up_ne_dn _ _).symm]

theorem minus_creUp (j : Fin (n / 2)) : brk cM (cre (up j) : Matrix (Occ n) (Occ n) ℂ) = cre (dn j) := by
  rw [cM_sum, brk_sum_left]
  unfold brk
  simp_rw [pair_cre, up_inj]
  simp

theorem minus_creDn (j : Fin (n / 2)) : brk cM (cre (dn j) : Matrix (Occ n) (Occ n) ℂ) = 0 := by
  rw [cM_sum, brk_sum_left]
  refine Finset.sum_eq_zero fun i _ => ?_
  unfold brk
  rw [pair_cre, if_neg (up_ne_dn _ _)]

theorem minus_annUp (j : Fin (n / 2)) : brk cM (ann (up j) : Matrix (Occ n) (Occ n) ℂ) = 0 := by
  rw [cM_sum, brk_sum_left]
  refine Finset.sum_eq_zero fun i _ => ?_
  unfold brk
  rw [pair_ann, if_neg (up_ne_dn _ _)]

theorem minus_annDn (j : Fin (n / 2)) : brk cM (ann (dn j) : Matrix (Occ n) (Occ n) ℂ) = - ann (up j) := by
  rw [cM_sum, brk_sum_left]
  unfold brk
  simp_rw [pair_ann, dn_inj]
  simp

/-- Hopping that is equal for both spins. -/
theorem plus_hop (i j : Fin (n / 2)) : brk cP
    (cre (up j) * ann (up i) + cre (dn j) * ann (dn i) : Matrix (Occ n) (Occ n) ℂ) = 0 := by
  rw [brk_add, brk_mul, brk_mul, plus_creUp, plus_annUp, plus_creDn, plus_annDn]
  simp

/-- An interaction between the orbitals that does not depend on the spin. -/
theorem plus_coul (m p k l : Fin (n / 2)) : brk cP
    (cre (up m) * cre (up p) * ann (up k) * ann (up l) + cre (dn m) * cre (dn p) * ann (dn k) * ann (dn l) +
      (cre (up m) * cre (dn p) * ann (dn k) * ann (up l) + cre (dn m) * cre (up p) * ann (up k) * ann (dn l)) :
        Matrix (Occ n) (Occ n) ℂ) = 0 := by
  simp only [brk_add, brk_mul, plus_creUp, plus_annUp, plus_creDn, plus_annDn]
  noncomm_ring

/-- Two electrons that hop from one orbital to another one. -/
theorem plus_pair (m k : Fin (n / 2)) : brk cP
    (cre (up m) * cre (dn m) * ann (dn k) * ann (up k) : Matrix (Occ n) (Occ n) ℂ) = 0 := by
  have h1 := cre_cre (K := ℂ) (up m) (up m)
  have h2 := ann_ann (K := ℂ) (dn k) (dn k)
  have h1' : (cre (up m) * cre (up m) : Matrix (Occ n) (Occ n) ℂ) = 0 := by
    have := h1; rw [← two_smul ℂ] at this; simpa using this
  have h2' : (ann (dn k) * ann (dn k) : Matrix (Occ n) (Occ n) ℂ) = 0 := by
    have := h2; rw [← two_smul ℂ] at this; simpa using this
  simp only [brk_mul, plus_creUp, plus_annUp, plus_creDn, plus_annDn]
  simp only [zero_mul, zero_add, mul_zero, add_zero, h1', mul_neg]
  rw [Matrix.mul_assoc _ (ann (dn k)), h2']
  simp

/-- The annihilation operators of the other order. -/
theorem coul_swap (m p k l : Fin n) : (cre m * cre p * ann k * ann l : Matrix (Occ n) (Occ n) ℂ)
    = cre p * cre m * ann l * ann k := by
  have h1 : (cre m * cre p : Matrix (Occ n) (Occ n) ℂ) = - (cre p * cre m) := eq_neg_of_add_eq_zero_left (cre_cre m p)
  have h2 : (ann k * ann l : Matrix (Occ n) (Occ n) ℂ) = - (ann l * ann k) := eq_neg_of_add_eq_zero_left (ann_ann k l)
  rw [Matrix.mul_assoc (cre m * cre p), h1, h2, Matrix.mul_assoc (cre p * cre m)]
  simp

end Verif
