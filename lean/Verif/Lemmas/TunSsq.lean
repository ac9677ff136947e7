import Verif.Lemmas.SpinTun
import Verif.Props.Rotate
import Verif.Props.BasisDiag

/-! Tunnelling that does not depend on the spin. -/

namespace Verif
open Verif.Spec Matrix

variable {n : Nat}

noncomputable section

/-- The leads `i` and `k + i` tunnel in the same way, to the orbitals with spin up and to those with spin down. -/
structure SpinTun (n k : Nat) (ts : List ((Nat × Fin n) × ℂ)) : Prop where
  same : ∀ i < k, ∀ j : Fin (n / 2), amp ts (k + i) (dn j) = amp ts i (up j)
  noDn : ∀ i < k, ∀ j : Fin (n / 2), amp ts i (dn j) = 0
  noUp : ∀ i < k, ∀ j : Fin (n / 2), amp ts (k + i) (up j) = 0

/-- The part that adds an electron. -/
def creOp (ts : List ((Nat × Fin n) × ℂ)) (l : Nat) : Matrix (Occ n) (Occ n) ℂ := ∑ i : Fin n, amp ts l i • cre i

theorem sum_halves {M : Type} [AddCommMonoid M] (hev : n % 2 = 0) (f : Fin n → M) :
    ∑ i, f i = ∑ j : Fin (n / 2), f (up j) + ∑ j : Fin (n / 2), f (dn j) := by
  rw [← Finset.sum_filter_add_sum_filter_not Finset.univ (fun i : Fin n => (i : Nat) < n / 2)]
  congr 1
  · symm
    refine Finset.sum_nbij up ?_ ?_ ?_ (fun _ _ => rfl)
    · intro j _
      simp [up]
    · intro a _ b _ h
      exact up_inj.1 h
    · intro i hi
      simp only [Finset.coe_filter, Finset.mem_univ, true_and, Set.mem_setOf_eq] at hi
      exact ⟨⟨i, hi⟩, by simp, Fin.ext rfl⟩
  · symm
    refine Finset.sum_nbij dn ?_ ?_ ?_ (fun _ _ => rfl)
    · intro j _
      simp [dn]
    · intro a _ b _ h
      exact dn_inj.1 h
    · intro i hi
      simp only [Finset.coe_filter, Finset.mem_univ, true_and, Set.mem_setOf_eq] at hi
      exact ⟨⟨i - n / 2, by omega⟩, by simp, Fin.ext (by simp only [dn]; omega)⟩

theorem brk_sum {ι : Type} (A : Matrix (Occ n) (Occ n) ℂ) (s : Finset ι) (f : ι → Matrix (Occ n) (Occ n) ℂ) :
    brk A (∑ i ∈ s, f i) = ∑ i ∈ s, brk A (f i) := by
  unfold brk
  rw [Finset.mul_sum, Finset.sum_mul, Finset.sum_sub_distrib]

section
variable {k : Nat} {ts : List ((Nat × Fin n) × ℂ)} (hev : n % 2 = 0) (h : SpinTun n k ts) {i : Nat} (hi : i < k)
include hev h hi

theorem creOp_up : creOp ts i = ∑ j : Fin (n / 2), amp ts i (up j) • cre (up j) := by
  unfold creOp
  rw [sum_halves hev]
  simp_rw [h.noDn i hi, zero_smul]
  rw [Finset.sum_const_zero, add_zero]

theorem creOp_dn : creOp ts (k + i) = ∑ j : Fin (n / 2), amp ts i (up j) • cre (dn j) := by
  unfold creOp
  rw [sum_halves hev]
  simp_rw [h.noUp i hi, h.same i hi, zero_smul]
  rw [Finset.sum_const_zero, zero_add]

theorem plus_tunUp : brk cP (creOp ts i) = 0 := by
  rw [creOp_up hev h hi, brk_sum]
  exact Finset.sum_eq_zero fun j _ => by rw [brk_smul, plus_creUp, smul_zero]

theorem plus_tunDn : brk cP (creOp ts (k + i)) = creOp ts i := by
  rw [creOp_up hev h hi, creOp_dn hev h hi, brk_sum]
  exact Finset.sum_congr rfl fun j _ => by rw [brk_smul, plus_creDn]

theorem minus_tunUp : brk cM (creOp ts i) = creOp ts (k + i) := by
  rw [creOp_up hev h hi, creOp_dn hev h hi, brk_sum]
  exact Finset.sum_congr rfl fun j _ => by rw [brk_smul, minus_creUp]

theorem minus_tunDn : brk cM (creOp ts (k + i)) = 0 := by
  rw [creOp_dn hev h hi, brk_sum]
  exact Finset.sum_eq_zero fun j _ => by rw [brk_smul, minus_creDn, smul_zero]

end

/-- Between a state and one with one electron more, only the part that adds an electron counts. -/
theorem ip_tun {ts : List ((Nat × Fin n) × ℂ)} {l c : Nat} {z z' : Int} {x y : Occ n → ℂ} (hx : InSec (c + 1) z' x)
    (hy : InSec c z y) : ip x (tunOp l ts *ᵥ y) = ip x (creOp ts l *ᵥ y) := by
  have e : tunOp l ts = creOp ts l + ∑ i : Fin n, star (amp ts l i) • ann i := by
    rw [tunOp_amp, Finset.sum_add_distrib]
    rfl
  rw [e, Matrix.add_mulVec]
  have h0 : ip x ((∑ i : Fin n, star (amp ts l i) • (ann i : Matrix (Occ n) (Occ n) ℂ)) *ᵥ y) = 0 := by
    rw [ip_eq_sum]
    refine Finset.sum_eq_zero fun s' _ => ?_
    by_contra hne
    have h1 := (hx s' (fun h0 => left_ne_zero_of_mul hne (by rw [h0, map_zero]))).1
    obtain ⟨s, _, hs⟩ := Finset.exists_ne_zero_of_sum_ne_zero (right_ne_zero_of_mul hne)
    have h2 := (hy s (right_ne_zero_of_mul hs)).1
    have h3 : (∑ i : Fin n, star (amp ts l i) • (ann i : Matrix (Occ n) (Occ n) ℂ)) s' s ≠ 0 := left_ne_zero_of_mul hs
    rw [Matrix.sum_apply] at h3
    obtain ⟨i, _, h4⟩ := Finset.exists_ne_zero_of_sum_ne_zero h3
    rw [Matrix.smul_apply] at h4
    have := ann_count i s' s (right_ne_zero_of_mul h4)
    omega
  unfold ip at h0 ⊢
  rw [dotProduct_add, h0, add_zero]

/-- Tunnelling adds or removes an electron with the spin of the lead. -/
theorem tun_spin {k : Nat} {ts : List ((Nat × Fin n) × ℂ)} (hev : n % 2 = 0) (h : SpinTun n k ts) {l : Nat}
    (hl : l < 2 * k) {s' s : Occ n} (hne : tunOp l ts s' s ≠ 0) :
    AddsSpin n (2 * k) l (ofOcc s) (ofOcc s') ∨ AddsSpin n (2 * k) l (ofOcc s') (ofOcc s) := by
  rw [tunOp_amp, Matrix.sum_apply] at hne
  obtain ⟨i, _, hi⟩ := Finset.exists_ne_zero_of_sum_ne_zero hne
  rw [Matrix.add_apply, Matrix.smul_apply, Matrix.smul_apply] at hi
  have ha : amp ts l i ≠ 0 := by
    intro h0
    rw [h0] at hi
    simp at hi
  have hsp : ((i : Nat) < n / 2 ∧ leadSpin (2 * k) l = 1) ∨ (¬ (i : Nat) < n / 2 ∧ leadSpin (2 * k) l = -1) := by
    have e2 : 2 * k / 2 = k := by omega
    unfold leadSpin
    rw [e2]
    by_cases hlk : l < k
    · rw [if_pos hlk]
      left
      refine ⟨?_, rfl⟩
      by_contra hge
      exact ha (by
        have := h.noDn l hlk ⟨i - n / 2, by omega⟩
        rwa [show (dn ⟨i - n / 2, by omega⟩ : Fin n) = i from Fin.ext (by simp only [dn]; omega)] at this)
    · rw [if_neg hlk]
      right
      refine ⟨?_, rfl⟩
      intro hlt
      refine ha ?_
      have := h.noUp (l - k) (by omega) ⟨i, hlt⟩
      rw [show k + (l - k) = l by omega] at this
      exact this
  have add : ∀ {s s' : Occ n}, s i = false → s' = Function.update s i true →
      AddsSpin n (2 * k) l (ofOcc s) (ofOcc s') := by
    intro s s' hs e
    subst e
    refine ⟨by rw [ofOcc_sum, ofOcc_sum, count_update_true s i hs], ?_⟩
    rw [twoSz_eq, twoSz_eq, count_update_true s i hs, up_update s i true (by simpa using hs)]
    rcases hsp with ⟨h1, h2⟩ | ⟨h1, h2⟩
    · rw [if_pos h1, h2, if_pos rfl]; push_cast; ring
    · rw [if_neg h1, h2]; push_cast; ring
  by_cases h1 : (cre i : Matrix (Occ n) (Occ n) ℂ) s' s = 0
  · right
    rw [h1, smul_zero, zero_add] at hi
    have h2 := right_ne_zero_of_mul hi
    rw [ann_apply] at h2
    by_cases hsi : s i = true
    · rw [if_pos hsi] at h2
      have h3 : s' = Function.update s i false := by
        by_contra h3
        exact h2 (if_neg h3)
      refine add (by rw [h3]; simp) ?_
      rw [h3, Function.update_idem, ← hsi, Function.update_eq_self]
    · rw [if_neg hsi] at h2
      exact absurd rfl h2
  · left
    rw [cre_apply] at h1
    by_cases hsi : s i = true
    · rw [if_pos hsi] at h1
      exact absurd rfl h1
    · rw [if_neg hsi] at h1
      have h3 : s' = Function.update s i true := by
        by_contra h3
        exact h1 (if_neg h3)
      exact add (by simpa using hsi) h3

/-- The amplitudes after the change of basis. -/
theorem rotated_ip {si : SI} (hc : Consistent n si) (hN : si.nmany = 2 ^ n) {ψ : Nat → Occ n → ℂ} {P T0 : Arr}
    (hP : ∀ a b (s : Occ n), b < 2 ^ n → si.getState (a : Nat) = .ok (ofOcc s) → P.val [a, b] = ψ b s)
    {l : Nat} {M : Matrix (Occ n) (Occ n) ℂ}
    (hT : ∀ p q, p < si.nmany → q < si.nmany → ∀ s' s : Occ n,
      si.getState (p : Nat) = .ok (ofOcc s') → si.getState (q : Nat) = .ok (ofOcc s) → T0.val [l, p, q] = M s' s)
    {b a : Nat} (hb : b < 2 ^ n) (ha : a < 2 ^ n) :
    rotated si.nmany P T0 l b a = ip (ψ b) (M *ᵥ ψ a) := by
  obtain ⟨st, hf⟩ := hc.full
  have hsum : ∀ f : Occ n → ℂ, ∑ p ∈ Finset.range si.nmany, f (st p) = ∑ s, f s := full_bij hf hN
  unfold rotated
  rw [ip_eq_sum, ← hsum]
  refine Finset.sum_congr rfl fun p hp => ?_
  have hp := Finset.mem_range.1 hp
  rw [Matrix.mulVec, dotProduct, ← hsum, Finset.mul_sum]
  refine Finset.sum_congr rfl fun q hq => ?_
  have hq := Finset.mem_range.1 hq
  rw [hP p b _ hb (hf.get p hp), hP q a _ ha (hf.get q hq), hT p q hp hq _ _ (hf.get p hp) (hf.get q hq), mul_assoc]

end

end Verif
