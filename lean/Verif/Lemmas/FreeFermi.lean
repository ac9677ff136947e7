import Verif.Lemmas.EigStates
import Verif.Lemmas.TunSsq

/-! Electrons without interaction: the eigenstates are occupations of orbitals. -/

namespace Verif
open Verif.Spec Matrix
open scoped ComplexConjugate

variable {n : Nat}

noncomputable section

/-! ### Creation operators of orbitals -/

/-- The operators `C k` create electrons in orthonormal orbitals. -/
structure Modes (C : Fin n → Matrix (Occ n) (Occ n) ℂ) : Prop where
  car : ∀ i k, (C i)ᴴ * C k + C k * (C i)ᴴ = if i = k then 1 else 0
  cc : ∀ i k, C i * C k + C k * C i = 0

/-- The operator that creates an electron in the orbital with the coefficients `u`. -/
def creMode (u : Fin n → ℂ) : Matrix (Occ n) (Occ n) ℂ := ∑ j, u j • cre j

theorem creMode_conj (u : Fin n → ℂ) : (creMode u)ᴴ = ∑ j, conj (u j) • (ann j : Matrix (Occ n) (Occ n) ℂ) := by
  unfold creMode
  rw [Matrix.conjTranspose_sum]
  refine Finset.sum_congr rfl fun j _ => ?_
  rw [Matrix.conjTranspose_smul, conj_cre]
  rfl

theorem modes_of {u : Fin n → Fin n → ℂ} (hu : ∀ i k, ∑ j, conj (u i j) * u k j = if i = k then 1 else 0) :
    Modes fun k => creMode (u k) := by
  constructor
  · intro i k
    simp only [creMode_conj]
    unfold creMode
    rw [Finset.sum_mul_sum, Finset.sum_mul_sum, Finset.sum_comm (s := Finset.univ (α := Fin n)) (t := Finset.univ (α := Fin n))
      (f := fun a b => u k a • cre a * conj (u i b) • ann b), ← Finset.sum_add_distrib]
    have e : ∀ a b : Fin n, conj (u i a) • (ann a : Matrix (Occ n) (Occ n) ℂ) * u k b • cre b
        + u k b • cre b * conj (u i a) • ann a = if a = b then (conj (u i a) * u k a) • 1 else 0 := by
      intro a b
      rw [smul_mul_smul_comm, smul_mul_smul_comm, mul_comm (u k b), ← smul_add, ann_cre, sub_add_cancel]
      by_cases hab : a = b
      · subst hab; simp
      · simp [hab]
    simp only [← Finset.sum_add_distrib, e, Finset.sum_ite_eq, Finset.mem_univ, if_true]
    rw [← Finset.sum_smul, hu]
    split <;> simp
  · intro i k
    simp only [creMode]
    rw [Finset.sum_mul_sum, Finset.sum_mul_sum, Finset.sum_comm (s := Finset.univ (α := Fin n)) (t := Finset.univ (α := Fin n))
      (f := fun a b => u k a • cre a * u i b • cre b), ← Finset.sum_add_distrib]
    refine Finset.sum_eq_zero fun a _ => ?_
    rw [← Finset.sum_add_distrib]
    refine Finset.sum_eq_zero fun b _ => ?_
    rw [smul_mul_smul_comm, smul_mul_smul_comm, mul_comm (u k b), ← smul_add, cre_cre, smul_zero]

/-- The orbitals are complete. -/
theorem orbitals_complete {u : Fin n → Fin n → ℂ} (hu : ∀ i k, ∑ j, conj (u i j) * u k j = if i = k then 1 else 0)
    (a b : Fin n) : ∑ k, conj (u k a) * u k b = if a = b then 1 else 0 := by
  let U : Matrix (Fin n) (Fin n) ℂ := fun k j => u k j
  have h : U * Uᴴ = 1 := by
    ext k i
    rw [Matrix.mul_apply, Matrix.one_apply]
    have := hu i k
    simp only [eq_comm (a := k)]
    rw [← this]
    exact Finset.sum_congr rfl fun j _ => mul_comm _ _
  have h1 : Uᴴ * U = 1 := mul_eq_one_comm.1 h
  have h' : (Uᴴ * U) a b = (1 : Matrix (Fin n) (Fin n) ℂ) a b := by rw [h1]
  rw [Matrix.mul_apply, Matrix.one_apply] at h'
  exact h'

/-- An operator of the electron in the site basis is a sum over the orbitals. -/
theorem cre_modes {u : Fin n → Fin n → ℂ} (hu : ∀ i k, ∑ j, conj (u i j) * u k j = if i = k then 1 else 0) (j : Fin n) :
    (cre j : Matrix (Occ n) (Occ n) ℂ) = ∑ k, conj (u k j) • creMode (u k) := by
  unfold creMode
  simp only [Finset.smul_sum, smul_smul]
  rw [Finset.sum_comm]
  simp only [← Finset.sum_smul, orbitals_complete hu, ite_smul, one_smul, zero_smul, Finset.sum_ite_eq, Finset.mem_univ, if_true]

/-- The Hamiltonian without interaction counts the electrons in the orbitals. -/
theorem oneBody_modes {u : Fin n → Fin n → ℂ} (hu : ∀ i k, ∑ j, conj (u i j) * u k j = if i = k then 1 else 0)
    {M : Matrix (Fin n) (Fin n) ℂ} {ε : Fin n → ℝ} (hM : ∀ k, M *ᵥ u k = ((ε k : ℝ) : ℂ) • u k) :
    ∑ i, ∑ j, M i j • (cre i * ann j : Matrix (Occ n) (Occ n) ℂ)
      = ∑ k, ((ε k : ℝ) : ℂ) • (creMode (u k) * (creMode (u k))ᴴ) := by
  have e : ∀ i j, M i j = ∑ k, ((ε k : ℝ) : ℂ) * (u k i * conj (u k j)) := by
    intro i j
    have h1 : ∀ k, ((ε k : ℝ) : ℂ) * (u k i * conj (u k j)) = ∑ m, M i m * (conj (u k j) * u k m) := by
      intro k
      have := congrFun (hM k) i
      rw [Matrix.mulVec, dotProduct, Pi.smul_apply, smul_eq_mul] at this
      rw [← mul_assoc, ← this, Finset.sum_mul]
      exact Finset.sum_congr rfl fun m _ => by ring
    simp only [h1]
    rw [Finset.sum_comm]
    simp only [← Finset.mul_sum, orbitals_complete hu]
    simp
  have e2 : ∀ k, creMode (u k) * (creMode (u k))ᴴ = ∑ i, ∑ j, (u k i * conj (u k j)) • (cre i * ann j) := by
    intro k
    rw [creMode_conj]
    unfold creMode
    rw [Finset.sum_mul_sum]
    exact Finset.sum_congr rfl fun i _ => Finset.sum_congr rfl fun j _ => smul_mul_smul_comm _ _ _ _
  simp only [e, e2, Finset.sum_smul, Finset.smul_sum, smul_smul]
  symm
  rw [Finset.sum_comm]
  refine Finset.sum_congr rfl fun i _ => ?_
  rw [Finset.sum_comm]

/-! ### Numbers of electrons in the orbitals -/

/-- The operator of the number of electrons. -/
def numTot (n : Nat) : Matrix (Occ n) (Occ n) ℂ := ∑ j, cre j * ann j

theorem numTot_mulVec {x : Occ n → ℂ} {c : Nat} (hx : ∀ s, x s ≠ 0 → s.count = c) : numTot n *ᵥ x = (c : ℂ) • x := by
  have e : ∀ s' s, numTot n s' s = if s' = s then (s.count : ℂ) else 0 := by
    intro s' s
    unfold numTot
    rw [Matrix.sum_apply]
    have : ∀ j : Fin n, (cre j * ann j : Matrix (Occ n) (Occ n) ℂ) s' s = if s' = s then (if s j = true then 1 else 0) else 0 := by
      intro j
      rw [number_mono (K := ℂ) j s' s]
      by_cases h : s j = true
      · simp only [h, if_true]; split <;> simp
      · simp [h]
    simp only [this]
    by_cases h : s' = s
    · simp only [if_pos h]
      rw [Finset.sum_boole]
      rfl
    · simp [h]
  funext s
  rw [Matrix.mulVec, dotProduct, Pi.smul_apply, smul_eq_mul]
  simp only [e, ite_mul, zero_mul, Finset.sum_ite_eq, Finset.mem_univ, if_true]
  by_cases h : x s = 0
  · rw [h, mul_zero, mul_zero]
  · rw [hx s h]

theorem numTot_modes {u : Fin n → Fin n → ℂ} (hu : ∀ i k, ∑ j, conj (u i j) * u k j = if i = k then 1 else 0) :
    numTot n = ∑ k, creMode (u k) * (creMode (u k))ᴴ := by
  have := oneBody_modes hu (M := 1) (ε := fun _ => 1) (by intro k; simp)
  simp only [Complex.ofReal_one, one_smul] at this
  rw [← this, numTot]
  refine Finset.sum_congr rfl fun i _ => ?_
  rw [Finset.sum_eq_single i]
  · simp
  · intro j _ hj
    rw [Matrix.one_apply_ne (Ne.symm hj), zero_smul]
  · simp

namespace Modes
variable {C : Fin n → Matrix (Occ n) (Occ n) ℂ} (h : Modes C)
include h

theorem sq (k : Fin n) : C k * C k = 0 := by
  have := h.cc k k
  rw [← two_smul ℂ] at this
  simpa using this

theorem ac (i k : Fin n) : (C i)ᴴ * C k = (if i = k then 1 else 0) - C k * (C i)ᴴ := eq_sub_of_add_eq (h.car i k)

/-- What is created is there. -/
theorem num_cre (k : Fin n) : C k * (C k)ᴴ * C k = C k := by
  rw [mul_assoc, h.ac, if_pos rfl, mul_sub, mul_one, ← mul_assoc, h.sq, zero_mul, sub_zero]

theorem cre_num (k : Fin n) : C k * (C k * (C k)ᴴ) = 0 := by
  rw [← mul_assoc, h.sq, zero_mul]

theorem num_cre_ne {j k : Fin n} (hjk : j ≠ k) : C j * (C j)ᴴ * C k = C k * (C j * (C j)ᴴ) := by
  have h1 : C j * C k = -(C k * C j) := eq_neg_of_add_eq_zero_left (h.cc j k)
  rw [mul_assoc, h.ac, if_neg hjk, zero_sub, mul_neg, ← mul_assoc, h1, neg_mul, neg_neg, mul_assoc]

omit h in
theorem num_herm (k : Fin n) : (C k * (C k)ᴴ)ᴴ = C k * (C k)ᴴ := by
  rw [Matrix.conjTranspose_mul, Matrix.conjTranspose_conjTranspose]

/-- The occupations after the creation of an electron. -/
theorem num_after {x : Occ n → ℂ} {S : Finset (Fin n)}
    (hx : ∀ j, (C j * (C j)ᴴ) *ᵥ x = (if j ∈ S then (1 : ℂ) else 0) • x) (k j : Fin n) :
    (C j * (C j)ᴴ) *ᵥ (C k *ᵥ x) = (if j ∈ insert k S then (1 : ℂ) else 0) • (C k *ᵥ x) := by
  rw [Matrix.mulVec_mulVec]
  by_cases hjk : j = k
  · subst hjk
    rw [h.num_cre, if_pos (Finset.mem_insert_self _ _), one_smul]
  · rw [h.num_cre_ne hjk, ← Matrix.mulVec_mulVec, hx, Matrix.mulVec_smul]
    congr 1
    simp [Finset.mem_insert, hjk]

theorem full {x : Occ n → ℂ} {S : Finset (Fin n)}
    (hx : ∀ j, (C j * (C j)ᴴ) *ᵥ x = (if j ∈ S then (1 : ℂ) else 0) • x) {k : Fin n} (hk : k ∈ S) : C k *ᵥ x = 0 := by
  have e := hx k
  rw [if_pos hk, one_smul] at e
  rw [← e, Matrix.mulVec_mulVec, h.cre_num, Matrix.zero_mulVec]

theorem norm_after {x : Occ n → ℂ} {S : Finset (Fin n)}
    (hx : ∀ j, (C j * (C j)ᴴ) *ᵥ x = (if j ∈ S then (1 : ℂ) else 0) • x) {k : Fin n} (hk : k ∉ S) :
    ip (C k *ᵥ x) (C k *ᵥ x) = ip x x := by
  have e := hx k
  rw [if_neg hk, zero_smul] at e
  rw [ip_adj, Matrix.mulVec_mulVec, h.ac, if_pos rfl, Matrix.sub_mulVec, Matrix.one_mulVec, e, sub_zero]

/-- For every set of orbitals there is a state in which just these are occupied. -/
theorem exists_state (hv : ∃ x : Occ n → ℂ, ip x x = 1 ∧ ∀ k, (C k)ᴴ *ᵥ x = 0) (S : Finset (Fin n)) :
    ∃ x : Occ n → ℂ, ip x x = 1 ∧ ∀ j, (C j * (C j)ᴴ) *ᵥ x = (if j ∈ S then (1 : ℂ) else 0) • x := by
  induction S using Finset.induction_on with
  | empty =>
    obtain ⟨x, h1, h2⟩ := hv
    exact ⟨x, h1, fun j => by rw [← Matrix.mulVec_mulVec, h2, Matrix.mulVec_zero]; simp⟩
  | insert k S hk ih =>
    obtain ⟨x, h1, h2⟩ := ih
    exact ⟨C k *ᵥ x, by rw [h.norm_after h2 hk, h1], h.num_after h2 k⟩

end Modes

theorem vacuum (u : Fin n → Fin n → ℂ) : ∃ x : Occ n → ℂ, ip x x = 1 ∧ ∀ k, (creMode (u k))ᴴ *ᵥ x = 0 := by
  refine ⟨fun s => if s = fun _ => false then 1 else 0, ?_, ?_⟩
  · rw [ip_eq_sum]; simp
  · intro k
    rw [creMode_conj]
    funext s
    rw [Matrix.mulVec, dotProduct]
    simp only [mul_ite, mul_one, mul_zero, Finset.sum_ite_eq', Finset.mem_univ, if_true, Matrix.sum_apply, Matrix.smul_apply]
    refine Finset.sum_eq_zero fun j _ => ?_
    rw [ann_mono j s]
    simp [annF]

/-- States with different occupations do not overlap. -/
theorem num_orth {N : Fin n → Matrix (Occ n) (Occ n) ℂ} (hN : ∀ k, (N k)ᴴ = N k) {x y : Occ n → ℂ} {S S' : Finset (Fin n)}
    (hx : ∀ j, N j *ᵥ x = (if j ∈ S then (1 : ℂ) else 0) • x) (hy : ∀ j, N j *ᵥ y = (if j ∈ S' then (1 : ℂ) else 0) • y)
    (h : S ≠ S') : ip x y = 0 := by
  obtain ⟨j, hj⟩ : ∃ j, ¬ (j ∈ S ↔ j ∈ S') := by
    by_contra hno
    push Not at hno
    exact h (Finset.ext hno)
  have e := ip_adj (N j) x y
  rw [hN, hx, hy, ip_smul_left, ip_smul_right] at e
  by_cases h1 : j ∈ S <;> by_cases h2 : j ∈ S' <;> simp_all

/-- A vector without overlap with the states is zero. -/
theorem ip_ext {ψ : Nat → Occ n → ℂ} (ho : ∀ a b, a < 2 ^ n → b < 2 ^ n → ip (ψ a) (ψ b) = if a = b then 1 else 0)
    {x y : Occ n → ℂ} (h : ∀ b, b < 2 ^ n → ip (ψ b) x = ip (ψ b) y) : x = y := by
  have e : ∀ z w : Occ n → ℂ, ip z (x - y) = ip z x - ip z y := fun z w => by
    unfold ip; rw [dotProduct_sub]
  rw [← sub_eq_zero]
  apply ip_self_eq_zero
  rw [ip_complete ho]
  refine Finset.sum_eq_zero fun c hc => ?_
  rw [e _ x, h c (Finset.mem_range.1 hc), sub_self, mul_zero]

/-- **The eigenstates without interaction.** If the sums of the energies of the orbitals differ for all sets of equally
many orbitals, then each eigenstate is the occupation of a set of orbitals. -/
theorem free_states {u : Fin n → Fin n → ℂ} (hu : ∀ i k, ∑ j, conj (u i j) * u k j = if i = k then 1 else 0)
    {M : Matrix (Fin n) (Fin n) ℂ} {ε : Fin n → ℝ} (hM : ∀ k, M *ᵥ u k = ((ε k : ℝ) : ℂ) • u k)
    (hnd : ∀ S S' : Finset (Fin n), S.card = S'.card → ∑ k ∈ S, ε k = ∑ k ∈ S', ε k → S = S')
    {row : Nat → List Nat} {ψ : Nat → Occ n → ℂ} {E : Nat → ℝ}
    (hψ : EigStates row (∑ i, ∑ j, M i j • (cre i * ann j)) ψ E) (hrow : ∀ b, b < 2 ^ n → ∃ q, b ∈ row q) :
    ∃ occ : Nat → Finset (Fin n),
      (∀ S, ∃ b, b < 2 ^ n ∧ occ b = S) ∧
      (∀ b b', b < 2 ^ n → b' < 2 ^ n → occ b = occ b' → b = b') ∧
      (∀ q b, b < 2 ^ n → b ∈ row q → (occ b).card = q) ∧
      (∀ b, b < 2 ^ n → E b = ∑ k ∈ occ b, ε k) ∧
      (∀ b, b < 2 ^ n → ∀ k, (creMode (u k) * (creMode (u k))ᴴ) *ᵥ ψ b = (if k ∈ occ b then (1 : ℂ) else 0) • ψ b) := by
  have hm := modes_of hu
  have hnum : ∀ {x : Occ n → ℂ} {S : Finset (Fin n)} (f : Fin n → ℂ),
      (∀ j, (creMode (u j) * (creMode (u j))ᴴ) *ᵥ x = (if j ∈ S then (1 : ℂ) else 0) • x) →
      (∑ k, f k • (creMode (u k) * (creMode (u k))ᴴ)) *ᵥ x = (∑ k ∈ S, f k) • x := by
    intro x S f hx
    rw [Matrix.sum_mulVec]
    simp only [Matrix.smul_mulVec, hx]
    rw [Finset.sum_smul, ← Finset.sum_subset (Finset.subset_univ S)]
    · exact Finset.sum_congr rfl fun k hk => by rw [if_pos hk, one_smul]
    · intro k _ hk
      rw [if_neg hk, zero_smul, smul_zero]
  have hsa : ∀ f : Fin n → ℝ, (∑ k, ((f k : ℝ) : ℂ) • (creMode (u k) * (creMode (u k))ᴴ))ᴴ
      = ∑ k, ((f k : ℝ) : ℂ) • (creMode (u k) * (creMode (u k))ᴴ) := by
    intro f
    rw [Matrix.conjTranspose_sum]
    refine Finset.sum_congr rfl fun k _ => ?_
    rw [Matrix.conjTranspose_smul, Modes.num_herm (C := fun k => creMode (u k)) k]
    simp
  have heig := hψ.eig
  rw [oneBody_modes hu hM] at heig
  choose Φ hΦ1 hΦ2 using hm.exists_state (vacuum u)
  have hone : numTot n = ∑ k, (((1 : ℝ) : ℝ) : ℂ) • (creMode (u k) * (creMode (u k))ᴴ) := by
    rw [numTot_modes hu]; simp
  -- a state that overlaps with an eigenstate has its energy and number of electrons
  have hE : ∀ S b, b < 2 ^ n → ip (Φ S) (ψ b) ≠ 0 → E b = ∑ k ∈ S, ε k := by
    intro S b hb hne
    have e := ip_adj (∑ k, ((ε k : ℝ) : ℂ) • (creMode (u k) * (creMode (u k))ᴴ)) (Φ S) (ψ b)
    rw [hsa, heig b hb, hnum _ (hΦ2 S), ip_smul_left, ip_smul_right, map_sum] at e
    simp only [Complex.conj_ofReal] at e
    have := mul_right_cancel₀ hne e
    exact_mod_cast this.symm
  have hQ : ∀ S b q, b < 2 ^ n → b ∈ row q → ip (Φ S) (ψ b) ≠ 0 → S.card = q := by
    intro S b q hb hq hne
    have e := ip_adj (numTot n) (Φ S) (ψ b)
    rw [hone, hsa, ← hone, numTot_mulVec (hψ.sec q b hq), hone, hnum (fun _ => ((1 : ℝ) : ℂ)) (hΦ2 S), ip_smul_left,
      ip_smul_right, map_sum] at e
    have := mul_right_cancel₀ hne e
    simp only [Complex.conj_ofReal, Complex.ofReal_one, map_one, Finset.sum_const, nsmul_eq_mul, mul_one] at this
    exact_mod_cast this
  have hS : ∀ S S' b, b < 2 ^ n → ip (Φ S) (ψ b) ≠ 0 → ip (Φ S') (ψ b) ≠ 0 → S = S' := by
    intro S S' b hb h1 h2
    obtain ⟨q, hq⟩ := hrow b hb
    exact hnd S S' ((hQ S b q hb hq h1).trans (hQ S' b q hb hq h2).symm) ((hE S b hb h1).symm.trans (hE S' b hb h2))
  have hex : ∀ S, ∃ b, b < 2 ^ n ∧ ip (Φ S) (ψ b) ≠ 0 := by
    intro S
    by_contra hno
    push Not at hno
    have := ip_complete hψ.orth (Φ S) (Φ S)
    rw [hΦ1, Finset.sum_eq_zero] at this
    · exact one_ne_zero this
    · intro c hc
      rw [hno c (Finset.mem_range.1 hc), zero_mul]
  choose β hβ1 hβ2 using hex
  have hinj : Function.Injective β := fun S S' e => hS S S' _ (hβ1 S) (hβ2 S) (by rw [e]; exact hβ2 S')
  have hsurj : ∀ b, b < 2 ^ n → ∃ S, β S = b := by
    have himg : Finset.univ.image β = Finset.range (2 ^ n) := by
      refine Finset.eq_of_subset_of_card_le ?_ ?_
      · intro b hb
        obtain ⟨S, -, rfl⟩ := Finset.mem_image.1 hb
        exact Finset.mem_range.2 (hβ1 S)
      · rw [Finset.card_image_of_injective _ hinj]
        simp
    intro b hb
    rw [← Finset.mem_range, ← himg] at hb
    obtain ⟨S, -, e⟩ := Finset.mem_image.1 hb
    exact ⟨S, e⟩
  choose! occ hocc using hsurj
  have hocc' : ∀ S, occ (β S) = S := fun S => hinj (hocc _ (hβ1 S))
  have hon : ∀ b, b < 2 ^ n → ip (Φ (occ b)) (ψ b) ≠ 0 := by
    intro b hb
    have := hβ2 (occ b)
    rwa [hocc b hb] at this
  refine ⟨occ, fun S => ⟨β S, hβ1 S, hocc' S⟩, fun b b' hb hb' e => ?_, fun q b hb hq => hQ _ b q hb hq (hon b hb),
    fun b hb => hE _ b hb (hon b hb), fun b hb k => ?_⟩
  · rw [← hocc b hb, ← hocc b' hb', e]
  · have key : Φ (occ b) = ip (ψ b) (Φ (occ b)) • ψ b := by
      refine ip_ext hψ.orth fun c hc => ?_
      rw [ip_smul_right, hψ.orth c b hc hb]
      by_cases hcb : c = b
      · rw [hcb, if_pos rfl, mul_one]
      · rw [if_neg hcb, mul_zero]
        by_contra hne
        have h1 : ip (Φ (occ b)) (ψ c) ≠ 0 := by
          rw [← ip_conj]
          exact fun h0 => hne ((map_eq_zero _).1 h0)
        have h2 := hS _ _ c hc h1 (hon c hc)
        exact hcb (by rw [← hocc c hc, ← hocc b hb, h2])
    have hz : ip (ψ b) (Φ (occ b)) ≠ 0 := by
      rw [← ip_conj]
      exact fun h0 => hon b hb ((map_eq_zero _).1 h0)
    have e := hΦ2 (occ b) k
    rw [key, Matrix.mulVec_smul, smul_comm] at e
    exact smul_right_injective _ hz e

/-- The amplitudes between such states: an electron enters an empty orbital, and the other orbitals keep theirs. -/
theorem free_amps {u : Fin n → Fin n → ℂ} (hu : ∀ i k, ∑ j, conj (u i j) * u k j = if i = k then 1 else 0)
    {ψ : Nat → Occ n → ℂ} (ho : ∀ a b, a < 2 ^ n → b < 2 ^ n → ip (ψ a) (ψ b) = if a = b then 1 else 0)
    {occ : Nat → Finset (Fin n)}
    (hi : ∀ b b', b < 2 ^ n → b' < 2 ^ n → occ b = occ b' → b = b')
    (hN : ∀ b, b < 2 ^ n → ∀ k, (creMode (u k) * (creMode (u k))ᴴ) *ᵥ ψ b = (if k ∈ occ b then (1 : ℂ) else 0) • ψ b)
    {b c : Nat} (hb : b < 2 ^ n) (hc : c < 2 ^ n) (k : Fin n) :
    Complex.normSq (ip (ψ c) (creMode (u k) *ᵥ ψ b)) = if k ∉ occ b ∧ occ c = insert k (occ b) then 1 else 0 := by
  have hm := modes_of hu
  have hh : ∀ k, (creMode (u k) * (creMode (u k))ᴴ)ᴴ = creMode (u k) * (creMode (u k))ᴴ := fun k =>
    Modes.num_herm (C := fun k => creMode (u k)) k
  have h0 : ∀ {c}, c < 2 ^ n → occ c ≠ insert k (occ b) → ip (ψ c) (creMode (u k) *ᵥ ψ b) = 0 := fun {c} hc hne =>
    num_orth hh (hN c hc) (hm.num_after (hN b hb) k) hne
  by_cases hk : k ∈ occ b
  · rw [hm.full (hN b hb) hk, if_neg (fun h => h.1 hk), ip_eq_sum]
    simp
  by_cases hcb : occ c = insert k (occ b)
  swap
  · rw [h0 hc hcb, if_neg (fun h => hcb h.2), map_zero]
  rw [if_pos ⟨hk, hcb⟩]
  have e := hm.norm_after (hN b hb) hk
  rw [ho b b hb hb, if_pos rfl, ip_complete ho, Finset.sum_eq_single c] at e
  · have : ((Complex.normSq (ip (ψ c) (creMode (u k) *ᵥ ψ b)) : ℝ) : ℂ) = 1 := by
      rw [← e, ← Complex.mul_conj, ip_conj, mul_comm]
    exact_mod_cast this
  · intro d hd hdc
    rw [h0 (Finset.mem_range.1 hd) (fun h => hdc (hi d c (Finset.mem_range.1 hd) hc (h.trans hcb.symm))), mul_zero]
  · intro h
    exact absurd (Finset.mem_range.2 hc) h

end

end Verif
