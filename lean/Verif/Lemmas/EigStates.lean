import Verif.Props.BasisDiag
import Verif.Lemmas.SpinTun

/-! Two sets of eigenstates of one Hamiltonian, each numbered in its own way. -/

namespace Verif
open Verif.Spec Matrix
open scoped ComplexConjugate

variable {n : Nat}

noncomputable section

/-- Orthonormal eigenstates of `H` with the energies `E`; those in `row c` have charge `c`. -/
structure EigStates (row : Nat → List Nat) (H : Matrix (Occ n) (Occ n) ℂ) (ψ : Nat → Occ n → ℂ) (E : Nat → ℝ) : Prop where
  orth : ∀ a b, a < 2 ^ n → b < 2 ^ n → ip (ψ a) (ψ b) = if a = b then 1 else 0
  eig : ∀ b, b < 2 ^ n → H *ᵥ ψ b = ((E b : ℝ) : ℂ) • ψ b
  sec : ∀ c, ∀ b ∈ row c, ∀ s, ψ b s ≠ 0 → s.count = c

theorem ip_count {c c' : Nat} {x y : Occ n → ℂ} (hx : ∀ s, x s ≠ 0 → s.count = c) (hy : ∀ s, y s ≠ 0 → s.count = c')
    (h : c ≠ c') : ip x y = 0 := by
  rw [ip_eq_sum]
  refine Finset.sum_eq_zero fun s _ => ?_
  by_contra hne
  have h1 := hx s (fun h0 => left_ne_zero_of_mul hne (by rw [h0, map_zero]))
  have h2 := hy s (right_ne_zero_of_mul hne)
  omega

section
variable {v : View} {la : Lab} (h : VOk v la) (hall : RTD.AllCoherences v la)
  (hN : ∀ b, b < 2 ^ n ↔ ∃ q, b ∈ v.row q) {H : Matrix (Occ n) (Occ n) ℂ} (hH : Hᴴ = H)
  {ψ ψ' : Nat → Occ n → ℂ} {E E' : Nat → ℝ} (hψ : EigStates v.row H ψ E) (hψ' : EigStates v.row H ψ' E')

include hN in
theorem sum_states {q : Nat} (f : Nat → ℂ) (hf : ∀ b, b < 2 ^ n → b ∉ v.row q → f b = 0) :
    ∑ b ∈ (v.row q).toFinset, f b = ∑ b ∈ Finset.range (2 ^ n), f b := by
  refine Finset.sum_subset ?_ ?_
  · intro b hb
    exact Finset.mem_range.2 ((hN b).2 ⟨q, List.mem_toFinset.1 hb⟩)
  · intro b hb hn
    exact hf b (Finset.mem_range.1 hb) (fun e => hn (List.mem_toFinset.2 e))

include hN in
/-- States outside of the charge do not overlap with those of the charge. -/
theorem ip_outside {φ χ : Nat → Occ n → ℂ} (hφ : ∀ c, ∀ b ∈ v.row c, ∀ s, φ b s ≠ 0 → s.count = c)
    (hχ : ∀ c, ∀ b ∈ v.row c, ∀ s, χ b s ≠ 0 → s.count = c) {q b y : Nat} (hb : b ∈ v.row q) (hy : y < 2 ^ n)
    (hn : y ∉ v.row q) : ip (φ b) (χ y) = 0 ∧ ip (χ y) (φ b) = 0 := by
  obtain ⟨q', hq'⟩ := (hN y).1 hy
  have hne : q ≠ q' := by rintro rfl; exact hn hq'
  exact ⟨ip_count (hφ q b hb) (hχ q' y hq') hne, ip_count (hχ q' y hq') (hφ q b hb) (Ne.symm hne)⟩

include hall hN hH hψ hψ' in
/-- The eigenstates are connected by a change of the basis, and so are matrix elements between them. -/
theorem basis_of_states {L : Nat} {M : Nat → Matrix (Occ n) (Occ n) ℂ} {T T' : Nat → Nat → Nat → ℂ}
    (hT : ∀ l b a, b < 2 ^ n → a < 2 ^ n → T l b a = if l < L then ip (ψ b) (M l *ᵥ ψ a) else 0)
    (hT' : ∀ l b a, b < 2 ^ n → a < 2 ^ n → T' l b a = if l < L then ip (ψ' b) (M l *ᵥ ψ' a) else 0) :
    EigenbasisTo v la E E' (fun b y => ip (ψ' b) (ψ y)) ∧
      NewTba v (fun b y => ip (ψ' b) (ψ y)) (fun _ => 1) T T' := by
  have hlt : ∀ {q b}, b ∈ v.row q → b < 2 ^ n := fun {q b} hb => (hN b).2 ⟨q, hb⟩
  have hrot : ∀ l {q q' c b}, c ∈ v.row q → b ∈ v.row q' → T' l c b
      = ∑ y ∈ (v.row q).toFinset, ∑ z ∈ (v.row q').toFinset,
        ip (ψ' c) (ψ y) * T l y z * conj (ip (ψ' b) (ψ z)) := by
    intro l q q' c b hc hb
    rw [hT' l c b (hlt hc) (hlt hb)]
    by_cases hl : l < L
    swap
    · rw [if_neg hl]
      symm
      refine Finset.sum_eq_zero fun y hy => Finset.sum_eq_zero fun z hz => ?_
      rw [hT l y z (hlt (List.mem_toFinset.1 hy)) (hlt (List.mem_toFinset.1 hz)), if_neg hl, mul_zero, zero_mul]
    rw [if_pos hl, ip_complete hψ.orth, ← sum_states hN (q := q) _ (fun y hy hn => by
      rw [(ip_outside hN hψ'.sec hψ.sec hc hy hn).1, zero_mul])]
    refine Finset.sum_congr rfl fun y hy => ?_
    have hy := List.mem_toFinset.1 hy
    have e : ip (ψ y) (M l *ᵥ ψ' b) = ip ((M l)ᴴ *ᵥ ψ y) (ψ' b) := by
      rw [ip_adj, Matrix.conjTranspose_conjTranspose]
    rw [e, ip_complete hψ.orth ((M l)ᴴ *ᵥ ψ y) (ψ' b), ← sum_states hN (q := q') _ (fun z hz hn => by
      rw [(ip_outside hN hψ'.sec hψ.sec hb hz hn).2, mul_zero]), Finset.mul_sum]
    refine Finset.sum_congr rfl fun z hz => ?_
    have hz := List.mem_toFinset.1 hz
    rw [hT l y z (hlt hy) (hlt hz), if_pos hl, ip_adj, Matrix.conjTranspose_conjTranspose, ip_conj, mul_assoc]
  refine ⟨⟨?_, ?_, ?_⟩, ⟨by simp, ?_, ?_⟩⟩
  · intro q y hy y' hy'
    rw [sum_states hN _ (fun b hb hn => by
      rw [(ip_outside hN hψ.sec hψ'.sec hy hb hn).2, map_zero, zero_mul]), ← hψ.orth y y' (hlt hy) (hlt hy'),
      ip_complete hψ'.orth]
    exact Finset.sum_congr rfl fun b _ => by rw [ip_conj]
  · intro q b hb y hy hne
    have e := ip_adj H (ψ' b) (ψ y)
    rw [hH, hψ'.eig b (hlt hb), hψ.eig y (hlt hy), ip_smul_left, ip_smul_right, Complex.conj_ofReal] at e
    exact_mod_cast mul_right_cancel₀ hne e
  · intro q b hb bp hbp y hy yp hyp _ _
    rw [hall q b bp hb hbp, hall q y yp hy hyp]
  all_goals
    intro l q c hc b hb
    simp only [map_one, one_mul]
  · exact hrot l hc hb
  · exact hrot l hb hc

end

end

end Verif
