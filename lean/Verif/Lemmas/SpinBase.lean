import Verif.Lemmas.SpinDiag
import Verif.Props.Diag

/-! The eigenvectors of the total spin in one sector. -/

namespace Verif
open Verif.Spec Matrix

variable {n : Nat}

/-- What is assumed of `np.linalg.eigh` in addition: the eigenvalues are in ascending order, and for a real
matrix the eigenvectors are real. -/
structure EighReal (eigh : Eigh) : Prop where
  ok : EighOk eigh
  real : ∀ (A : Arr) (m : Nat) (w : List ℝ) (v : Arr), A.dims = [m, m] →
    (∀ i j, i < m → j < m → (A.val [i, j]).im = 0 ∧ A.val [j, i] = A.val [i, j]) →
    eigh A = .ok (w, v) → w.Pairwise (· ≤ ·) ∧ ∀ i j, i < m → j < m → (v.val [i, j]).im = 0

/-! ### Counting -/

theorem choose_strict (m u v : Nat) (h : u < v) (hm : v ≤ m) :
    m.choose u * m.choose (v + 1) < m.choose (u + 1) * m.choose v := by
  have h1 : m.choose (u + 1) * (u + 1) = m.choose u * (m - u) := Nat.choose_succ_right_eq m u
  have h2 : m.choose (v + 1) * (v + 1) = m.choose v * (m - v) := Nat.choose_succ_right_eq m v
  have h3 : (m - v) * (u + 1) < (m - u) * (v + 1) := by
    apply Nat.mul_lt_mul'' <;> omega
  have p1 : 0 < m.choose u := Nat.choose_pos (by omega)
  have p2 : 0 < m.choose v := Nat.choose_pos (by omega)
  apply Nat.lt_of_mul_lt_mul_right (a := (u + 1) * (v + 1))
  calc m.choose u * m.choose (v + 1) * ((u + 1) * (v + 1))
      = m.choose u * (u + 1) * (m.choose (v + 1) * (v + 1)) := by ring
    _ = m.choose u * m.choose v * ((m - v) * (u + 1)) := by rw [h2]; ring
    _ < m.choose u * m.choose v * ((m - u) * (v + 1)) := Nat.mul_lt_mul_of_pos_left h3 (by positivity)
    _ = m.choose u * (m - u) * m.choose v * (v + 1) := by ring
    _ = m.choose (u + 1) * m.choose v * ((u + 1) * (v + 1)) := by rw [← h1]; ring

theorem szLen_strict (n c k : Nat) (hn : n % 2 = 0) (hc : c ≤ n) (hk : 2 * (k + 1) ≤ szW n c) :
    szLen n c k < szLen n c (k + 1) := by
  unfold szLen szW at *
  have := choose_strict (n / 2) ((c - n / 2) + k) (c - ((c - n / 2) + (k + 1))) (by omega) (by omega)
  have e : c - ((c - n / 2) + (k + 1)) + 1 = c - ((c - n / 2) + k) := by omega
  rw [e] at this
  rw [show (c - n / 2) + (k + 1) = (c - n / 2) + k + 1 by omega]
  exact this

theorem szLen_pos (n c k : Nat) (hn : n % 2 = 0) (hc : c ≤ n) (hk : k ≤ szW n c) : 0 < szLen n c k := by
  unfold szLen szW at *
  exact Nat.mul_pos (Nat.choose_pos (by omega)) (Nat.choose_pos (by omega))

/-- Every total spin of the table occurs. -/
theorem ssqM_pos (n c k q : Nat) (hn : n % 2 = 0) (hc : c ≤ n) (hk : k ≤ szW n c) (hq : q ≤ ssqE n c k) :
    0 < ssqM n c k q := by
  unfold ssqM
  unfold ssqE at hq
  by_cases h : q < min k (szW n c - k)
  · rw [if_pos h]
    have := szLen_strict n c (min k (szW n c - k) - q - 1) hn hc (by omega)
    rw [show min k (szW n c - k) - q - 1 + 1 = min k (szW n c - k) - q by omega] at this
    omega
  · rw [if_neg h]
    have := szLen_pos n c (min k (szW n c - k) - q) hn hc (by omega)
    omega

/-- The positions of a value in a list in ascending order are consecutive. -/
theorem filter_contig (f : Nat → Int) (x : Int) (d : Nat) (hf : ∀ i j, i ≤ j → j < d → f i ≤ f j) :
    ∃ a m, a + m ≤ d ∧ (List.range d).filter (fun i => f i = x) = List.range' a m ∧
      ∀ i, i < d → (f i = x ↔ a ≤ i ∧ i < a + m) := by
  induction d with
  | zero => exact ⟨0, 0, by simp, by simp, by simp⟩
  | succ d ih =>
    obtain ⟨a, m, h1, h2, h3⟩ := ih (fun i j h hj => hf i j h (by omega))
    rw [List.range_succ, List.filter_append, h2]
    by_cases hd : f d = x
    · rw [List.filter_cons_of_pos (by simpa using hd), List.filter_nil]
      rcases Nat.eq_zero_or_pos m with hm | hm
      · subst hm
        refine ⟨d, 1, by omega, by simp, ?_⟩
        intro i hi
        constructor
        · intro h
          by_contra hne
          have := (h3 i (by omega)).1 h
          omega
        · intro h
          have : i = d := by omega
          rw [this, hd]
      · have ham : a + m = d := by
          by_contra hne
          have e1 := (h3 a (by omega)).2 ⟨le_refl _, by omega⟩
          have e2 := hf a (a + m) (by omega) (by omega)
          have e3 := hf (a + m) d (by omega) (by omega)
          have e4 : f (a + m) = x := by omega
          have := (h3 (a + m) (by omega)).1 e4
          omega
        refine ⟨a, m + 1, by omega, ?_, ?_⟩
        · rw [List.range'_1_concat, ham]
        · intro i hi
          rcases Nat.lt_or_ge i d with h | h
          · rw [h3 i h]; omega
          · have : i = d := by omega
            subst this
            exact ⟨fun _ => by omega, fun _ => hd⟩
    · rw [List.filter_cons_of_neg (by simpa using hd), List.filter_nil, List.append_nil]
      refine ⟨a, m, by omega, rfl, ?_⟩
      intro i hi
      rcases Nat.lt_or_ge i d with h | h
      · exact h3 i h
      · have : i = d := by omega
        subst this
        exact ⟨fun h => absurd h hd, fun h => by omega⟩

/-- An eigenspace of a symmetric matrix has as many dimensions as there are eigenvectors in a complete
set. -/
theorem finrank_eigenspace {d : Nat} (A V : Matrix (Fin d) (Fin d) ℝ) (hA : Aᵀ = A) (hV : Vᵀ * V = 1)
    (lam : Fin d → ℝ) (hl : ∀ i, A *ᵥ (fun p => V p i) = lam i • fun p => V p i) (mu : ℝ) :
    Module.finrank ℝ (Module.End.eigenspace (Matrix.toLin' A) mu)
      = (Finset.univ.filter fun i => lam i = mu).card := by
  classical
  have hV' : V * Vᵀ = 1 := mul_eq_one_comm.1 hV
  have hdot : ∀ i j, (fun p => V p i) ⬝ᵥ (fun p => V p j) = if i = j then 1 else 0 := by
    intro i j
    have := congrFun (congrFun hV i) j
    rw [Matrix.mul_apply, Matrix.one_apply] at this
    exact this
  have hind : LinearIndependent ℝ fun i : {i // lam i = mu} => (fun p => V p i.1 : Fin d → ℝ) := by
    rw [linearIndependent_iff']
    intro s g hg i hi
    have := congrArg (fun x => (fun p => V p i.1) ⬝ᵥ x) hg
    simp only [dotProduct_zero] at this
    rw [dotProduct_sum, Finset.sum_eq_single i] at this
    · rw [dotProduct_smul, hdot, if_pos rfl] at this
      simpa using this
    · intro j _ hj
      rw [dotProduct_smul, hdot, if_neg (fun e => hj (Subtype.ext e.symm)), smul_zero]
    · intro h; exact absurd hi h
  have hspan : Module.End.eigenspace (Matrix.toLin' A) mu
      = Submodule.span ℝ (Set.range fun i : {i // lam i = mu} => (fun p => V p i.1 : Fin d → ℝ)) := by
    apply le_antisymm
    · intro x hx
      rw [Module.End.mem_eigenspace_iff, Matrix.toLin'_apply] at hx
      have hx1 : x = ∑ i, ((fun p => V p i) ⬝ᵥ x) • (fun p => V p i : Fin d → ℝ) := by
        have : x = V *ᵥ (Vᵀ *ᵥ x) := by rw [Matrix.mulVec_mulVec, hV', Matrix.one_mulVec]
        conv_lhs => rw [this]
        ext p
        rw [Finset.sum_apply]
        unfold Matrix.mulVec
        simp only [dotProduct, Pi.smul_apply, smul_eq_mul, Matrix.transpose_apply]
        refine Finset.sum_congr rfl fun i _ => ?_
        rw [mul_comm]
      have hz : ∀ i, lam i ≠ mu → (fun p => V p i) ⬝ᵥ x = 0 := by
        intro i hi
        have e1 : (fun p => V p i) ⬝ᵥ (A *ᵥ x) = (A *ᵥ fun p => V p i) ⬝ᵥ x := by
          rw [Matrix.dotProduct_mulVec, ← Matrix.mulVec_transpose, hA]
        rw [hx, hl, dotProduct_smul, smul_dotProduct, smul_eq_mul, smul_eq_mul] at e1
        have : (lam i - mu) * ((fun p => V p i) ⬝ᵥ x) = 0 := by rw [sub_mul, ← e1, sub_self]
        rcases mul_eq_zero.1 this with h | h
        · exact absurd (sub_eq_zero.1 h) hi
        · exact h
      rw [hx1]
      refine Submodule.sum_mem _ fun i _ => ?_
      by_cases hi : lam i = mu
      · exact Submodule.smul_mem _ _ (Submodule.subset_span ⟨⟨i, hi⟩, rfl⟩)
      · rw [hz i hi, zero_smul]; exact Submodule.zero_mem _
    · rw [Submodule.span_le]
      rintro _ ⟨i, rfl⟩
      show _ ∈ Module.End.eigenspace _ _
      rw [Module.End.mem_eigenspace_iff, Matrix.toLin'_apply, hl, i.2]
  rw [hspan, finrank_span_eq_card hind, Fintype.card_subtype]

end Verif
