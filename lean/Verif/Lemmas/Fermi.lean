import Verif.Spec.Fermi
import Mathlib.Tactic.Ring
import Mathlib.Tactic.SplitIfs
import Mathlib.Algebra.BigOperators.Fin
import Mathlib.Algebra.BigOperators.Ring.Finset

/-! The canonical anticommutation relations, and products of fermionic operators. -/

namespace Verif.Spec

open Function

variable {n : Nat} {K : Type} [CommRing K]

theorem sgn_mul_self (s : Occ n) (i : Fin n) : sgn s i * sgn s i = 1 := by
  unfold sgn
  rw [← pow_add, ← two_mul, pow_mul]
  simp

theorem sgn_update (s : Occ n) (i j : Fin n) (b : Bool) (h : s j ≠ b) :
    sgn (update s j b) i = if j < i then -sgn s i else sgn s i := by
  unfold sgn
  by_cases hji : j < i
  · rw [if_pos hji]
    cases b with
    | true =>
      have hs : s j = false := by simpa using h
      have : (Finset.univ.filter fun k => k < i ∧ update s j true k = true)
          = insert j (Finset.univ.filter fun k => k < i ∧ s k = true) := by
        ext k
        by_cases hk : k = j
        · subst hk; simp [hji]
        · simp [update_of_ne hk, hk]
      rw [this, Finset.card_insert_of_notMem (by simp [hs]), pow_succ]
      ring
    | false =>
      have hs : s j = true := by simpa using h
      have : (Finset.univ.filter fun k => k < i ∧ s k = true)
          = insert j (Finset.univ.filter fun k => k < i ∧ update s j false k = true) := by
        ext k
        by_cases hk : k = j
        · subst hk; simp [hji, hs]
        · simp [update_of_ne hk, hk]
      rw [this, Finset.card_insert_of_notMem (by simp), pow_succ]
      ring
  · rw [if_neg hji]
    congr 2
    ext k
    by_cases hk : k = j
    · subst hk; simp [hji]
    · simp [update_of_ne hk]

/-- A matrix with at most one non-zero entry in each column. -/
def Mono (X : Matrix (Occ n) (Occ n) K) (f : Occ n → Option (ℤ × Occ n)) : Prop :=
  ∀ s' s, X s' s = match f s with
    | none => 0
    | some (c, u) => if s' = u then ((c : ℤ) : K) else 0

theorem Mono.mul {X Y : Matrix (Occ n) (Occ n) K} {f g : Occ n → Option (ℤ × Occ n)}
    (hX : Mono X f) (hY : Mono Y g) :
    Mono (X * Y) fun s => (g s).bind fun p => (f p.2).map fun q => (q.1 * p.1, q.2) := by
  intro s' s
  rw [Matrix.mul_apply]
  simp only [hY _ s]
  cases hg : g s with
  | none => simp
  | some p =>
    obtain ⟨c, u⟩ := p
    simp only [mul_ite, mul_zero, Finset.sum_ite_eq', Finset.mem_univ, if_true]
    rw [hX s' u]
    cases hf : f u with
    | none => simp [hf]
    | some q =>
      obtain ⟨d, w⟩ := q
      simp only [hf, Option.bind_some, Option.map_some]
      split <;> simp

theorem Mono.one : Mono (1 : Matrix (Occ n) (Occ n) K) fun s => some (1, s) := by
  intro s' s
  simp [Matrix.one_apply]

/-- What `ann i` does to a basis state. -/
def annF (i : Fin n) (s : Occ n) : Option (ℤ × Occ n) :=
  if s i = true then some (sgn s i, update s i false) else none

/-- What `cre i` does to a basis state. -/
def creF (i : Fin n) (s : Occ n) : Option (ℤ × Occ n) :=
  if s i = true then none else some (sgn s i, update s i true)

theorem ann_mono (i : Fin n) : Mono (ann i : Matrix (Occ n) (Occ n) K) (annF i) := by
  intro s' s
  unfold ann annF
  simp only [Matrix.of_apply]
  by_cases h : s i = true
  · simp [h]
  · simp [h]

theorem cre_mono (i : Fin n) : Mono (cre i : Matrix (Occ n) (Occ n) K) (creF i) := by
  intro s' s
  unfold cre ann creF
  simp only [Matrix.transpose_apply, Matrix.of_apply]
  by_cases h : s i = true
  · simp only [h, if_true]
    rw [if_neg]
    rintro ⟨h1, h2⟩
    rw [h2] at h
    simp at h
  · have h' : s i = false := by simpa using h
    simp only [h', Bool.false_eq_true, if_false]
    by_cases e : s' = update s i true
    · rw [if_pos e, if_pos]
      · rw [e, sgn_update _ _ _ _ (by simp [h'])]
        simp
      · rw [e]
        refine ⟨by simp, ?_⟩
        rw [update_idem, ← h', update_eq_self]
    · rw [if_neg e, if_neg]
      rintro ⟨h1, h2⟩
      apply e
      rw [h2, update_idem, ← h1, update_eq_self]

theorem Mono.add_eq_zero {X Y : Matrix (Occ n) (Occ n) K} {f g : Occ n → Option (ℤ × Occ n)}
    (hX : Mono X f) (hY : Mono Y g)
    (h : ∀ s, f s = (g s).map fun p => (-p.1, p.2)) : X + Y = 0 := by
  ext s' s
  rw [Matrix.add_apply, hX s' s, hY s' s, h s]
  cases g s with
  | none => simp
  | some p => simp only [Option.map_some]; split <;> simp

/-- Annihilation operators anticommute. -/
theorem ann_ann (i j : Fin n) :
    (ann i * ann j + ann j * ann i : Matrix (Occ n) (Occ n) K) = 0 := by
  refine ((ann_mono i).mul (ann_mono j)).add_eq_zero ((ann_mono j).mul (ann_mono i)) ?_
  intro s
  unfold annF
  by_cases hij : i = j
  · subst hij
    by_cases hi : s i = true <;> simp [hi]
  · by_cases hi : s i = true <;> by_cases hj : s j = true <;>
      simp [hi, hj, update_of_ne hij, update_of_ne (Ne.symm hij)]
    refine ⟨?_, update_comm (Ne.symm hij) _ _ _⟩
    rw [sgn_update s _ _ _ (by simp [hi, hj]), sgn_update s _ _ _ (by simp [hi, hj])]
    rcases lt_trichotomy i j with h | h | h
    · rw [if_pos h, if_neg (lt_asymm h)]; ring
    · exact absurd h hij
    · rw [if_pos h, if_neg (lt_asymm h)]; ring

/-- Creation operators anticommute. -/
theorem cre_cre (i j : Fin n) :
    (cre i * cre j + cre j * cre i : Matrix (Occ n) (Occ n) K) = 0 := by
  unfold cre
  rw [← Matrix.transpose_mul, ← Matrix.transpose_mul, ← Matrix.transpose_add, add_comm,
    ann_ann, Matrix.transpose_zero]

/-- Creation and annihilation operators of different orbitals anticommute. -/
theorem ann_cre_ne {i j : Fin n} (hij : i ≠ j) :
    (ann i * cre j + cre j * ann i : Matrix (Occ n) (Occ n) K) = 0 := by
  refine ((ann_mono i).mul (cre_mono j)).add_eq_zero ((cre_mono j).mul (ann_mono i)) ?_
  intro s
  unfold annF creF
  by_cases hi : s i = true <;> by_cases hj : s j = true <;>
    simp [hi, hj, update_of_ne hij, update_of_ne (Ne.symm hij)]
  refine ⟨?_, update_comm (Ne.symm hij) _ _ _⟩
  rw [sgn_update s _ _ _ (by simp [hi, hj]), sgn_update s _ _ _ (by simp [hi, hj])]
  rcases lt_trichotomy i j with h | h | h
  · rw [if_pos h, if_neg (lt_asymm h)]; ring
  · exact absurd h hij
  · rw [if_pos h, if_neg (lt_asymm h)]; ring

/-- Creation and annihilation operators of one orbital. -/
theorem ann_cre_self (i : Fin n) :
    (ann i * cre i + cre i * ann i : Matrix (Occ n) (Occ n) K) = 1 := by
  ext s' s
  rw [Matrix.add_apply, ((ann_mono i).mul (cre_mono i)) s' s, ((cre_mono i).mul (ann_mono i)) s' s,
    Mono.one s' s]
  unfold annF creF
  by_cases hi : s i = true
  · have e : sgn (update s i false) i = sgn s i := by
      rw [sgn_update _ _ _ _ (by simp [hi])]; simp
    have e2 : update s i true = s := by rw [← hi, update_eq_self]
    simp [hi, e, e2, sgn_mul_self]
  · have hi' : s i = false := by simpa using hi
    have e : sgn (update s i true) i = sgn s i := by
      rw [sgn_update _ _ _ _ (by simp [hi])]; simp
    have e2 : update s i false = s := by rw [← hi', update_eq_self]
    simp [hi', e, e2, sgn_mul_self]

/-! ### Lists of occupations -/

theorem ofOcc_length (s : Occ n) : (ofOcc s).length = n := by simp [ofOcc]

theorem ofOcc_getElem (s : Occ n) (i : Nat) (h : i < (ofOcc s).length) :
    (ofOcc s)[i] = if s ⟨i, by simpa [ofOcc] using h⟩ then 1 else 0 := by
  simp [ofOcc]

theorem ofOcc_set (s : Occ n) (i : Fin n) (b : Bool) :
    (ofOcc s).set i (if b then 1 else 0) = ofOcc (update s i b) := by
  refine List.ext_getElem (by simp [ofOcc]) ?_
  intro k h1 h2
  rw [List.getElem_set, ofOcc_getElem, ofOcc_getElem]
  by_cases hk : (i : Nat) = k
  · subst hk; simp
  · rw [if_neg hk, update_of_ne]
    intro e
    exact hk (by rw [← e])

theorem ofOcc_injective : Injective (ofOcc : Occ n → List Nat) := by
  intro s t h
  ext i
  have : (ofOcc s)[(i : Nat)]? = (ofOcc t)[(i : Nat)]? := by rw [h]
  simp only [ofOcc, List.getElem?_ofFn, i.isLt, dif_pos, Option.some.injEq] at this
  by_cases a : s i = true <;> by_cases b : t i = true <;> simp_all

theorem sum_ofFn_take (s : Occ n) (k : Nat) (hk : k ≤ n) :
    ((ofOcc s).take k).sum = (Finset.univ.filter fun j : Fin n => (j : Nat) < k ∧ s j = true).card := by
  induction k with
  | zero => simp
  | succ k ih =>
    have h1 : k < (ofOcc s).length := by rw [ofOcc_length]; omega
    rw [List.take_succ_eq_append_getElem h1, List.sum_append, ih (by omega), ofOcc_getElem]
    set a : Fin n := ⟨k, by omega⟩ with ha
    by_cases hs : s a = true
    · have : (Finset.univ.filter fun j : Fin n => (j : Nat) < k + 1 ∧ s j = true)
          = insert a (Finset.univ.filter fun j : Fin n => (j : Nat) < k ∧ s j = true) := by
        ext j
        simp only [Finset.mem_filter, Finset.mem_univ, true_and, Finset.mem_insert]
        constructor
        · rintro ⟨h1, h2⟩
          by_cases e : (j : Nat) = k
          · left; exact Fin.ext e
          · right; exact ⟨by omega, h2⟩
        · rintro (rfl | ⟨h1, h2⟩)
          · exact ⟨by simp [ha], hs⟩
          · exact ⟨by omega, h2⟩
      rw [this, Finset.card_insert_of_notMem (by simp [ha])]
      simp [hs]
    · have : (Finset.univ.filter fun j : Fin n => (j : Nat) < k + 1 ∧ s j = true)
          = (Finset.univ.filter fun j : Fin n => (j : Nat) < k ∧ s j = true) := by
        ext j
        simp only [Finset.mem_filter, Finset.mem_univ, true_and]
        constructor
        · rintro ⟨h1, h2⟩
          refine ⟨?_, h2⟩
          by_contra hc
          have : j = a := Fin.ext (by simp [ha]; omega)
          rw [this] at h2
          exact hs h2
        · rintro ⟨h1, h2⟩
          exact ⟨by omega, h2⟩
      rw [this]
      simp [hs]

theorem pow_take (s : Occ n) (i : Fin n) : (-1 : ℤ) ^ ((ofOcc s).take i).sum = sgn s i := by
  rw [sum_ofFn_take s i (by omega)]
  rfl

theorem ofOcc_sum (s : Occ n) : (ofOcc s).sum = s.count := by
  have := sum_ofFn_take s n le_rfl
  rw [List.take_of_length_le (by rw [ofOcc_length])] at this
  rw [this]
  unfold Occ.count
  congr 1
  ext j
  simp [j.isLt]

theorem count_update_false (s : Occ n) (i : Fin n) (h : s i = true) :
    Occ.count (update s i false) + 1 = s.count := by
  unfold Occ.count
  have : (Finset.univ.filter fun j => s j = true)
      = insert i (Finset.univ.filter fun j => update s i false j = true) := by
    ext j
    by_cases e : j = i
    · subst e; simp [h]
    · simp [update_of_ne e, e]
  rw [this, Finset.card_insert_of_notMem (by simp)]

theorem count_update_true (s : Occ n) (i : Fin n) (h : s i = false) :
    Occ.count (update s i true) = s.count + 1 := by
  have := count_update_false (update s i true) i (by simp)
  rw [update_idem, ← h, update_eq_self] at this
  exact this.symm

end Verif.Spec
