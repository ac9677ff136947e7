import Verif.Model.Various
import Verif.Lemmas.Py
import Verif.Lemmas.DMDict

/-! `lexsort` and `multiarray_sort`. -/

namespace Verif

section
variable {α : Type} [LinearOrder α]

theorem keyLe_total (ks : List (List α)) (i j : Nat) : (keyLe ks i j || keyLe ks j i) = true := by
  induction ks with
  | nil => rfl
  | cons k ks ih =>
    unfold keyLe
    rcases lt_trichotomy (keyAt k i) (keyAt k j) with h | h | h
    · simp [h]
    · simp only [h, lt_irrefl, if_false]; exact ih
    · simp [h]

theorem keyLe_trans (ks : List (List α)) (i j l : Nat) (h1 : keyLe ks i j = true)
    (h2 : keyLe ks j l = true) : keyLe ks i l = true := by
  induction ks with
  | nil => rfl
  | cons k ks ih =>
    unfold keyLe at h1 h2 ⊢
    rcases lt_trichotomy (keyAt k i) (keyAt k j) with a | a | a
    · rcases lt_trichotomy (keyAt k j) (keyAt k l) with b | b | b
      · simp [a.trans b]
      · rw [← b]; simp [a]
      · simp [b, b.le, not_lt.2 b.le] at h2
    · rcases lt_trichotomy (keyAt k j) (keyAt k l) with b | b | b
      · rw [a]; simp [b]
      · rw [if_neg (by rw [a]; exact lt_irrefl _), if_neg (by rw [a]; exact lt_irrefl _)] at h1
        rw [if_neg (by rw [b]; exact lt_irrefl _), if_neg (by rw [b]; exact lt_irrefl _)] at h2
        rw [if_neg (by rw [a, b]; exact lt_irrefl _), if_neg (by rw [a, b]; exact lt_irrefl _)]
        exact ih h1 h2
      · simp [b, not_lt.2 b.le] at h2
    · simp [a, not_lt.2 a.le] at h1

/-- Lexicographic order by the keys, as a proposition: some key distinguishes the two columns in
the right direction and the more important ones do not, or no key distinguishes them. -/
theorem keyLe_iff (ks : List (List α)) (i j : Nat) :
    keyLe ks i j = true ↔ (∃ p, p < ks.length ∧ (∀ q (hq : q < p) (h : q < ks.length), keyAt ks[q] i = keyAt ks[q] j) ∧
      ∃ h : p < ks.length, keyAt ks[p] i < keyAt ks[p] j) ∨
      (∀ q (h : q < ks.length), keyAt ks[q] i = keyAt ks[q] j) := by
  induction ks with
  | nil => simp [keyLe]
  | cons k ks ih =>
    unfold keyLe
    rcases lt_trichotomy (keyAt k i) (keyAt k j) with a | a | a
    · simp only [a, if_true, true_iff]
      left
      exact ⟨0, by simp, by simp, by simp, by simpa using a⟩
    · have e : (keyAt k i) = (keyAt k j) := a
      simp only [a, lt_irrefl, if_false]
      rw [ih]
      constructor
      · rintro (⟨p, hp, h1, hp', h2⟩ | h)
        · left
          refine ⟨p + 1, by simpa using hp, ?_, by simpa using hp, by simpa using h2⟩
          intro q hq h
          cases q with
          | zero => simpa using e
          | succ q => simpa using h1 q (by omega) (by simpa using h)
        · right
          intro q h'
          cases q with
          | zero => simpa using e
          | succ q => simpa using h q (by simpa using h')
      · rintro (⟨p, hp, h1, hp', h2⟩ | h)
        · left
          cases p with
          | zero =>
            simp only [List.getElem_cons_zero] at h2
            rw [e] at h2
            exact absurd h2 (lt_irrefl _)
          | succ p =>
            refine ⟨p, by simpa using hp, ?_, by simpa using hp, by simpa using h2⟩
            intro q hq h
            exact h1 (q + 1) (by omega) (by simpa using h)
        · right
          intro q h'
          exact h (q + 1) (by simpa using h')
    · simp only [not_lt.2 a.le, a, if_false, if_true, Bool.false_eq_true, false_iff, not_or, not_exists]
      constructor
      · rintro p ⟨hp, h1, hp', h2⟩
        cases p with
        | zero =>
          simp only [List.getElem_cons_zero] at h2
          exact absurd h2 (not_lt.2 a.le)
        | succ p =>
          have := h1 0 (by omega) (by simp)
          simp only [List.getElem_cons_zero] at this
          rw [this] at a
          exact absurd a (lt_irrefl _)
      · intro h
        have := h 0 (by simp)
        simp only [List.getElem_cons_zero] at this
        rw [this] at a
        exact absurd a (lt_irrefl _)

theorem lexsort_spec (keys : List (List α)) {n : Nat} (hne : keys ≠ [])
    (hl : ∀ k ∈ keys, k.length = n) : ∃ σ, lexsort keys = .ok σ ∧ σ.Perm (List.range n) ∧
      σ.Pairwise fun i j => keyLe keys.reverse i j = true := by
  unfold lexsort
  cases hr : keys.reverse with
  | nil => simp at hr; exact absurd hr hne
  | cons k ks =>
    have hk : k.length = n := hl k (by rw [← List.mem_reverse, hr]; simp)
    have hks : (ks.all fun r => r.length = k.length) = true := by
      simp only [List.all_eq_true, decide_eq_true_eq]
      intro r h
      rw [hk]
      exact hl r (by rw [← List.mem_reverse, hr]; simp [h])
    simp only [hks, if_true]
    rw [hk]
    have : Std.Total fun i j : Nat => keyLe (k :: ks) i j = true :=
      ⟨fun i j => by simpa using keyLe_total (k :: ks) i j⟩
    have : IsTrans Nat fun i j : Nat => keyLe (k :: ks) i j = true := ⟨keyLe_trans (k :: ks)⟩
    exact ⟨_, rfl, List.perm_insertionSort _ _, List.pairwise_insertionSort _ _⟩

theorem mapM_ok_map {β γ : Type} (f : β → Py γ) (g : β → γ) (l : List β)
    (h : ∀ a ∈ l, f a = .ok (g a)) : l.mapM f = .ok (l.map g) := by
  induction l with
  | nil => rfl
  | cons a l ih =>
    rw [List.mapM_cons, h a (by simp), ih (fun b hb => h b (by simp [hb]))]
    rfl

/-- `multiarray_sort` permutes the columns; the new order is sorted by the rows `srt`. -/
theorem multiarraySort_spec [Inhabited α] (arr : List (List α)) (srt : List Int) {n : Nat}
    (keys : List (List α)) (hk : srt.mapM (fun i => pyGet arr i) = .ok keys) (hs : srt ≠ [])
    (hl : ∀ r ∈ arr, r.length = n) :
    ∃ σ : List Nat, multiarraySort arr srt = .ok (arr.map fun r => σ.map fun j => r.getD j default) ∧
      σ.Perm (List.range n) ∧ σ.Pairwise fun i j => keyLe keys i j = true := by
  have hrev : srt.reverse.mapM (fun i => pyGet arr i) = .ok keys.reverse := by
    clear hs
    induction srt generalizing keys with
    | nil => simp at hk; cases hk; rfl
    | cons i srt ih =>
      rw [List.mapM_cons] at hk
      cases h1 : pyGet arr i with
      | error e => rw [h1] at hk; cases hk
      | ok r =>
        rw [h1, py_bind_ok] at hk
        cases h2 : srt.mapM (fun i => pyGet arr i) with
        | error e => rw [h2] at hk; cases hk
        | ok rs =>
          rw [h2, py_bind_ok] at hk
          cases hk
          rw [List.reverse_cons, List.mapM_append, ih rs h2]
          simp [h1]
  have hmem : ∀ k ∈ keys, k ∈ arr := by
    clear hrev hs
    induction srt generalizing keys with
    | nil => simp at hk; cases hk; simp
    | cons i srt ih =>
      rw [List.mapM_cons] at hk
      cases h1 : pyGet arr i with
      | error e => rw [h1] at hk; cases hk
      | ok r =>
        rw [h1, py_bind_ok] at hk
        cases h2 : srt.mapM (fun i => pyGet arr i) with
        | error e => rw [h2] at hk; cases hk
        | ok rs =>
          rw [h2, py_bind_ok] at hk
          cases hk
          intro k hk
          rcases List.mem_cons.1 hk with rfl | hk
          · unfold pyGet at h1
            split at h1
            · split at h1
              · rename_i h; cases h1; exact List.mem_of_getElem? h
              · cases h1
            · cases h1
          · exact ih rs h2 k hk
  have hne : keys.reverse ≠ [] := by
    intro h
    have : keys = [] := by simpa using h
    subst this
    cases srt with
    | nil => exact hs rfl
    | cons i srt =>
      rw [List.mapM_cons] at hk
      cases h1 : pyGet arr i with
      | error e => rw [h1] at hk; cases hk
      | ok r =>
        rw [h1, py_bind_ok] at hk
        cases h2 : srt.mapM (fun i => pyGet arr i) with
        | error e => rw [h2] at hk; cases hk
        | ok rs => rw [h2, py_bind_ok] at hk; cases hk
  obtain ⟨σ, h1, h2, h3⟩ := lexsort_spec keys.reverse (n := n) hne
    (fun k h => hl k (hmem k (by simpa using h)))
  refine ⟨σ, ?_, h2, by simpa using h3⟩
  unfold multiarraySort
  rw [hrev, py_bind_ok, h1, py_bind_ok]
  apply mapM_ok_map
  intro r hr
  apply mapM_ok_map
  intro j hj
  have hjn : j < r.length := by
    rw [hl r hr]
    simpa using h2.mem_iff.1 hj
  rw [pyGet_nat _ hjn]
  simp [List.getD_eq_getElem?_getD, List.getElem?_eq_getElem hjn]

end

end Verif
