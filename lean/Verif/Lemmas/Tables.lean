import Verif.Lemmas.Bits
import Mathlib.Data.List.Perm.Basic
import Mathlib.Data.List.Nodup
import Mathlib.Data.List.Range
import Mathlib.Data.List.Perm.Lattice

/-! Closed forms of the table-building loops of `indexing.py`. -/

namespace Verif

/-! ### Folds that cannot fail -/

theorem foldlM_ok {σ α : Type} {f : σ → α → Py σ} {g : σ → α → σ} (P : σ → Prop)
    (xs : List α) (s : σ) (hs : P s)
    (h : ∀ s, P s → ∀ a ∈ xs, f s a = .ok (g s a) ∧ P (g s a)) :
    xs.foldlM f s = .ok (xs.foldl g s) ∧ P (xs.foldl g s) := by
  induction xs generalizing s with
  | nil => exact ⟨rfl, hs⟩
  | cons a xs ih =>
    have h1 := h s hs a (by simp)
    rw [List.foldlM_cons, h1.1]
    exact ih (g s a) h1.2 fun s hs a ha => h s hs a (by simp [ha])

theorem foldlM_ok' {σ α : Type} {f : σ → α → Py σ} {g : σ → α → σ}
    (xs : List α) (s : σ) (h : ∀ s, ∀ a ∈ xs, f s a = .ok (g s a)) :
    xs.foldlM f s = .ok (xs.foldl g s) :=
  (foldlM_ok (fun _ => True) xs s trivial fun s _ a ha => ⟨h s a ha, trivial⟩).1

/-! ### One-level buckets -/

theorem modify_map_range {β : Type} (m k : Nat) (G : Nat → β) (f : β → β) :
    ((List.range m).map G).modify k f
      = (List.range m).map fun c => if c = k then f (G c) else G c := by
  apply List.ext_getElem
  · simp
  · intro i h1 h2
    simp [List.getElem_modify]
    split
    · rename_i h; simp [h]
    · rename_i h; simp [Ne.symm h]

theorem set_map_range {β : Type} (m k : Nat) (G : Nat → β) (v : β) :
    ((List.range m).map G).set k v = (List.range m).map fun c => if c = k then v else G c := by
  apply List.ext_getElem
  · simp
  · intro i h1 h2
    simp [List.getElem_set]
    split
    · rename_i h; simp [h]
    · rename_i h; simp [Ne.symm h]

theorem pyGet_map_range {β : Type} (m k : Nat) (G : Nat → β) (h : k < m) :
    pyGet ((List.range m).map G) (k : Int) = .ok (G k) := by
  rw [pyGet_nat _ (by simpa using h)]; simp

theorem bucket_fold (m : Nat) (k : Nat → Nat) (xs : List Nat) (hk : ∀ x ∈ xs, k x < m)
    (G : Nat → List Nat) :
    xs.foldlM (fun l x => pyModify l ((k x : Nat) : Int) (· ++ [x])) ((List.range m).map G)
      = .ok ((List.range m).map fun c => G c ++ xs.filter (fun x => k x = c)) := by
  induction xs generalizing G with
  | nil => simp
  | cons x xs ih =>
    rw [List.foldlM_cons, pyModify_nat _ _ (by simpa using hk x (by simp)), py_bind_ok,
      modify_map_range, ih (fun x hx => hk x (by simp [hx]))]
    congr 1
    apply List.map_congr_left
    intro c _
    by_cases h : k x = c
    · subst h; simp
    · simp [h, Ne.symm h]

/-! ### Two-level buckets -/

theorem bucket_fold2 (m : Nat) (w : Nat → Nat) (k1 : Nat → Nat) (k2 : Nat → Nat) (xs : List Nat)
    (h1 : ∀ x ∈ xs, k1 x < m) (h2 : ∀ x ∈ xs, k2 x < w (k1 x))
    (f : List (List (List Nat)) → Nat → Py (List (List (List Nat))))
    (hf : ∀ l, ∀ x ∈ xs, f l x = (do
        let row ← pyGet l ((k1 x : Nat) : Int)
        let row' ← pyModify row ((k2 x : Nat) : Int) (· ++ [x])
        pySet l ((k1 x : Nat) : Int) row'))
    (G : Nat → Nat → List Nat) :
    xs.foldlM f ((List.range m).map fun c => (List.range (w c)).map (G c))
      = .ok ((List.range m).map fun c => (List.range (w c)).map fun k =>
          G c k ++ xs.filter (fun x => k1 x = c ∧ k2 x = k)) := by
  induction xs generalizing G with
  | nil => simp
  | cons x xs ih =>
    have hx1 := h1 x (by simp)
    have hx2 := h2 x (by simp)
    rw [List.foldlM_cons, hf _ x (by simp), pyGet_map_range m (k1 x) _ hx1, py_bind_ok,
      pyModify_nat _ _ (by simpa using hx2), py_bind_ok, pySet_nat _ _ (by simpa using hx1),
      py_bind_ok, modify_map_range, set_map_range]
    have := ih (fun x hx => h1 x (by simp [hx])) (fun x hx => h2 x (by simp [hx]))
      (fun l x hx => hf l x (by simp [hx]))
      (fun c k => if c = k1 x ∧ k = k2 x then G c k ++ [x] else G c k)
    convert this using 2
    · apply List.map_congr_left
      intro c _
      by_cases h : c = k1 x
      · subst h; simp
      · simp [h]
    · apply List.map_congr_left
      intro c _
      apply List.map_congr_left
      intro k _
      by_cases h : k1 x = c ∧ k2 x = k
      · obtain ⟨rfl, rfl⟩ := h; simp
      · rw [List.filter_cons, if_neg (by simpa using h), if_neg (by
          rintro ⟨rfl, rfl⟩; exact h ⟨rfl, rfl⟩)]

/-! ### Flattened buckets are permutations -/

theorem flatten_buckets_perm (m : Nat) (k : Nat → Nat) (xs : List Nat) (hn : xs.Nodup)
    (hk : ∀ x ∈ xs, k x < m) :
    ((List.range m).map fun c => xs.filter (fun x => k x = c)).flatten.Perm xs := by
  rw [List.perm_ext_iff_of_nodup _ hn]
  · intro x
    simp only [List.mem_flatten, List.mem_map, List.mem_range]
    constructor
    · rintro ⟨_, ⟨c, _, rfl⟩, hx⟩
      exact (List.mem_filter.1 hx).1
    · intro hx
      exact ⟨_, ⟨k x, hk x hx, rfl⟩, List.mem_filter.2 ⟨hx, by simp⟩⟩
  · rw [List.nodup_flatten]
    constructor
    · intro l hl
      obtain ⟨c, _, rfl⟩ := List.mem_map.1 hl
      exact hn.filter _
    · rw [List.pairwise_map]
      refine List.Pairwise.imp ?_ List.nodup_range
      intro a b hab x hx hy
      have h1 := (List.mem_filter.1 hx).2
      have h2 := (List.mem_filter.1 hy).2
      simp at h1 h2
      exact hab (h1.symm.trans h2)

/-! ### Enumeration of nested lists -/

/-- Rows of consecutive integers starting from `s`, shaped like the given rows. -/
def enumFrom : Nat → List (List Nat) → List (List Nat)
  | _, [] => []
  | s, r :: l => List.range' s r.length :: enumFrom (s + r.length) l

/-- Total length of nested rows. -/
def totLen (l : List (List Nat)) : Nat := l.flatten.length

def enumFrom2 : Nat → List (List (List Nat)) → List (List (List Nat))
  | _, [] => []
  | s, c :: l => enumFrom s c :: enumFrom2 (s + totLen c) l

theorem natRange_add (s k : Nat) : natRange s (s + k) = List.range' s k := by
  simp [natRange]

theorem enum_aux (l : List (List Nat)) (acc : List (List Nat)) (s : Nat) :
    (l.foldl (fun (st : List (List Nat) × Nat) row =>
      let counter2 := st.2 + row.length
      (st.1 ++ [natRange st.2 counter2], counter2)) (acc, s))
    = (acc ++ enumFrom s l, s + totLen l) := by
  induction l generalizing acc s with
  | nil => simp [enumFrom, totLen]
  | cons r l ih =>
    simp only [List.foldl_cons]
    rw [ih, natRange_add]
    simp [enumFrom, totLen, Nat.add_assoc]

theorem enumChargelst_eq (l : List (List Nat)) : enumChargelst l = enumFrom 0 l := by
  unfold enumChargelst; rw [enum_aux]; simp

theorem enumSzlst_eq (l : List (List (List Nat))) : enumSzlst l = enumFrom2 0 l := by
  unfold enumSzlst
  have : ∀ (l : List (List (List Nat))) (acc : List (List (List Nat))) (s : Nat),
      (l.foldl
        (fun (st : List (List (List Nat)) × Nat) crow =>
          let r := crow.foldl
            (fun (st2 : List (List Nat) × Nat) row =>
              let counter2 := st2.2 + row.length
              (st2.1 ++ [natRange st2.2 counter2], counter2))
            ([], st.2)
          (st.1 ++ [r.1], r.2)) (acc, s)).1 = acc ++ enumFrom2 s l := by
    intro l
    induction l with
    | nil => simp [enumFrom2]
    | cons c l ih =>
      intro acc s
      simp only [List.foldl_cons]
      rw [enum_aux c [] s, ih]
      simp [enumFrom2]
  simpa using this l [] 0

@[simp] theorem enumFrom_length (s : Nat) (l : List (List Nat)) :
    (enumFrom s l).length = l.length := by
  induction l generalizing s with
  | nil => rfl
  | cons r l ih => simp [enumFrom, ih]

@[simp] theorem enumFrom2_length (s : Nat) (l : List (List (List Nat))) :
    (enumFrom2 s l).length = l.length := by
  induction l generalizing s with
  | nil => rfl
  | cons r l ih => simp [enumFrom2, ih]

theorem enumFrom_flatten (s : Nat) (l : List (List Nat)) :
    (enumFrom s l).flatten = List.range' s (totLen l) := by
  induction l generalizing s with
  | nil => simp [enumFrom, totLen]
  | cons r l ih =>
    simp only [enumFrom, List.flatten_cons, ih, totLen, List.length_append]
    rw [← List.range'_append (step := 1)]
    simp

theorem enumFrom_append (s : Nat) (l l' : List (List Nat)) :
    enumFrom s (l ++ l') = enumFrom s l ++ enumFrom (s + totLen l) l' := by
  induction l generalizing s with
  | nil => simp [enumFrom, totLen]
  | cons r l ih => simp [enumFrom, ih, totLen, Nat.add_assoc]

theorem enumFrom2_flatten (s : Nat) (l : List (List (List Nat))) :
    (enumFrom2 s l).flatten = enumFrom s l.flatten := by
  induction l generalizing s with
  | nil => rfl
  | cons c l ih => simp [enumFrom2, ih, enumFrom_append]

/-- The enumerated row `er` addresses, in the flat list `F`, the elements of `r`. -/
def RowAt (F : List Nat) (er r : List Nat) : Prop :=
  ∃ t, er = List.range' t r.length ∧ ∀ q, q < r.length → F[t + q]? = r[q]?

theorem enumFrom_rowAt (pre post : List Nat) (l : List (List Nat)) :
    List.Forall₂ (RowAt (pre ++ l.flatten ++ post)) (enumFrom pre.length l) l := by
  induction l generalizing pre with
  | nil => exact List.Forall₂.nil
  | cons r l ih =>
    refine List.Forall₂.cons ⟨pre.length, rfl, ?_⟩ ?_
    · intro q hq
      simp only [List.flatten_cons, List.append_assoc]
      rw [List.getElem?_append_right (by omega), List.getElem?_append_left (by omega)]
      congr 1; omega
    · have := ih (pre ++ r)
      simpa [List.append_assoc] using this

theorem enumFrom2_rowAt (pre post : List Nat) (l : List (List (List Nat))) :
    List.Forall₂ (List.Forall₂ (RowAt (pre ++ l.flatten.flatten ++ post)))
      (enumFrom2 pre.length l) l := by
  induction l generalizing pre with
  | nil => exact List.Forall₂.nil
  | cons c l ih =>
    refine List.Forall₂.cons ?_ ?_
    · have := enumFrom_rowAt pre (l.flatten.flatten ++ post) c
      simpa [List.append_assoc] using this
    · have := ih (pre ++ c.flatten)
      simpa [List.append_assoc, totLen] using this

theorem enumChargelst_rowAt (l : List (List Nat)) :
    List.Forall₂ (RowAt l.flatten) (enumChargelst l) l := by
  rw [enumChargelst_eq]
  simpa using enumFrom_rowAt [] [] l

theorem enumSzlst_rowAt (l : List (List (List Nat))) :
    List.Forall₂ (List.Forall₂ (RowAt l.flatten.flatten)) (enumSzlst l) l := by
  rw [enumSzlst_eq]
  simpa using enumFrom2_rowAt [] [] l

theorem enumChargelst_flatten (l : List (List Nat)) :
    (enumChargelst l).flatten = List.range l.flatten.length := by
  rw [enumChargelst_eq, enumFrom_flatten, List.range_eq_range']; rfl

theorem enumSzlst_flatten (l : List (List (List Nat))) :
    (enumSzlst l).flatten.flatten = List.range l.flatten.flatten.length := by
  rw [enumSzlst_eq, enumFrom2_flatten, enumFrom_flatten, List.range_eq_range']; rfl

/-- Enumerating depends only on the lengths of the rows. -/
theorem enumFrom_congr (s : Nat) (l l' : List (List Nat))
    (h : l.map List.length = l'.map List.length) : enumFrom s l = enumFrom s l' := by
  induction l generalizing s l' with
  | nil => cases l' with
    | nil => rfl
    | cons => simp at h
  | cons r l ih => cases l' with
    | nil => simp at h
    | cons r' l' =>
      simp only [List.map_cons, List.cons.injEq] at h
      simp [enumFrom, h.1, ih _ _ h.2]

/-! ### Inverse maps -/

theorem renumber_spec (i : List Nat) (j0 : List (Option Nat)) (hn : i.Nodup)
    (hb : ∀ x ∈ i, x < j0.length) :
    ∃ j, renumber i j0 = .ok j ∧ j.length = j0.length ∧
      (∀ k (h : k < i.length), j[i[k]]? = some (some k)) ∧
      (∀ x, x ∉ i → j[x]? = j0[x]?) := by
  unfold renumber
  -- invariant over a prefix of the loop
  have key : ∀ t, t ≤ i.length → ∃ j,
      (List.range t).foldlM (fun (j : List (Option Nat)) (j1 : Nat) => do
        let x ← pyGet i (j1 : Nat)
        pySet j (x : Nat) (some j1)) j0 = .ok j ∧ j.length = j0.length ∧
      (∀ k (h : k < i.length), k < t → j[i[k]]? = some (some k)) ∧
      (∀ x, x ∉ i → j[x]? = j0[x]?) := by
    intro t
    induction t with
    | zero =>
      intro _
      exact ⟨j0, by simp, rfl, by simp, by simp⟩
    | succ t ih =>
      intro ht
      obtain ⟨j, hj, hl, h1, h2⟩ := ih (by omega)
      have hi : i[t] < j.length := by rw [hl]; exact hb _ (by simp)
      refine ⟨j.set i[t] (some t), ?_, by simpa using hl, ?_, ?_⟩
      · rw [List.range_succ, List.foldlM_append, hj]
        simp only [py_bind_ok, List.foldlM_cons, List.foldlM_nil]
        rw [pyGet_nat _ (by omega), py_bind_ok, pySet_nat _ _ hi]
        rfl
      · intro k hk hkt
        rw [List.getElem?_set]
        by_cases hkt' : k = t
        · subst hkt'; simp [hi]
        · have : i[t] ≠ i[k] := by
            intro he
            exact hkt' ((List.Nodup.getElem_inj_iff hn).1 he).symm
          rw [if_neg this]
          exact h1 k hk (by omega)
      · intro x hx
        rw [List.getElem?_set, if_neg, h2 x hx]
        rintro rfl
        exact hx (by simp)
  obtain ⟨j, hj, hl, h1, h2⟩ := key i.length (le_refl _)
  exact ⟨j, hj, hl, fun k hk => h1 k hk hk, h2⟩

theorem makeInverseMap_eq (l : List Nat) :
    makeInverseMap l = renumber l (List.replicate l.length (some 0)) := rfl

end Verif
