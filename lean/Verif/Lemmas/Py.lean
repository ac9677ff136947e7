import Verif.Model.Py

/-! Lemmas on the Python semantics layer. -/

namespace Verif

theorem pyIdx_nat {len k : Nat} (h : k < len) : pyIdx len (k : Int) = .ok k := by
  unfold pyIdx
  rw [if_pos (by omega), if_pos (by omega)]; simp

theorem pyIdx_ok_lt {len : Nat} {i : Int} {k : Nat} (h : pyIdx len i = .ok k) : k < len := by
  unfold pyIdx at h
  split at h
  · split at h
    · simp at h; omega
    · simp at h
  · split at h
    · simp at h; omega
    · simp at h

theorem pyIdx_nat_err {len k : Nat} (h : len ≤ k) : pyIdx len (k : Int) = .error .index := by
  unfold pyIdx
  rw [if_pos (by omega), if_neg (by omega)]

theorem pyIdx_neg {len k : Nat} (h0 : 0 < k) (h : k ≤ len) :
    pyIdx len (-(k : Int)) = .ok (len - k) := by
  unfold pyIdx
  rw [if_neg (by omega), if_pos (by omega)]
  congr 1; omega

theorem pyGet_nat {α : Type u} (l : List α) {k : Nat} (h : k < l.length) :
    pyGet l (k : Int) = .ok l[k] := by
  unfold pyGet
  rw [pyIdx_nat h]; simp [h]

theorem pyGet_nat' {α : Type u} (l : List α) {k : Nat} {i : Int} (hi : i = k)
    (h : k < l.length) : pyGet l i = .ok l[k] := by
  subst hi; exact pyGet_nat l h

theorem pyGet_nat_err {α : Type u} (l : List α) {k : Nat} (h : l.length ≤ k) :
    pyGet l (k : Int) = .error .index := by
  unfold pyGet
  rw [pyIdx_nat_err h]

theorem pySet_nat {α : Type u} (l : List α) {k : Nat} (v : α) (h : k < l.length) :
    pySet l (k : Int) v = .ok (l.set k v) := by
  unfold pySet
  rw [pyIdx_nat h]

theorem pyModify_nat {α : Type u} (l : List α) {k : Nat} (f : α → α) (h : k < l.length) :
    pyModify l (k : Int) f = .ok (l.modify k f) := by
  unfold pyModify
  rw [pyIdx_nat h]

@[simp] theorem pyRange_length (a b s : Int) :
    (pyRange a b s).length = ((b - a + s - 1) / s).toNat := by
  simp [pyRange]

theorem pyRange_zero (n : Nat) : pyRange 0 n 1 = (List.range n).map fun k : Nat => (k : Int) := by
  simp [pyRange]

namespace Dict

variable {α : Type u} {β : Type v} [DecidableEq α]

@[simp] theorem get?_nil (k : α) : get? ([] : Dict α β) k = none := rfl

theorem get?_set (d : Dict α β) (k k' : α) (v : β) :
    get? (set d k v) k' = if k = k' then some v else get? d k' := by
  induction d with
  | nil => simp [set, get?]
  | cons p d ih =>
    obtain ⟨a, b⟩ := p
    simp only [set]
    by_cases h : a = k
    · subst h
      simp only [if_true, get?]
      split <;> simp_all
    · simp only [h, if_false, get?, ih]
      by_cases h1 : a = k'
      · subst h1; simp [Ne.symm h]
      · simp [h1]

@[simp] theorem get?_set_self (d : Dict α β) (k : α) (v : β) :
    get? (set d k v) k = some v := by simp [get?_set]

theorem get?_set_ne (d : Dict α β) {k k' : α} (h : k ≠ k') (v : β) :
    get? (set d k v) k' = get? d k' := by simp [get?_set, h]

theorem set_eq_append (d : Dict α β) (k : α) (v : β) (h : ∀ p ∈ d, p.1 ≠ k) :
    set d k v = d ++ [(k, v)] := by
  induction d with
  | nil => rfl
  | cons p d ih =>
    obtain ⟨a, b⟩ := p
    have h1 : a ≠ k := h (a, b) (by simp)
    simp [set, h1]
    exact ih fun p hp => h p (by simp [hp])

theorem mem_of_get? {d : Dict α β} {k : α} {v : β} (h : get? d k = some v) : (k, v) ∈ d := by
  induction d with
  | nil => simp at h
  | cons p d ih =>
    obtain ⟨a, b⟩ := p
    simp only [get?] at h
    split at h
    · simp_all
    · exact List.mem_cons_of_mem _ (ih h)

theorem get?_eq_none {d : Dict α β} {k : α} : get? d k = none ↔ ∀ p ∈ d, p.1 ≠ k := by
  induction d with
  | nil => simp
  | cons p d ih =>
    obtain ⟨a, b⟩ := p
    simp only [get?]
    split
    · rename_i h; simp [h]
    · rename_i h; simp [ih, h]

/-- Keys pairwise distinct. -/
def Nodup (d : Dict α β) : Prop := (d.map Prod.fst).Nodup

theorem get?_of_mem {d : Dict α β} (hd : Nodup d) {k : α} {v : β} (h : (k, v) ∈ d) :
    get? d k = some v := by
  induction d with
  | nil => simp at h
  | cons p d ih =>
    obtain ⟨a, b⟩ := p
    simp only [Nodup, List.map_cons, List.nodup_cons] at hd
    simp only [get?]
    rcases List.mem_cons.1 h with h | h
    · simp at h; simp [h]
    · have : a ≠ k := by
        rintro rfl
        exact hd.1 (List.mem_map.2 ⟨(a, v), h, rfl⟩)
      simp [this, ih hd.2 h]

theorem keys_set (d : Dict α β) (k : α) (v : β) :
    (set d k v).map Prod.fst = if k ∈ d.map Prod.fst then d.map Prod.fst
      else d.map Prod.fst ++ [k] := by
  induction d with
  | nil => simp [set]
  | cons p d ih =>
    obtain ⟨a, b⟩ := p
    simp only [set]
    by_cases h : a = k
    · subst h; simp
    · simp only [h, if_false, List.map_cons, ih]
      by_cases h1 : k ∈ d.map Prod.fst
      · simp [h1]
      · have : k ∉ a :: d.map Prod.fst := by simp [Ne.symm h]; simpa using h1
        rw [if_neg h1, if_neg this]; rfl

theorem Nodup.set {d : Dict α β} (hd : Nodup d) (k : α) (v : β) : Nodup (Dict.set d k v) := by
  unfold Nodup at *
  rw [keys_set]
  split
  · exact hd
  · rename_i h
    rw [List.nodup_append]
    refine ⟨hd, by simp, ?_⟩
    intro a ha b hb
    simp at hb; subst hb
    rintro rfl; exact h ha

end Dict

end Verif
