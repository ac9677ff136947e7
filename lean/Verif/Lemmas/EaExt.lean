import Verif.Lemmas.Sort
import Verif.Lemmas.SIQn
import Verif.Lemmas.DMMap

/-! The table of quantum numbers of the many-body states (`construct_Ea_extended`). -/

namespace Verif

theorem foldlM_flatMap_py {σ α β : Type} (f : σ → β → Py σ) (g : α → List β) (xs : List α) (s : σ) :
    (xs.flatMap g).foldlM f s = xs.foldlM (fun s a => (g a).foldlM f s) s := by
  induction xs generalizing s with
  | nil => rfl
  | cons a xs ih =>
    rw [List.flatMap_cons, List.foldlM_append, List.foldlM_cons]
    congr 1
    funext s
    exact ih s

/-! ### The loops over blocks of states with equal quantum numbers -/

theorem loop_charge {σ : Type} (f : σ → QN → List Nat → Py σ) (n : Nat) (chargelst : List (List Nat))
    (hl : chargelst.length = n + 1) (s : σ) :
    (List.range (n + 1)).foldlM (fun s (charge : Nat) => do
        let l ← pyGet chargelst (charge : Nat)
        f s [(charge : Int)] l) s
      = (chargeBlocks chargelst).foldlM (fun s b => f s b.1 b.2) s := by
  rw [← hl, foldlM_range_getElem chargelst (fun s l c => f s [(c : Int)] l) s]
  unfold chargeBlocks
  rw [List.foldlM_map]

theorem loop_sz {σ : Type} (f : σ → QN → List Nat → Py σ) (n : Nat) (szlst : List (List (List Nat)))
    (hl : szlst.length = n + 1) (hw : ∀ c (h : c < szlst.length), szlst[c].length = szW n c + 1) (s : σ) :
    (List.range (n + 1)).foldlM (fun s (charge : Nat) =>
      (szrange charge n).foldlM (fun s sz => do
        let r ← pyGet szlst (charge : Nat)
        let l ← pyGet r (szToInd sz charge n)
        f s [(charge : Int), sz] l) s) s
      = (szBlocks n szlst).foldlM (fun s b => f s b.1 b.2) s := by
  have step : ∀ (s : σ) (c : Nat), c ∈ List.range (n + 1) →
      (szrange c n).foldlM (fun s sz => do
          let r1 ← pyGet szlst (c : Nat)
          let lst ← pyGet r1 (szToInd sz c n)
          f s [(c : Int), sz] lst) s
      = (do
          let row ← pyGet szlst (c : Nat)
          row.zipIdx.foldlM (fun s p =>
            f s [(c : Int), -(szW n c : Int) + 2 * (p.2 : Int)] p.1) s) := by
    intro s c hc
    have hc' : c < n + 1 := by simpa using hc
    rw [szrange_eq n c (by omega), List.foldlM_map]
    simp only [szToInd_range n c _ (show c ≤ n by omega)]
    rw [pyGet_nat szlst (by omega)]
    simp only [py_bind_ok]
    rw [← hw c (by omega)]
    rw [foldlM_range_getElem szlst[c]
      (fun s lst k => f s [(c : Int), -(szW n c : Int) + 2 * (k : Int)] lst) s]
  refine (foldlM_congr step).trans ?_
  rw [← hl]
  rw [foldlM_range_getElem szlst (fun s row c => row.zipIdx.foldlM (fun s p =>
            f s [(c : Int), -(szW n c : Int) + 2 * (p.2 : Int)] p.1) s)]
  unfold szBlocks
  rw [foldlM_flatMap_py]
  congr 1
  funext s q
  rw [List.foldlM_map]

theorem loop_ssq {σ : Type} (f : σ → QN → List Nat → Py σ) (n : Nat) (T : Nat → Nat → Nat → List Nat) (s : σ) :
    (List.range (n + 1)).foldlM (fun s (charge : Nat) =>
      (szrange charge n).foldlM (fun s sz =>
        (ssqrange charge sz n).foldlM (fun s ssq => do
          let r ← pyGet ((List.range (n + 1)).map fun c => (List.range (szW n c + 1)).map fun k =>
            (List.range (ssqE n c k + 1)).map fun q => T c k q) (charge : Nat)
          let r ← pyGet r (szToInd sz charge n)
          let l ← pyGet r (ssqToInd ssq sz)
          f s [(charge : Int), sz, ssq] l) s) s) s
      = (ssqBlocks n T).foldlM (fun s b => f s b.1 b.2) s := by
  unfold ssqBlocks
  rw [foldlM_flatMap_py]
  apply foldlM_congr
  intro s c hc
  have hc' : c ≤ n := by simp at hc; omega
  rw [szrange_eq n c hc', List.foldlM_map, foldlM_flatMap_py]
  apply foldlM_congr
  intro s k hk
  have hk' : k ≤ szW n c := by simp at hk; omega
  rw [ssqrange_sz n c k hc' hk', List.foldlM_map, List.foldlM_map]
  apply foldlM_congr
  intro s q hq
  have hq' : q < ssqE n c k + 1 := by simpa [ssqE] using hq
  rw [pyGet_map_range _ _ _ (by omega)]
  simp only [py_bind_ok, szToInd_range n c k hc']
  rw [pyGet_map_range _ _ _ (by omega)]
  simp only [py_bind_ok, ssqToInd_row n c k q hk']
  rw [pyGet_map_range _ _ _ hq']
  rfl

/-! ### Writing into a table -/

section table
variable {α : Type}

/-- Entry `k` of row `i`. -/
def entryAt (T : List (List α)) (i k : Nat) : Option α := T[i]?.bind fun r => r[k]?

/-- `R` rows of length `N`. -/
structure Shaped (R N : Nat) (T : List (List α)) : Prop where
  rows : T.length = R
  cols : ∀ r ∈ T, r.length = N

theorem Shaped.set {R N : Nat} {T : List (List α)} (h : Shaped R N T) (i : Nat) {r : List α}
    (hr : r.length = N) : Shaped R N (T.set i r) := by
  refine ⟨by rw [List.length_set]; exact h.rows, ?_⟩
  intro x hx
  rcases List.mem_or_eq_of_mem_set hx with hx | rfl
  · exact h.cols x hx
  · exact hr

theorem put2_spec [Field α] [LinearOrder α] [FloorRing α] {R N : Nat} {T : List (List α)} (h : Shaped R N T)
    {i k : Nat} (hi : i < R) (hk : k < N) (v : α) :
    ∃ T', put2 T (i : Int) (k : Int) v = .ok T' ∧ Shaped R N T' ∧
      ∀ i' k', entryAt T' i' k' = if i' = i ∧ k' = k then some v else entryAt T i' k' := by
  have hi' : i < T.length := by rw [h.rows]; exact hi
  have hN : T[i].length = N := h.cols _ (List.getElem_mem hi')
  refine ⟨T.set i (T[i].set k v), ?_, h.set i (by rw [List.length_set]; exact hN), ?_⟩
  · unfold put2
    rw [pyGet_nat T hi']
    simp only [py_bind_ok]
    rw [pySet_nat _ v (by omega)]
    simp only [py_bind_ok]
    rw [pySet_nat _ _ hi']
  · intro i' k'
    unfold entryAt
    by_cases e : i' = i
    · subst e
      rw [List.getElem?_set_self hi', List.getElem?_eq_getElem hi']
      simp only [Option.bind_some, true_and]
      by_cases e : k' = k
      · subst e
        rw [List.getElem?_set_self (by omega), if_pos rfl]
      · rw [List.getElem?_set_ne (Ne.symm e), if_neg e]
    · rw [List.getElem?_set_ne (Ne.symm e), if_neg (fun h => e h.1)]

theorem putRow_spec [Field α] [LinearOrder α] [FloorRing α] {R N : Nat} {T : List (List α)} (h : Shaped R N T)
    {i : Nat} (hi : i < R) (row : List α) (hr : row.length = N) :
    putRow T (i : Int) row = .ok (T.set i row) := by
  have hi' : i < T.length := by rw [h.rows]; exact hi
  have hN : T[i].length = N := h.cols _ (List.getElem_mem hi')
  unfold putRow
  rw [pyGet_nat T hi']
  simp only [py_bind_ok]
  rw [if_pos (by omega), pySet_nat _ _ hi']

theorem markVals_spec [Field α] [LinearOrder α] [FloorRing α] {R N : Nat} (vals : List Int) (off : Nat)
    {T : List (List α)} (h : Shaped R N T) (hv : vals.length + off + 1 ≤ R) {sn : Nat} (hs : sn < N) :
    ∃ T', (vals.zipIdx off).foldlM (fun arr p => put2 arr ((p.2 + 1 : Nat) : Int) (sn : Nat) (p.1 : α)) T
      = .ok T' ∧ Shaped R N T' ∧
      ∀ i k, entryAt T' i k = if k = sn ∧ off + 1 ≤ i then
        (match vals[i - 1 - off]? with | some v => some (v : α) | none => entryAt T i k) else entryAt T i k := by
  induction vals generalizing off T with
  | nil => exact ⟨T, rfl, h, by simp⟩
  | cons v vals ih =>
    simp only [List.length_cons] at hv
    obtain ⟨T1, e1, s1, a1⟩ := put2_spec h (i := off + 1) (k := sn) (by omega) hs (v : α)
    obtain ⟨T2, e2, s2, a2⟩ := ih (off + 1) s1 (by omega)
    refine ⟨T2, ?_, s2, ?_⟩
    · rw [List.zipIdx_cons, List.foldlM_cons, e1]
      exact e2
    · intro i k
      rw [a2 i k, a1 i k]
      by_cases hk : k = sn
      · subst hk
        rcases Nat.lt_trichotomy i (off + 1) with hi | hi | hi
        · rw [if_neg (by omega), if_neg (by omega), if_neg (by omega)]
        · subst hi
          rw [if_neg (by omega), if_pos ⟨rfl, rfl⟩, if_pos ⟨rfl, le_refl _⟩]
          simp
        · rw [if_pos ⟨rfl, by omega⟩, if_neg (by omega), if_pos ⟨rfl, by omega⟩]
          have e : i - 1 - off = (i - 1 - (off + 1)) + 1 := by omega
          rw [e, List.getElem?_cons_succ]
      · rw [if_neg (fun h => hk h.1), if_neg (fun h => hk h.2), if_neg (fun h => hk h.1)]

theorem markStates_spec [Field α] [LinearOrder α] [FloorRing α] {R N : Nat} (vals : List Int) (l : List Nat)
    {T : List (List α)} (h : Shaped R N T) (hv : vals.length + 1 ≤ R) (hs : ∀ x ∈ l, x < N) :
    ∃ T', markStates T vals l = .ok T' ∧ Shaped R N T' ∧
      ∀ i k, entryAt T' i k = if k ∈ l ∧ 1 ≤ i then
        (match vals[i - 1]? with | some v => some (v : α) | none => entryAt T i k) else entryAt T i k := by
  unfold markStates
  induction l generalizing T with
  | nil => exact ⟨T, rfl, h, by simp⟩
  | cons a l ih =>
    obtain ⟨T1, e1, s1, a1⟩ := markVals_spec vals 0 h (by omega) (hs a (by simp))
    obtain ⟨T2, e2, s2, a2⟩ := ih s1 (fun x hx => hs x (by simp [hx]))
    refine ⟨T2, ?_, s2, ?_⟩
    · rw [List.foldlM_cons, e1]
      exact e2
    · intro i k
      rw [a2 i k, a1 i k]
      simp only [Nat.sub_zero, Nat.zero_add, List.mem_cons]
      by_cases h1 : k ∈ l <;> by_cases h2 : k = a <;> by_cases h3 : 1 ≤ i <;>
        cases h4 : vals[i - 1]? <;> simp [h1, h2, h3] <;> simp_all

theorem markBlocks_spec [Field α] [LinearOrder α] [FloorRing α] {R N m : Nat} (blocks : List (QN × List Nat))
    {T : List (List α)} (h : Shaped R N T) (hm : m + 1 ≤ R) (hb : ∀ b ∈ blocks, b.1.length = m)
    (hs : ∀ b ∈ blocks, ∀ x ∈ b.2, x < N) (hn : ∀ b ∈ blocks, ∀ b' ∈ blocks, ∀ k ∈ b.2, k ∈ b'.2 → b.1 = b'.1) :
    ∃ T', blocks.foldlM (fun arr b => markStates arr b.1 b.2) T = .ok T' ∧ Shaped R N T' ∧
      (∀ b ∈ blocks, ∀ k ∈ b.2, ∀ (i : Nat) (v : Int), b.1[i]? = some v → entryAt T' (i + 1) k = some (v : α)) ∧
      (∀ i k, i = 0 ∨ m < i ∨ k ∉ (blocks.map Prod.snd).flatten → entryAt T' i k = entryAt T i k) := by
  induction blocks generalizing T with
  | nil => exact ⟨T, rfl, h, by simp, by simp⟩
  | cons b bs ih =>
    simp only [List.map_cons, List.flatten_cons]
    obtain ⟨T1, e1, s1, a1⟩ := markStates_spec b.1 b.2 h (by rw [hb b (by simp)]; omega) (hs b (by simp))
    obtain ⟨T2, e2, s2, a2, u2⟩ := ih s1 (fun x hx => hb x (by simp [hx])) (fun x hx => hs x (by simp [hx]))
      (fun x hx y hy => hn x (by simp [hx]) y (by simp [hy]))
    refine ⟨T2, by rw [List.foldlM_cons, e1]; exact e2, s2, ?_, ?_⟩
    · intro c hc k hk i v hv
      rcases List.mem_cons.1 hc with rfl | hc
      · by_cases hmem : k ∈ (bs.map Prod.snd).flatten
        · obtain ⟨_, hl, hkl⟩ := List.mem_flatten.1 hmem
          obtain ⟨b', hb', rfl⟩ := List.mem_map.1 hl
          refine a2 b' hb' k hkl i v ?_
          rw [← hn _ (by simp) b' (by simp [hb']) k hk hkl]
          exact hv
        · rw [u2 (i + 1) k (Or.inr (Or.inr hmem)), a1, if_pos ⟨hk, by omega⟩]
          simp only [Nat.add_sub_cancel, hv]
      · exact a2 c hc k hk i v hv
    · intro i k hik
      have hbl := hb b (by simp)
      rw [u2 i k (by
        rcases hik with h | h | h
        · exact Or.inl h
        · exact Or.inr (Or.inl h)
        · exact Or.inr (Or.inr fun h' => h (List.mem_append_right _ h'))), a1 i k]
      rcases hik with h | h | h
      · rw [if_neg (by omega)]
      · split
        · rw [List.getElem?_eq_none (by omega)]
        · rfl
      · rw [if_neg (fun h' => h (List.mem_append_left _ h'.1))]

theorem row_of_entries {R N : Nat} {T T' : List (List α)} (h : Shaped R N T) (h' : Shaped R N T') {i : Nat} (hi : i < R)
    (he : ∀ k, entryAt T i k = entryAt T' i k) : T[i]? = T'[i]? := by
  have h1 : i < T.length := by rw [h.rows]; exact hi
  have h2 : i < T'.length := by rw [h'.rows]; exact hi
  rw [List.getElem?_eq_getElem h1, List.getElem?_eq_getElem h2]
  congr 1
  apply List.ext_getElem?
  intro k
  have := he k
  unfold entryAt at this
  rw [List.getElem?_eq_getElem h1, List.getElem?_eq_getElem h2] at this
  exact this

theorem eaExtBase_spec [Field α] [LinearOrder α] [FloorRing α] {R : Nat} (hR : 2 ≤ R) (Ea : List α) :
    ∃ T, eaExtBase R Ea Ea.length = .ok T ∧ Shaped R Ea.length T ∧ T[0]? = some Ea ∧
      T[R - 1]? = some ((List.range Ea.length).map fun (k : Nat) => (k : α)) := by
  have s0 : Shaped R Ea.length (List.replicate R (List.replicate Ea.length (0 : α))) :=
    ⟨by simp, fun r hr => by rw [List.eq_of_mem_replicate hr]; simp⟩
  have s1 := s0.set 0 (r := Ea) rfl
  have s2 := s1.set (R - 1) (r := (List.range Ea.length).map fun (k : Nat) => (k : α)) (by simp)
  refine ⟨_, ?_, s2, ?_, ?_⟩
  · unfold eaExtBase
    have := putRow_spec s0 (i := 0) (by omega) Ea rfl
    rw [show ((0 : Nat) : Int) = 0 from rfl] at this
    rw [this]
    simp only [py_bind_ok]
    exact putRow_spec s1 (by omega) _ (by simp)
  · rw [List.getElem?_set_ne (by omega), List.getElem?_set_self (by simp; omega)]
  · rw [List.getElem?_set_self (by simp; omega)]

end table

end Verif
