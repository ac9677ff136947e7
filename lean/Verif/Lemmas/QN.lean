import Verif.Lemmas.Sz

/-! Quantum-number dictionaries (`make_quantum_numbers`). -/

namespace Verif

/-- Dictionary entries made from blocks of states sharing quantum numbers. -/
def qnEntries (blocks : List (QN × List Nat)) : List (QN × Nat) :=
  blocks.flatMap fun b => b.2.zipIdx.map fun p => (b.1 ++ [(p.2 : Int)], p.1)

/-- Inserting entries one by one into the two dictionaries. -/
def insEntries (d : Dict QN Nat × Dict Nat QN) (es : List (QN × Nat)) :
    Dict QN Nat × Dict Nat QN :=
  es.foldl (fun d e => (d.1.set e.1 e.2, d.2.set e.2 e.1)) d

theorem addQn_eq (d : Dict QN Nat × Dict Nat QN) (qn : QN) (lst : List Nat) :
    addQn d qn lst = insEntries d (lst.zipIdx.map fun p => (qn ++ [(p.2 : Int)], p.1)) := by
  unfold addQn insEntries
  rw [List.foldl_map]

theorem insEntries_append (d : Dict QN Nat × Dict Nat QN) (a b : List (QN × Nat)) :
    insEntries d (a ++ b) = insEntries (insEntries d a) b := by
  simp [insEntries]

theorem foldl_addQn (d : Dict QN Nat × Dict Nat QN) (blocks : List (QN × List Nat)) :
    blocks.foldl (fun d b => addQn d b.1 b.2) d = insEntries d (qnEntries blocks) := by
  induction blocks generalizing d with
  | nil => rfl
  | cons b bs ih =>
    rw [List.foldl_cons, ih, addQn_eq, ← insEntries_append]; rfl

theorem insEntries_eq (es : List (QN × Nat)) (d : Dict QN Nat × Dict Nat QN)
    (h1 : ((d.1 ++ es).map Prod.fst).Nodup)
    (h2 : ((d.2.map Prod.fst) ++ es.map Prod.snd).Nodup) :
    insEntries d es = (d.1 ++ es, d.2 ++ es.map fun e => (e.2, e.1)) := by
  induction es generalizing d with
  | nil => simp [insEntries]
  | cons e es ih =>
    have e1 : d.1.set e.1 e.2 = d.1 ++ [e] := by
      apply Dict.set_eq_append
      intro p hp he
      rw [List.map_append, List.nodup_append] at h1
      exact h1.2.2 p.1 (List.mem_map.2 ⟨p, hp, rfl⟩) e.1 (by simp) he
    have e2 : d.2.set e.2 e.1 = d.2 ++ [(e.2, e.1)] := by
      apply Dict.set_eq_append
      intro p hp he
      rw [List.nodup_append] at h2
      exact h2.2.2 p.1 (List.mem_map.2 ⟨p, hp, rfl⟩) e.2 (by simp) he
    have : insEntries d (e :: es) = insEntries (d.1 ++ [e], d.2 ++ [(e.2, e.1)]) es := by
      simp [insEntries, e1, e2]
    rw [this, ih]
    · simp
    · simpa using h1
    · simpa using h2

theorem qnEntries_snd (blocks : List (QN × List Nat)) :
    (qnEntries blocks).map Prod.snd = (blocks.map Prod.snd).flatten := by
  induction blocks with
  | nil => rfl
  | cons b bs ih =>
    simp only [qnEntries, List.flatMap_cons, List.map_append, List.map_cons, List.flatten_cons]
    congr 1
    simp [Function.comp_def]

theorem mem_qnEntries (blocks : List (QN × List Nat)) (key : QN) (k : Nat) :
    (key, k) ∈ qnEntries blocks ↔
      ∃ b ∈ blocks, ∃ α : Nat, key = b.1 ++ [(α : Int)] ∧ b.2[α]? = some k := by
  unfold qnEntries
  simp only [List.mem_flatMap, List.mem_map, Prod.exists, Prod.mk.injEq]
  constructor
  · rintro ⟨q, l, hb, x, α, hm, rfl, rfl⟩
    refine ⟨q, l, hb, α, rfl, ?_⟩
    have := List.mem_zipIdx_iff_getElem?.1 hm
    simpa using this
  · rintro ⟨q, l, hb, α, rfl, hk⟩
    exact ⟨q, l, hb, k, α, List.mem_zipIdx_iff_getElem?.2 (by simpa using hk), rfl, rfl⟩

theorem qnEntries_keys_nodup (blocks : List (QN × List Nat))
    (h : (blocks.map Prod.fst).Nodup) : ((qnEntries blocks).map Prod.fst).Nodup := by
  induction blocks with
  | nil => simp [qnEntries]
  | cons b bs ih =>
    simp only [List.map_cons, List.nodup_cons] at h
    simp only [qnEntries, List.flatMap_cons, List.map_append]
    rw [List.nodup_append]
    refine ⟨?_, ih h.2, ?_⟩
    · simp only [List.map_map, Function.comp_def]
      have : (b.2.zipIdx.map fun p => b.1 ++ [(p.2 : Int)])
          = (List.range b.2.length).map fun (a : Nat) => b.1 ++ [(a : Int)] := by
        apply List.ext_getElem
        · simp
        · intro i h1 h2; simp
      rw [this]
      apply List.Nodup.map _ List.nodup_range
      intro a c hac
      simp at hac; exact_mod_cast hac
    · intro k hk k' hk' he
      subst he
      simp only [List.mem_map] at hk
      obtain ⟨e, ⟨⟨x, α⟩, _, rfl⟩, rfl⟩ := hk
      obtain ⟨⟨key, x'⟩, he, hkey⟩ := List.mem_map.1 hk'
      have := (mem_qnEntries bs key x').1 he
      obtain ⟨b', hb', α', hkey', _⟩ := this
      simp only at hkey
      rw [hkey'] at hkey
      have := List.append_inj_left' hkey rfl
      exact h.1 (List.mem_map.2 ⟨b', hb', this⟩)

/-- Both dictionaries describe exactly the given blocks. -/
structure QnOk (blocks : List (QN × List Nat)) (qnInd : Dict QN Nat) (indQn : Dict Nat QN) :
    Prop where
  fwd : ∀ key k, qnInd.get? key = some k ↔
    ∃ b ∈ blocks, ∃ α : Nat, key = b.1 ++ [(α : Int)] ∧ b.2[α]? = some k
  bwd : ∀ key k, indQn.get? k = some key ↔
    ∃ b ∈ blocks, ∃ α : Nat, key = b.1 ++ [(α : Int)] ∧ b.2[α]? = some k

theorem qnOk_of_blocks (blocks : List (QN × List Nat)) (h : (blocks.map Prod.fst).Nodup)
    (h2 : (blocks.map Prod.snd).flatten.Nodup) :
    QnOk blocks (insEntries ([], []) (qnEntries blocks)).1
      (insEntries ([], []) (qnEntries blocks)).2 := by
  have hk := qnEntries_keys_nodup blocks h
  have hs : ((qnEntries blocks).map Prod.snd).Nodup := by rwa [qnEntries_snd]
  rw [insEntries_eq _ _ (by simpa using hk) (by simpa using hs)]
  constructor
  · intro key k
    rw [← mem_qnEntries]
    simp only [List.nil_append]
    exact ⟨Dict.mem_of_get?, Dict.get?_of_mem hk⟩
  · intro key k
    rw [← mem_qnEntries]
    simp only [List.nil_append]
    constructor
    · intro hh
      have := Dict.mem_of_get? hh
      simpa using this
    · intro hh
      apply Dict.get?_of_mem
      · unfold Dict.Nodup
        rw [List.map_map]
        exact hs
      · exact List.mem_map.2 ⟨(key, k), hh, rfl⟩

/-- Blocks for the charge dictionaries. -/
def chargeBlocks (chargelst : List (List Nat)) : List (QN × List Nat) :=
  chargelst.zipIdx.map fun p => ([(p.2 : Int)], p.1)

/-- Blocks for the `sz` dictionaries. -/
def szBlocks (n : Nat) (szlst : List (List (List Nat))) : List (QN × List Nat) :=
  szlst.zipIdx.flatMap fun c => c.1.zipIdx.map fun p =>
    ([(c.2 : Int), -(szW n c.2 : Int) + 2 * (p.2 : Int)], p.1)

theorem foldlM_range_getElem {σ α : Type} (l : List α) (f : σ → α → Nat → Py σ) (s : σ) :
    (List.range l.length).foldlM (fun s (c : Nat) => do let x ← pyGet l (c : Nat); f s x c) s
      = l.zipIdx.foldlM (fun s p => f s p.1 p.2) s := by
  have hz : l.zipIdx = (List.range l.length).pmap (fun i (h : i < l.length) => (l[i], i))
      (by intro i hi; simpa using hi) := by
    apply List.ext_getElem
    · simp
    · intro i h1 h2; simp
  rw [hz]
  clear hz
  have : ∀ (idx : List Nat) (hidx : ∀ i ∈ idx, i < l.length) (s : σ),
      idx.foldlM (fun s (c : Nat) => do let x ← pyGet l (c : Nat); f s x c) s
      = (idx.pmap (fun i (h : i < l.length) => (l[i], i)) hidx).foldlM
          (fun s p => f s p.1 p.2) s := by
    intro idx
    induction idx with
    | nil => simp
    | cons i idx ih =>
      intro hidx s
      rw [List.foldlM_cons, pyGet_nat l (hidx i (by simp)), List.pmap_cons, List.foldlM_cons,
        py_bind_ok]
      congr 1
      funext s
      exact ih _ s
  exact this _ _ s

theorem foldlM_congr {σ α : Type} {f g : σ → α → Py σ} {l : List α} {s : σ}
    (h : ∀ s, ∀ a, a ∈ l → f s a = g s a) : l.foldlM f s = l.foldlM g s := by
  induction l generalizing s with
  | nil => rfl
  | cons a l ih =>
    rw [List.foldlM_cons, List.foldlM_cons, h s a (by simp)]
    congr 1
    funext s
    exact ih fun s a ha => h s a (by simp [ha])

theorem foldlM_pure {σ α : Type} (f : σ → α → σ) (l : List α) (s : σ) :
    l.foldlM (fun s a => (.ok (f s a) : Py σ)) s = .ok (l.foldl f s) :=
  foldlM_ok' l s fun _ _ _ => rfl

theorem makeQuantumNumbers_charge (ix : Indexing) (h1 : ix ≠ .sz) (h2 : ix ≠ .ssq) (n : Nat)
    (chargelst : List (List Nat)) (hl : chargelst.length = n + 1) (szlst ssqlst) :
    makeQuantumNumbers ix (n + 1) n chargelst szlst ssqlst
      = .ok (insEntries ([], []) (qnEntries (chargeBlocks chargelst))) := by
  have : makeQuantumNumbers ix (n + 1) n chargelst szlst ssqlst =
      (List.range (n + 1)).foldlM
      (fun d (charge : Nat) => do
        let lst ← pyGet chargelst (charge : Nat)
        pure (addQn d [(charge : Int)] lst))
      ([], []) := by
    cases ix
    · rfl
    · rfl
    · exact absurd rfl h1
    · exact absurd rfl h2
  rw [this, ← hl, foldlM_range_getElem chargelst
    (fun d lst c => pure (addQn d [(c : Int)] lst)) ([], [])]
  simp only [py_pure]
  rw [foldlM_pure (fun d (p : List Nat × Nat) => addQn d [(p.2 : Int)] p.1), ← foldl_addQn]
  unfold chargeBlocks
  rw [List.foldl_map]

theorem makeQuantumNumbers_sz (n : Nat)
    (szlst : List (List (List Nat))) (hl : szlst.length = n + 1)
    (hw : ∀ c (h : c < szlst.length), szlst[c].length = szW n c + 1) (chargelst ssqlst) :
    makeQuantumNumbers .sz (n + 1) n chargelst (some szlst) ssqlst
      = .ok (insEntries ([], []) (qnEntries (szBlocks n szlst))) := by
  unfold makeQuantumNumbers
  simp only
  have step : ∀ (d : Dict QN Nat × Dict Nat QN) (c : Nat), c ∈ List.range (n + 1) →
      (szrange c n).foldlM (fun d sz => do
          let r1 ← pyGet szlst (c : Nat)
          let lst ← pyGet r1 (szToInd sz c n)
          pure (addQn d [(c : Int), sz] lst)) d
      = (do
          let row ← pyGet szlst (c : Nat)
          .ok (row.zipIdx.foldl (fun d p =>
            addQn d [(c : Int), -(szW n c : Int) + 2 * (p.2 : Int)] p.1) d)) := by
    intro d c hc
    have hc' : c < n + 1 := by simpa using hc
    rw [szrange_eq n c (by omega), List.foldlM_map]
    simp only [szToInd_range n c _ (show c ≤ n by omega)]
    rw [pyGet_nat szlst (by omega)]
    simp only [py_bind_ok]
    rw [← hw c (by omega)]
    rw [foldlM_range_getElem szlst[c]
      (fun d lst k => pure (addQn d [(c : Int), -(szW n c : Int) + 2 * (k : Int)] lst)) d]
    simp only [py_pure]
    rw [foldlM_pure (fun d (p : List Nat × Nat) =>
      addQn d [(c : Int), -(szW n c : Int) + 2 * (p.2 : Int)] p.1)]
  refine (foldlM_congr step).trans ?_
  rw [← hl]
  rw [foldlM_range_getElem szlst (fun d row c => .ok (row.zipIdx.foldl (fun d p =>
            addQn d [(c : Int), -(szW n c : Int) + 2 * (p.2 : Int)] p.1) d)),
    foldlM_pure (fun d (q : List (List Nat) × Nat) => q.1.zipIdx.foldl (fun d p =>
            addQn d [(q.2 : Int), -(szW n q.2 : Int) + 2 * (p.2 : Int)] p.1) d), ← foldl_addQn]
  congr 1
  unfold szBlocks
  rw [List.foldl_flatMap]
  congr 1
  funext d q
  rw [List.foldl_map]

end Verif
