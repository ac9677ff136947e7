import Verif.Lemmas.SI
import Verif.Lemmas.Ssq

/-! The invariant of `StateIndexing` objects over all histories. -/

namespace Verif

/-- Blocks of states with the same charge, `sz` and total spin. -/
def ssqBlocks (n : Nat) (T : Nat → Nat → Nat → List Nat) : List (QN × List Nat) :=
  (List.range (n + 1)).flatMap fun c => (List.range (szW n c + 1)).flatMap fun k =>
    (List.range (ssqE n c k + 1)).map fun (q : Nat) =>
      ([(c : Int), -(szW n c : Int) + 2 * (k : Int),
        ((szW n c - 2 * ssqE n c k : Nat) : Int) + 2 * (q : Int)], T c k q)

theorem foldlM_pure_map {σ α : Type} (l : List α) (f : σ → α → Py σ) (g : σ → α → σ) (s : σ)
    (h : ∀ s, ∀ a ∈ l, f s a = .ok (g s a)) : l.foldlM f s = .ok (l.foldl g s) :=
  foldlM_ok' l s h

theorem makeQuantumNumbers_ssq (n : Nat) (T : Nat → Nat → Nat → List Nat) (chargelst szlst) :
    makeQuantumNumbers .ssq (n + 1) n chargelst szlst
      (some ((List.range (n + 1)).map fun c => (List.range (szW n c + 1)).map fun k =>
        (List.range (ssqE n c k + 1)).map fun q => T c k q))
      = .ok (insEntries ([], []) (qnEntries (ssqBlocks n T))) := by
  unfold makeQuantumNumbers
  simp only
  rw [foldlM_pure_map _ _ (fun d c => (List.range (szW n c + 1)).foldl (fun d k =>
    (List.range (ssqE n c k + 1)).foldl (fun d (q : Nat) => addQn d
      [(c : Int), -(szW n c : Int) + 2 * (k : Int),
        ((szW n c - 2 * ssqE n c k : Nat) : Int) + 2 * (q : Int)] (T c k q)) d) d)]
  · rw [← foldl_addQn]
    unfold ssqBlocks
    rw [List.foldl_flatMap]
    congr 2
    funext d c
    rw [List.foldl_flatMap]
    congr 1
    funext d k
    rw [List.foldl_map]
  · intro d c hc
    have hc' : c ≤ n := by simp at hc; omega
    rw [szrange_eq n c hc', List.foldlM_map]
    apply foldlM_pure_map
    intro d k hk
    have hk' : k ≤ szW n c := by simp at hk; omega
    rw [ssqrange_sz n c k hc' hk', List.foldlM_map]
    apply foldlM_pure_map
    intro d q hq
    have hq' : q < ssqE n c k + 1 := by simpa [ssqE] using hq
    rw [pyGet_map_range _ _ _ (by omega)]
    simp only [py_bind_ok, szToInd_range n c k hc']
    rw [pyGet_map_range _ _ _ (by omega)]
    simp only [py_bind_ok, ssqToInd_row n c k q hk']
    rw [pyGet_map_range _ _ _ hq']
    rfl

/-! ### Existence of the dictionaries -/

theorem chL_length (n : Nat) (p : Nat → Bool) : (chL n p).length = n + 1 := by simp [chL]

theorem szL_length (n : Nat) (p : Nat → Bool) : (szL n p).length = n + 1 := by simp [szL]

theorem enumChargelst_length (l : List (List Nat)) : (enumChargelst l).length = l.length := by
  rw [enumChargelst_eq]; simp

theorem enumSzlst_length (l : List (List (List Nat))) : (enumSzlst l).length = l.length := by
  rw [enumSzlst_eq]; simp

theorem enumSzlst_row_length (n : Nat) (p : Nat → Bool) (c : Nat)
    (h : c < (enumSzlst (szL n p)).length) :
    (enumSzlst (szL n p))[c].length = szW n c + 1 := by
  have := enumSzlst_rowAt (szL n p)
  have h2 : c < (szL n p).length := by simpa [enumSzlst_length] using h
  have h3 := List.Forall₂.get this h h2
  have h4 := h3.length_eq
  simp only [List.get_eq_getElem] at h4
  rw [h4]
  simp [szL]

/-! ### Renumbering -/

theorem jok_of_renumber (N : Nat) (p : Nat → Bool) (i : List Nat) (j0 : List (Option Nat))
    (hi : i.Perm ((List.range N).filter p)) (hj : j0.length = N)
    (hn : ∀ x, x < N → p x = false → j0[x]? = some none) :
    ∃ j, renumber i j0 = .ok j ∧ JOk N p i j := by
  have hnd : i.Nodup := hi.nodup_iff.2 (List.nodup_range.filter _)
  obtain ⟨j, h1, h2, h3, h4⟩ := renumber_spec i j0 hnd (by
    intro x hx
    have := hi.mem_iff.1 hx
    simp at this; omega)
  refine ⟨j, h1, by omega, h3, ?_⟩
  intro x hx hp
  rw [h4 x, hn x hx hp]
  intro hx2
  have := hi.mem_iff.1 hx2
  simp [hp] at this

theorem jok_of_inverse (N : Nat) (i : List Nat) (hi : i.Perm (List.range N)) :
    ∃ j, makeInverseMap i = .ok j ∧ JOk N (fun _ => true) i j := by
  rw [makeInverseMap_eq]
  have hl : i.length = N := by rw [hi.length_eq]; simp
  apply jok_of_renumber
  · rw [List.filter_true]; exact hi
  · simpa using hl
  · simp

theorem filter_true' (N : Nat) : (List.range N).filter (fun _ => true) = List.range N := by
  simp

/-! ### Construction -/

theorem szShape_enum (n : Nat) (hn : n % 2 = 0) :
    SzShape n (enumSzlst (szL n fun _ => true)) := by
  constructor
  rw [enumSzlst_eq]
  unfold szL
  rw [enumFrom2_map_range]
  refine ⟨fun c k => List.range' (pre (fun c => totLen ((List.range (szW n c + 1)).map fun k =>
      (List.range (2 ^ n)).filter fun x => true && decide (charge n x = c ∧ szPos n x = k))) c
      + pre (fun k => ((List.range (2 ^ n)).filter
          fun x => true && decide (charge n x = c ∧ szPos n x = k)).length) k)
      ((List.range (2 ^ n)).filter
        fun x => true && decide (charge n x = c ∧ szPos n x = k)).length, ?_, ?_⟩
  · apply List.map_congr_left
    intro c _
    rw [enumFrom_map_range]
    simp
  · intro c k hc hk
    simp only [List.length_range', Bool.true_and]
    exact szL_cell_length n c k hn hc hk

theorem init_inv (n : Nat) (s : String) :
    ∃ si, SI.init n s = .ok si ∧ SIInv n si ∧ si.indexing = chooseIndexing n s ∧
      si.removed = none := by
  unfold SI.init
  rw [constructChargelst_eq]
  simp only [py_bind_ok]
  cases hix : chooseIndexing n s with
  | Lin =>
    obtain ⟨j, hj, hj'⟩ := jok_of_inverse (2 ^ n) (List.range (2 ^ n)) (List.Perm.refl _)
    simp only [hj, py_bind_ok]
    rw [makeQuantumNumbers_charge .Lin (by decide) (by decide) n _ (chL_length n _)]
    simp only [py_bind_ok, py_pure]
    refine ⟨_, rfl, ?_, rfl, rfl⟩
    constructor <;> try simp
    · exact hj'
    · rw [makeQuantumNumbers_charge .Lin (by decide) (by decide) n _ (chL_length n _)]
  | charge =>
    obtain ⟨j, hj, hj'⟩ := jok_of_inverse (2 ^ n) (chL n fun _ => true).flatten (by
      have := chL_flatten_perm n fun _ => true
      rwa [filter_true'] at this)
    simp only [hj, py_bind_ok]
    rw [makeQuantumNumbers_charge .charge (by decide) (by decide) n _
      (by rw [enumChargelst_length, chL_length])]
    simp only [py_bind_ok, py_pure]
    refine ⟨_, rfl, ?_, rfl, rfl⟩
    constructor <;> try simp
    · exact hj'
    · rw [makeQuantumNumbers_charge .charge (by decide) (by decide) n _
        (by rw [enumChargelst_length, chL_length])]
  | sz =>
    have hn : n % 2 = 0 := by
      unfold chooseIndexing at hix
      split at hix
      · cases hix
      · split at hix
        · rename_i h; exact h.2
        · split at hix <;> cases hix
    rw [constructSzlst_eq n hn]
    simp only [py_bind_ok]
    obtain ⟨j, hj, hj'⟩ := jok_of_inverse (2 ^ n) (szL n fun _ => true).flatten.flatten (by
      have := szL_flatten_perm n hn fun _ => true
      rwa [filter_true'] at this)
    have hq := makeQuantumNumbers_sz n (enumSzlst (szL n fun _ => true))
      (by rw [enumSzlst_length, szL_length]) (fun c h => enumSzlst_row_length n _ c h)
      (enumChargelst (chL n fun _ => true)) none
    simp [hj, hq]
    constructor <;> try simp
    · exact hj'
    · exact hn
    · exact hq
  | ssq =>
    have hn : n % 2 = 0 := by
      unfold chooseIndexing at hix
      split at hix
      · cases hix
      · split at hix
        · cases hix
        · split at hix
          · rename_i h; exact h.2
          · cases hix
    rw [constructSzlst_eq n hn]
    simp only [py_bind_ok]
    obtain ⟨j, hj, hj'⟩ := jok_of_inverse (2 ^ n) (szL n fun _ => true).flatten.flatten (by
      have := szL_flatten_perm n hn fun _ => true
      rwa [filter_true'] at this)
    have hss := constructSsqlst_eq n hn _ (szShape_enum n hn)
    have hq := makeQuantumNumbers_ssq n (fun c k q =>
      List.range' (pre (fun c => pre (fun k => pre (ssqM n c k) (ssqE n c k + 1)) (szW n c + 1)) c
        + pre (fun k => pre (ssqM n c k) (ssqE n c k + 1)) k + pre (ssqM n c k) q) (ssqM n c k q))
      (enumChargelst (chL n fun _ => true)) (some (enumSzlst (szL n fun _ => true)))
    have hq' : makeQuantumNumbers .ssq (n + 1) n (enumChargelst (chL n fun _ => true))
      (some (enumSzlst (szL n fun _ => true))) (some (ssqTable n)) = .ok _ := hq
    simp only [if_true, hss, py_bind_ok, py_pure, hj, hq']
    refine ⟨_, rfl, ?_, rfl, rfl⟩
    constructor <;> try simp
    · exact hj'
    · exact hn
    · exact hq'
    · exact hss

/-! ### Removal -/

theorem chL_filter (n : Nat) (p p' : Nat → Bool)
    (h : ∀ x, x < 2 ^ n → p' x = true → p x = true) :
    ((List.range (n + 1)).map fun c =>
      ((List.range (2 ^ n)).filter fun x => p x && decide (charge n x = c)).filter p')
      = chL n p' := by
  unfold chL
  apply List.map_congr_left
  intro c _
  rw [List.filter_filter]
  apply List.filter_congr
  intro x hx
  have := h x (by simpa using hx)
  cases h1 : p' x <;> simp
  intro _; exact this h1

theorem szL_filter (n : Nat) (p p' : Nat → Bool)
    (h : ∀ x, x < 2 ^ n → p' x = true → p x = true) :
    ((List.range (n + 1)).map fun c => (List.range (szW n c + 1)).map fun k =>
      ((List.range (2 ^ n)).filter
        fun x => p x && decide (charge n x = c ∧ szPos n x = k)).filter p')
      = szL n p' := by
  unfold szL
  apply List.map_congr_left
  intro c _
  apply List.map_congr_left
  intro k _
  rw [List.filter_filter]
  apply List.filter_congr
  intro x hx
  have := h x (by simpa using hx)
  cases h1 : p' x <;> simp
  intro _ _; exact this h1

/-- The `removed` array the call works with. -/
def removedOf (n : Nat) (r : Option (List Bool)) : List Bool :=
  match r with
  | some r => r
  | none => List.replicate (2 ^ n) false

theorem keepOf_removedOf (n : Nat) (r : Option (List Bool)) (x : Nat) :
    keepOf (some (removedOf n r)) x = keepOf r x := by
  cases r with
  | some r => rfl
  | none =>
    simp only [keepOf, removedOf, List.getD_eq_getElem?_getD, List.getElem?_replicate]
    split <;> rfl

/-- One call of `remove_fock_states` keeps the invariant. For 'Lin' indexing it has to
be the first call. -/
theorem remove_inv (n : Nat) (si : SI) (hinv : SIInv n si) (hssq : si.indexing ≠ .ssq)
    (hlin : si.indexing = .Lin → si.removed = none) (inds : List Int)
    (hin : ∀ i ∈ inds, -((2 ^ n : Nat) : Int) ≤ i ∧ i < ((2 ^ n : Nat) : Int)) :
    ∃ si', si.removeFockStates inds = .ok si' ∧ SIInv n si' ∧ si'.indexing = si.indexing ∧
      si'.removed ≠ none ∧
      (∀ x, x < 2 ^ n → (keepOf si'.removed x = false ↔
        keepOf si.removed x = false ∨ x ∈ inds.map (pyNorm (2 ^ n)))) := by
  have hr0 : (removedOf n si.removed).length = 2 ^ n := by
    cases h : si.removed with
    | none => simp [removedOf]
    | some r => simpa [removedOf] using hinv.removed r h
  obtain ⟨r', hr1, hr2, hr3⟩ := markRemoved_spec (2 ^ n) inds hin _ hr0
  have hrem : si.removedArr = removedOf n si.removed := by
    unfold SI.removedArr
    cases h : si.removed with
    | none =>
      have h2 := hinv.nmany
      rw [h] at h2
      have : si.nmany = 2 ^ n := by rw [h2]; simp [keepOf]
      simp [removedOf, this]
    | some r => rfl
  have hp : ∀ x, x < 2 ^ n → (keepOf (some r') x = false ↔
        keepOf si.removed x = false ∨ x ∈ inds.map (pyNorm (2 ^ n))) := by
    intro x hx
    rw [← keepOf_removedOf n si.removed x]
    have := hr3 x hx
    simp only [keepOf, Bool.not_eq_false']
    exact this
  have hmono : ∀ x, x < 2 ^ n → keepOf (some r') x = true → keepOf si.removed x = true := by
    intro x hx h
    by_contra hcon
    have := (hp x hx).2 (Or.inl (by simpa using hcon))
    rw [this] at h; cases h
  have hget : ∀ x, x < 2 ^ n → r'[x]? = some (!(keepOf (some r') x)) := by
    intro x hx
    rw [List.getElem?_eq_getElem (by omega)]
    simp [keepOf, List.getElem?_eq_getElem (show x < r'.length by omega)]
  have hnm : si.nmany_ - r'.count true
      = ((List.range (2 ^ n)).filter (keepOf (some r'))).length := by
    rw [hinv.nmany_]
    have := count_keep r'
    rw [hr2] at this
    have e : keepOf (some r') = fun x => !(r'.getD x false) := rfl
    rw [e]
    omega
  have hchmem : ∀ c x, x ∈ ((List.range (2 ^ n)).filter
      fun x => keepOf si.removed x && decide (charge n x = c)) → x < 2 ^ n := by
    intro c x hx
    have := (List.mem_filter.1 hx).1
    simpa using this
  -- the charge loop
  obtain ⟨j1, hl1, hl2, hl3, hl4⟩ := removeLoop_spec (2 ^ n) (n + 1) (keepOf (some r')) r' hr2 hget
    (fun c => (List.range (2 ^ n)).filter
      fun x => keepOf si.removed x && decide (charge n x = c))
    (fun c _ => hchmem c) si.j hinv.j.len
  rw [chL_filter n _ _ hmono] at hl1
  have hnone : ∀ x, x < 2 ^ n → keepOf (some r') x = false → j1[x]? = some none := by
    intro x hx h
    cases hk : keepOf si.removed x with
    | false => exact hl4 x (hinv.j.none x hx hk)
    | true =>
      apply hl3 x _ h
      refine ⟨charge n x, by have := charge_le hx; omega, ?_⟩
      simp [hx, hk]
  unfold SI.removeFockStates
  rw [if_neg hssq, hrem, hr1]
  simp only [py_bind_ok]
  rw [hinv.ncharge]
  cases hix : si.indexing with
  | ssq => exact absurd hix hssq
  | Lin =>
    have hrn := hlin hix
    have hsrc : si.chargelst = (List.range (n + 1)).map (fun c => (List.range (2 ^ n)).filter
      fun x => keepOf si.removed x && decide (charge n x = c)) := by
      rcases hinv.lin hix with ⟨h1, h2, h3⟩ | ⟨h2, h3⟩
      · rw [h3, h1]; rfl
      · exact absurd hrn h2
    obtain ⟨j2, hj2, hj2'⟩ := jok_of_renumber (2 ^ n) (keepOf (some r')) _ j1
      (chL_flatten_perm n (keepOf (some r'))) hl2 hnone
    have hq := makeQuantumNumbers_charge .Lin (by decide) (by decide) n
      (enumChargelst (chL n (keepOf (some r')))) (by rw [enumChargelst_length, chL_length])
      si.szlst si.ssqlst
    simp only [if_true, hsrc, hl1, py_bind_ok, reduceCtorEq, if_false, hj2, hinv.nsingle, hq]
    refine ⟨_, rfl, ?_⟩
    refine ⟨?_, rfl, Option.some_ne_none _, hp⟩
    constructor <;> try simp [hinv.nmany_, hr2]
    · rw [hinv.nmany_] at hnm; exact hnm
    · exact hj2'
    · simpa using hinv.noSz (Or.inl hix)
    · exact hq
    · exact hinv.noSsq hssq
  | charge =>
    obtain ⟨hc1, hc2, hc3⟩ := hinv.ch hix
    have hsrc : si.chargelstLin = (List.range (n + 1)).map (fun c => (List.range (2 ^ n)).filter
      fun x => keepOf si.removed x && decide (charge n x = c)) := hc1
    obtain ⟨j2, hj2, hj2'⟩ := jok_of_renumber (2 ^ n) (keepOf (some r')) _ j1
      (chL_flatten_perm n (keepOf (some r'))) hl2 hnone
    have hq := makeQuantumNumbers_charge .charge (by decide) (by decide) n
      (enumChargelst (chL n (keepOf (some r')))) (by rw [enumChargelst_length, chL_length])
      si.szlst si.ssqlst
    simp only [hsrc, hl1, py_bind_ok, reduceCtorEq, if_false, hj2, hinv.nsingle, hq]
    refine ⟨_, rfl, ?_⟩
    refine ⟨?_, rfl, Option.some_ne_none _, hp⟩
    constructor <;> try simp [hinv.nmany_, hr2]
    · rw [hinv.nmany_] at hnm; exact hnm
    · exact hj2'
    · simpa using hinv.noSz (Or.inr hix)
    · exact hq
    · exact hinv.noSsq hssq
  | sz =>
    obtain ⟨hn, hc1, hc2, hc3, hc4, hc5⟩ := hinv.sz (Or.inl hix)
    have hsrc : si.chargelstLin = (List.range (n + 1)).map (fun c => (List.range (2 ^ n)).filter
      fun x => keepOf si.removed x && decide (charge n x = c)) := hc1
    obtain ⟨j2, hs1, hs2, hs4⟩ := removeLoop2_spec (2 ^ n) n (keepOf (some r')) r' hr2 hget
      (fun c k => (List.range (2 ^ n)).filter
        fun x => keepOf si.removed x && decide (charge n x = c ∧ szPos n x = k))
      (fun c k x hx => by
        have := (List.mem_filter.1 hx).1
        simpa using this) j1 hl2
    rw [szL_filter n _ _ hmono] at hs1
    have hsrc2 : szL n (keepOf si.removed) = (List.range (n + 1)).map (fun c =>
      (List.range (szW n c + 1)).map fun k => (List.range (2 ^ n)).filter
        fun x => keepOf si.removed x && decide (charge n x = c ∧ szPos n x = k)) := rfl
    obtain ⟨j3, hj3, hj3'⟩ := jok_of_renumber (2 ^ n) (keepOf (some r')) _ j2
      (szL_flatten_perm n hn (keepOf (some r'))) hs2 (fun x hx h => hs4 x (hnone x hx h))
    have hq := makeQuantumNumbers_sz n (enumSzlst (szL n (keepOf (some r'))))
      (by rw [enumSzlst_length, szL_length]) (fun c h => enumSzlst_row_length n _ c h)
      (enumChargelst (chL n (keepOf (some r')))) si.ssqlst
    simp only [hsrc, hl1, py_bind_ok, reduceCtorEq, if_false, if_true, hc2, hsrc2, hs1, hj3,
      hinv.nsingle, hq]
    refine ⟨_, rfl, ?_⟩
    refine ⟨?_, rfl, Option.some_ne_none _, hp⟩
    constructor <;> try simp [hinv.nmany_, hr2]
    · rw [hinv.nmany_] at hnm; exact hnm
    · exact hj3'
    · exact hn
    · exact hq
    · exact hinv.noSsq hssq

/-! ### Histories -/

/-- All indices of a call are legal for an array of length `2^n`. -/
def InRange (n : Nat) (inds : List Int) : Prop :=
  ∀ i ∈ inds, -((2 ^ n : Nat) : Int) ≤ i ∧ i < ((2 ^ n : Nat) : Int)

theorem removes_inv (n : Nat) (calls : List (List Int)) (si : SI) (hinv : SIInv n si)
    (hssq : si.indexing ≠ .ssq)
    (hlin : si.indexing = .Lin → si.removed = none ∧ calls.length ≤ 1 ∨ calls = [])
    (hin : ∀ l ∈ calls, InRange n l) :
    ∃ si', calls.foldlM SI.removeFockStates si = .ok si' ∧ SIInv n si' ∧
      si'.indexing = si.indexing ∧
      (∀ x, x < 2 ^ n → (keepOf si'.removed x = false ↔
        keepOf si.removed x = false ∨ ∃ l ∈ calls, x ∈ l.map (pyNorm (2 ^ n)))) := by
  induction calls generalizing si with
  | nil => exact ⟨si, rfl, hinv, rfl, by simp⟩
  | cons l calls ih =>
    obtain ⟨si1, h1, h2, h3, h4, h5⟩ := remove_inv n si hinv hssq
      (fun h => by
        rcases hlin h with h | h
        · exact h.1
        · cases h) l (hin l (by simp))
    obtain ⟨si2, g1, g2, g3, g4⟩ := ih si1 h2 (by rw [h3]; exact hssq)
      (fun h => by
        rw [h3] at h
        rcases hlin h with h | h
        · right
          simpa using h.2
        · cases h) (fun l hl => hin l (by simp [hl]))
    refine ⟨si2, ?_, g2, by rw [g3, h3], ?_⟩
    · rw [List.foldlM_cons, h1]; exact g1
    · intro x hx
      rw [g4 x hx, h5 x hx]
      simp only [List.mem_cons, exists_eq_or_imp]
      tauto

/-! ### Reading the tables of any object satisfying the invariant -/

variable {n : Nat} {si : SI}

theorem SIInv.iperm (h : SIInv n si) :
    si.i.Perm ((List.range (2 ^ n)).filter (keepOf si.removed)) := by
  cases hix : si.indexing with
  | Lin =>
    rcases h.lin hix with ⟨h1, h2, _⟩ | ⟨_, h2, _⟩
    · rw [h2, h1]; simp
    · rw [h2]; exact chL_flatten_perm n _
  | charge => rw [(h.ch hix).2.1]; exact chL_flatten_perm n _
  | sz =>
    have := h.sz (Or.inl hix)
    rw [this.2.2.2.1]; exact szL_flatten_perm n this.1 _
  | ssq =>
    have := h.sz (Or.inr hix)
    rw [this.2.2.2.1]; exact szL_flatten_perm n this.1 _

theorem SIInv.ilen (h : SIInv n si) : si.i.length = si.nmany := by
  rw [h.nmany, h.iperm.length_eq]

theorem SIInv.inodup (h : SIInv n si) : si.i.Nodup :=
  h.iperm.nodup_iff.2 (List.nodup_range.filter _)

theorem SIInv.imem (h : SIInv n si) (x : Nat) :
    x ∈ si.i ↔ x < 2 ^ n ∧ keepOf si.removed x = true := by
  rw [h.iperm.mem_iff]; simp

theorem SIInv.ilt (h : SIInv n si) {b : Nat} (hb : b < si.i.length) : si.i[b] < 2 ^ n :=
  ((h.imem _).1 (List.getElem_mem hb)).1

theorem rowAt_mem {F er r : List Nat} (hF : F.Nodup) (h : RowAt F er r) (k : Nat) :
    k ∈ er ↔ ∃ hk : k < F.length, F[k] ∈ r := by
  obtain ⟨t, rfl, ht⟩ := h
  rw [List.mem_range'_1]
  constructor
  · rintro ⟨h1, h2⟩
    have := ht (k - t) (by omega)
    rw [show t + (k - t) = k by omega] at this
    rw [List.getElem?_eq_getElem (show k - t < r.length by omega)] at this
    obtain ⟨hk, e⟩ := List.getElem?_eq_some_iff.1 this
    exact ⟨hk, by rw [e]; exact List.getElem_mem _⟩
  · rintro ⟨hk, hm⟩
    obtain ⟨q, hq, e⟩ := List.getElem_of_mem hm
    have := ht q hq
    rw [List.getElem?_eq_getElem hq] at this
    obtain ⟨hk2, e2⟩ := List.getElem?_eq_some_iff.1 this
    have : t + q = k := (List.Nodup.getElem_inj_iff hF).1 (by rw [e2, e])
    omega

theorem rowAt_nodup {F er r : List Nat} (h : RowAt F er r) : er.Nodup := by
  obtain ⟨t, rfl, ht⟩ := h
  exact List.nodup_range'

theorem rowAt_length {F er r : List Nat} (h : RowAt F er r) : er.length = r.length := by
  obtain ⟨t, rfl, ht⟩ := h
  simp

/-- The charge rows. -/
theorem SIInv.charge_row (h : SIInv n si) (c : Nat) (hc : c ≤ n) :
    ∃ l, pyGet si.chargelst (c : Int) = .ok l ∧ l.Nodup ∧
      l.length = ((List.range (2 ^ n)).filter
        fun x => keepOf si.removed x && decide (charge n x = c)).length ∧
      ∀ b, b ∈ l ↔ ∃ hb : b < si.i.length, charge n si.i[b] = c := by
  have hpy : ∀ (T : List (List Nat)) (hT : c < T.length), pyGet T (c : Int) = .ok T[c] :=
    fun T hT => pyGet_nat T hT
  -- the two ways the table is made
  have viaEnum : ∀ L : List (List Nat), L.length = n + 1 → si.i = L.flatten →
      si.chargelst = enumFrom 0 L → (∀ (hL : c < L.length), L[c].length
        = ((List.range (2 ^ n)).filter
          fun x => keepOf si.removed x && decide (charge n x = c)).length ∧
        ∀ x, x ∈ L[c] ↔ x < 2 ^ n ∧ keepOf si.removed x = true ∧ charge n x = c) →
      ∃ l, pyGet si.chargelst (c : Int) = .ok l ∧ l.Nodup ∧
      l.length = ((List.range (2 ^ n)).filter
        fun x => keepOf si.removed x && decide (charge n x = c)).length ∧
      ∀ b, b ∈ l ↔ ∃ hb : b < si.i.length, charge n si.i[b] = c := by
    intro L hL hi hcl hmem
    have hc1 : c < L.length := by omega
    have hrow := enumChargelst_rowAt L
    rw [enumChargelst_eq] at hrow
    have hlen : c < (enumFrom 0 L).length := by simpa using hc1
    have hr := List.Forall₂.get hrow hlen hc1
    simp only [List.get_eq_getElem] at hr
    rw [hcl, hpy _ hlen]
    refine ⟨_, rfl, rowAt_nodup hr, ?_, ?_⟩
    · rw [rowAt_length hr]; exact (hmem hc1).1
    · intro b
      rw [rowAt_mem (by rw [← hi]; exact h.inodup) hr]
      constructor
      · rintro ⟨hb, hm⟩
        have := ((hmem hc1).2 _).1 hm
        refine ⟨by rw [hi]; exact hb, ?_⟩
        simp only [hi]; exact this.2.2
      · rintro ⟨hb, hm⟩
        have hb' : b < L.flatten.length := by rw [← hi]; exact hb
        refine ⟨hb', ((hmem hc1).2 _).2 ?_⟩
        have h1 := (h.imem si.i[b]).1 (List.getElem_mem hb)
        simp only [hi] at h1 hm
        exact ⟨h1.1, h1.2, hm⟩
  have hch : (∀ (hL : c < (chL n (keepOf si.removed)).length),
        (chL n (keepOf si.removed))[c].length
        = ((List.range (2 ^ n)).filter
          fun x => keepOf si.removed x && decide (charge n x = c)).length ∧
        ∀ x, x ∈ (chL n (keepOf si.removed))[c] ↔
          x < 2 ^ n ∧ keepOf si.removed x = true ∧ charge n x = c) := by
    intro hL
    simp [chL]
  have hszc : (si.indexing = .sz ∨ si.indexing = .ssq) → ∃ l, pyGet si.chargelst (c : Int) = .ok l ∧
      l.Nodup ∧ l.length = ((List.range (2 ^ n)).filter
        fun x => keepOf si.removed x && decide (charge n x = c)).length ∧
      ∀ b, b ∈ l ↔ ∃ hb : b < si.i.length, charge n si.i[b] = c := by
    intro hix
    have := h.sz hix
    refine viaEnum ((szL n (keepOf si.removed)).map List.flatten) (by simp [szL_length])
      (by rw [this.2.2.2.1, List.flatten_flatten])
      (by rw [this.2.2.2.2.2, enumChargelst_eq]; exact (enumFrom_congr 0 _ _
        (szL_map_flatten_length n this.1 _)).symm) ?_
    intro hL
    constructor
    · have e := szL_map_flatten_length n this.1 (keepOf si.removed)
      have e2 := congrArg (fun l => l[c]?) e
      simp only [List.getElem?_map] at e2
      rw [List.getElem?_eq_getElem (by simpa using hL),
        List.getElem?_eq_getElem (show c < (chL n (keepOf si.removed)).length by
          rw [chL_length]; omega)] at e2
      simp only [Option.map_some, Option.some.injEq] at e2
      rw [List.getElem_map, e2]
      exact (hch (by rw [chL_length]; omega)).1
    · intro x
      simp only [szL, List.getElem_map, List.getElem_range, List.mem_flatten, List.mem_map,
        List.mem_range]
      constructor
      · rintro ⟨_, ⟨k, hk, rfl⟩, hx⟩
        have := List.mem_filter.1 hx
        simp at this
        exact ⟨this.1, this.2.1, this.2.2.1⟩
      · rintro ⟨h1, h2, h3⟩
        refine ⟨_, ⟨szPos n x, ?_, rfl⟩, ?_⟩
        · have := szPos_lt this.1 h1
          rwa [h3] at this
        · simp [h1, h2, h3]
  cases hix : si.indexing with
  | Lin =>
    rcases h.lin hix with ⟨h1, h2, h3⟩ | ⟨_, h2, h3⟩
    · rw [h3, hpy _ (by rw [chL_length]; omega)]
      refine ⟨_, rfl, ?_, ?_, ?_⟩
      · simp only [chL, List.getElem_map]; exact List.nodup_range.filter _
      · simp [chL, h1]
      · intro b
        simp [chL, h2]
    · exact viaEnum _ (chL_length _ _) h2 (by rw [h3, enumChargelst_eq]) hch
  | charge =>
    have := h.ch hix
    exact viaEnum _ (chL_length _ _) this.2.1 (by rw [this.2.2, enumChargelst_eq]) hch
  | sz => exact hszc (Or.inl hix)
  | ssq => exact hszc (Or.inr hix)

/-- The rows by charge and spin projection. -/
theorem SIInv.sz_row (h : SIInv n si) (hix : si.indexing = .sz ∨ si.indexing = .ssq)
    (c k : Nat) (hc : c ≤ n) (hk : k ≤ szW n c) :
    ∃ T R l, si.szlst = some T ∧ pyGet T (c : Int) = .ok R ∧ pyGet R (k : Int) = .ok l ∧ l.Nodup ∧
      l.length = ((List.range (2 ^ n)).filter
        fun x => keepOf si.removed x && decide (charge n x = c ∧ szPos n x = k)).length ∧
      ∀ b, b ∈ l ↔ ∃ hb : b < si.i.length, charge n si.i[b] = c ∧ szPos n si.i[b] = k := by
  have H := h.sz hix
  have hrow := enumSzlst_rowAt (szL n (keepOf si.removed))
  have hc1 : c < (szL n (keepOf si.removed)).length := by rw [szL_length]; omega
  have hc2 : c < (enumSzlst (szL n (keepOf si.removed))).length := by
    rw [enumSzlst_length]; exact hc1
  have hr := List.Forall₂.get hrow hc2 hc1
  have hk1 : k < (szL n (keepOf si.removed))[c].length := by simp [szL]; omega
  have hk2 : k < (enumSzlst (szL n (keepOf si.removed)))[c].length := by
    rw [enumSzlst_row_length]; omega
  have hrr := List.Forall₂.get hr hk2 hk1
  simp only [List.get_eq_getElem] at hrr
  have hcell : (szL n (keepOf si.removed))[c][k] = (List.range (2 ^ n)).filter
        fun x => keepOf si.removed x && decide (charge n x = c ∧ szPos n x = k) := by
    simp [szL]
  refine ⟨_, _, _, H.2.2.2.2.1, pyGet_nat _ hc2, pyGet_nat _ hk2, rowAt_nodup hrr, ?_, ?_⟩
  · rw [rowAt_length hrr, hcell]
  · intro b
    rw [rowAt_mem (by rw [← H.2.2.2.1]; exact h.inodup) hrr, hcell]
    simp only [H.2.2.2.1]
    constructor
    · rintro ⟨hb, hm⟩
      have := List.mem_filter.1 hm
      simp at this
      exact ⟨hb, this.2.2⟩
    · rintro ⟨hb, hm⟩
      refine ⟨hb, List.mem_filter.2 ?_⟩
      have h1 := (h.imem ((szL n (keepOf si.removed)).flatten.flatten[b])).1
        (by rw [H.2.2.2.1]; exact List.getElem_mem hb)
      simp [h1, hm]

theorem SIInv.getState (h : SIInv n si) {b : Nat} (hb : b < si.i.length) :
    si.getState (b : Int) = .ok (integerToBinarylist si.i[b] n) := by
  unfold SI.getState
  rw [pyGet_nat _ hb, h.nsingle]; rfl

theorem SIInv.getState' (h : SIInv n si) (hn : 0 < n) {b : Nat} (hb : b < si.i.length) :
    si.getState (b : Int) = .ok (bitsN n si.i[b]) := by
  rw [h.getState hb, integerToBinarylist_eq hn (h.ilt hb)]

theorem SIInv.getState_err (_h : SIInv n si) {b : Nat} (hb : si.i.length ≤ b) :
    si.getState (b : Int) = .error .index := by
  unfold SI.getState
  rw [pyGet_nat_err _ hb]; rfl

theorem SIInv.getInd (h : SIInv n si) (hn : 0 < n) {s : List Nat} (hs : s.length = n)
    (hd : ∀ d ∈ s, d < 2) :
    (keepOf si.removed (bitsVal s) = false → si.getInd s = .ok none) ∧
    (∀ b (hb : b < si.i.length), si.i[b] = bitsVal s → si.getInd s = .ok (some b)) := by
  have hlt : bitsVal s < 2 ^ n := by rw [← hs]; exact bitsVal_lt hd
  have h0 : s ≠ [] := by rintro rfl; simp at hs; omega
  have e : si.getInd s = pyGet si.j ((bitsVal s : Nat) : Int) := by
    unfold SI.getInd
    rw [binarylistToInteger_ok h0 hd]; rfl
  rw [e, pyGet_nat _ (by rw [h.j.len]; exact hlt)]
  constructor
  · intro hk
    have := h.j.none _ hlt hk
    obtain ⟨_, e⟩ := List.getElem?_eq_some_iff.1 this
    rw [e]
  · intro b hb hbs
    have := h.j.inv b hb
    rw [hbs] at this
    obtain ⟨_, e⟩ := List.getElem?_eq_some_iff.1 this
    rw [e]

end Verif
