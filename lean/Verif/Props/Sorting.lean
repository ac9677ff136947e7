import Verif.Lemmas.EaExt
import Verif.Props.Indexing
import Mathlib.Algebra.Order.Floor.Ring
import Mathlib.Data.Rat.Floor

/-!
C38: sorting of the many-body states. `SI.run n indexing calls` is the indexing object after the
calls of `remove_fock_states`; the meaning of its dictionary `indQn` is C04 (`DictsOk`).
-/

namespace Verif

open Spec

section
variable {α : Type} [Field α] [LinearOrder α] [FloorRing α]

/-- `Ea_ext` is the right table for the states of `si` with the energies `Ea`: energies in the first
row, then charge (and spin projection, and total spin), state numbers in the last row. -/
structure IsTable (si : SI) (Ea : List α) (T : List (List α)) : Prop where
  /-- All rows have one column per state. -/
  cols : ∀ r ∈ T, r.length = si.nmany
  rows : T.length = match si.indexing with | .sz => 4 | .ssq => 5 | _ => 3
  energies : T[0]? = some Ea
  numbers : T.getLast? = some ((List.range si.nmany).map fun (k : Nat) => (k : α))
  quantum : ∀ (k : Nat) (qn : QN) (a : Int), si.indQn.get? k = some (qn ++ [a]) →
    ∀ (i : Nat) (v : Int), qn[i]? = some v → entryAt T (i + 1) k = some (v : α)

/-- The value of the property `r` (a row number, possibly negative) of the state `k`. -/
def propOf (T : List (List α)) (r : Int) (k : Nat) : Option α :=
  entryAt T (if 0 ≤ r then r.toNat else (r + T.length).toNat) k

/-- `i` comes before `j`: the first property that differs is smaller, or all are equal and the number is
smaller. -/
def Before (T : List (List α)) : List Int → Nat → Nat → Prop
  | [], i, j => i < j
  | r :: rs, i, j => (∃ x y, propOf T r i = some x ∧ propOf T r j = some y ∧ x < y) ∨
      (propOf T r i = propOf T r j ∧ Before T rs i j)

/-- Number of quantum numbers of an indexing. -/
def qnNum : Indexing → Nat
  | .sz => 2
  | .ssq => 3
  | _ => 1

theorem isTable_of_blocks {si : SI} {Ea : List α} (hE : Ea.length = si.nmany) (hd : DictsOk si)
    (blocks : List (QN × List Nat)) (hok : QnOk blocks si.qnInd si.indQn)
    (hlen : ∀ b ∈ blocks, b.1.length = qnNum si.indexing) :
    ∃ T, (eaExtBase (qnNum si.indexing + 2) Ea si.nmany >>= fun arr =>
      blocks.foldlM (fun arr b => markStates arr b.1 b.2) arr) = .ok T ∧ IsTable si Ea T := by
  obtain ⟨T0, e0, s0, a0, b0⟩ := eaExtBase_spec (R := qnNum si.indexing + 2) (by omega) Ea
  have key : ∀ b ∈ blocks, ∀ k ∈ b.2, ∃ a : Nat, si.indQn.get? k = some (b.1 ++ [(a : Int)]) := by
    intro b hb k hk
    obtain ⟨a, ha⟩ := List.getElem?_of_mem hk
    exact ⟨a, (hok.bwd _ k).2 ⟨b, hb, a, rfl, ha⟩⟩
  obtain ⟨T, e1, s1, a1, u1⟩ := markBlocks_spec (m := qnNum si.indexing) blocks s0 (by omega) hlen (by
    intro b hb x hx
    obtain ⟨a, ha⟩ := key b hb x hx
    rw [hE]
    exact (hd.domain x).1 ⟨_, ha⟩) (by
    intro b hb b' hb' k hk hk'
    obtain ⟨a, ha⟩ := key b hb k hk
    obtain ⟨a', ha'⟩ := key b' hb' k hk'
    rw [ha] at ha'
    exact (List.append_inj' (Option.some.inj ha') rfl).1)
  refine ⟨T, ?_, ?_⟩
  · rw [← hE, e0]
    exact e1
  · refine ⟨?_, ?_, ?_, ?_, ?_⟩
    · intro r hr
      rw [s1.cols r hr, hE]
    · rw [s1.rows]
      cases si.indexing <;> rfl
    · rw [row_of_entries s1 s0 (i := 0) (by omega) (fun k => u1 0 k (Or.inl rfl)), a0]
    · rw [List.getLast?_eq_getElem?, s1.rows,
        row_of_entries s1 s0 (by omega) (fun k => u1 _ k (Or.inr (Or.inl (by omega)))), b0, hE]
    · intro k qn a hq i v hv
      obtain ⟨b, hb, a', e, ha⟩ := (hok.bwd _ k).1 hq
      have := (List.append_inj' e rfl).1
      exact a1 b hb k (List.mem_of_getElem? ha) i v (by rw [← this]; exact hv)

theorem isTable_of_inv {n : Nat} {si : SI} (h : SIInv n si) {Ea : List α} (hE : Ea.length = si.nmany) :
    ∃ T, eaExtended si Ea = .ok T ∧ IsTable si Ea T := by
  have hd := dictsOk_of_inv h
  by_cases h1 : si.indexing = .Lin ∨ si.indexing = .charge
  · obtain ⟨hl, hok⟩ := h.qn_charge h1
    have hq : qnNum si.indexing = 1 := by rcases h1 with h | h <;> rw [h] <;> rfl
    obtain ⟨T, e, ht⟩ := isTable_of_blocks hE hd _ hok (by
      intro b hb
      obtain ⟨p, _, rfl⟩ := List.mem_map.1 hb
      rw [hq]; rfl)
    refine ⟨T, ?_, ht⟩
    rw [← e, hq]
    have := fun arr => loop_charge (fun arr vals l => markStates (α := α) arr vals l) n si.chargelst hl arr
    unfold eaExtended
    rcases h1 with h1 | h1 <;> rw [h1] <;> simp only [h.ncharge] <;> congr 1 <;> funext arr <;> exact this arr
  · by_cases h2 : si.indexing = .sz
    · obtain ⟨S, hS, hlen, hw, hok⟩ := h.qn_sz h2
      have hq : qnNum si.indexing = 2 := by rw [h2]; rfl
      obtain ⟨T, e, ht⟩ := isTable_of_blocks hE hd _ hok (by
        intro b hb
        obtain ⟨p, _, hp⟩ := List.mem_flatMap.1 hb
        obtain ⟨p', _, rfl⟩ := List.mem_map.1 hp
        rw [hq]; rfl)
      refine ⟨T, ?_, ht⟩
      rw [← e, hq]
      have := fun arr => loop_sz (fun arr vals l => markStates (α := α) arr vals l) n S hlen hw arr
      unfold eaExtended
      rw [h2]
      simp only [h.ncharge, h.nsingle, hS, py_pure, py_bind_ok]
      congr 1
      funext arr
      exact this arr
    · have h3 : si.indexing = .ssq := by
        cases hx : si.indexing <;> simp_all
      obtain ⟨g1, g2, hok⟩ := h.qn_ssq h3
      have hq : qnNum si.indexing = 3 := by rw [h3]; rfl
      obtain ⟨T, e, ht⟩ := isTable_of_blocks hE hd _ hok (by
        intro b hb
        unfold ssqBlocks at hb
        obtain ⟨p, _, hp⟩ := List.mem_flatMap.1 hb
        obtain ⟨p', _, hp⟩ := List.mem_flatMap.1 hp
        obtain ⟨p', _, rfl⟩ := List.mem_map.1 hp
        rw [hq]; rfl)
      refine ⟨T, ?_, ht⟩
      rw [← e, hq]
      have := fun arr => loop_ssq (fun arr vals l => markStates (α := α) arr vals l) n (ssqCell n) arr
      unfold eaExtended
      rw [h3]
      simp only [h.ncharge, h.nsingle, g1, py_pure, py_bind_ok]
      congr 1
      funext arr
      exact this arr

theorem IsTable.refresh {si : SI} {Ea Ea' : List α} {T : List (List α)} (h : IsTable si Ea T)
    (hE : Ea'.length = si.nmany) : putRow T 0 Ea' = .ok (T.set 0 Ea') ∧ IsTable si Ea' (T.set 0 Ea') := by
  have h0 : 2 < T.length := by
    rw [h.rows]; cases si.indexing <;> simp
  have s : Shaped T.length si.nmany T := ⟨rfl, h.cols⟩
  refine ⟨putRow_spec s (i := 0) (by omega) Ea' hE, ?_⟩
  refine ⟨(s.set 0 hE).cols, by rw [List.length_set]; exact h.rows, ?_, ?_, ?_⟩
  · rw [List.getElem?_set_self (by omega)]
  · rw [List.getLast?_eq_getElem?, List.length_set, List.getElem?_set_ne (by omega), ← List.getLast?_eq_getElem?]
    exact h.numbers
  · intro k qn a hq i v hv
    have := h.quantum k qn a hq i v hv
    unfold entryAt at this ⊢
    rw [List.getElem?_set_ne (by omega)]
    exact this

theorem keyAt_row {T : List (List α)} {r : Int} {row : List α} (h : pyGet T r = .ok row) (i : Nat) :
    keyAt row i = match propOf T r i with | some x => (x : WithBot α) | none => ⊥ := by
  have e : propOf T r i = row[i]? := by
    unfold propOf entryAt
    unfold pyGet pyIdx at h
    split_ifs at h with h1 h2 h3
    · simp only at h
      rw [if_pos h1]
      cases hx : T[r.toNat]? with
      | none => rw [hx] at h; cases h
      | some y => rw [hx] at h; cases h; rfl
    · simp only at h
      rw [if_neg h1]
      cases hx : T[(r + T.length).toNat]? with
      | none => rw [hx] at h; cases h
      | some y => rw [hx] at h; cases h; rfl
  rw [e]; rfl

variable [IsStrictOrderedRing α]

theorem pyTrunc_nat (k : Nat) : pyTrunc ((k : Nat) : α) = (k : Int) := by
  unfold pyTrunc
  rw [if_pos (by positivity)]
  have := Int.floor_intCast (R := α) (k : Int)
  rwa [Int.cast_natCast] at this

/-- Sorting a right table. -/
theorem sort_table {si : SI} {Ea : List α} {T : List (List α)} (h : IsTable si Ea T) (srt : List Int)
    (hs : ∀ r ∈ srt, -(T.length : Int) ≤ r ∧ r < T.length) :
    ∃ (sorted : List (List α)) (last : List α) (σ : List Nat),
      multiarraySort T (srt ++ [-1]) = .ok sorted ∧ pyGet sorted (-1) = .ok last ∧
      last.map pyTrunc = σ.map (fun (k : Nat) => (k : Int)) ∧ σ.Perm (List.range si.nmany) ∧
      σ.Pairwise (Before T srt) := by
  have h0 : 2 < T.length := by
    rw [h.rows]; cases si.indexing <;> simp
  have hget : ∀ r : Int, -(T.length : Int) ≤ r → r < T.length → ∃ row, pyGet T r = .ok row := by
    intro r h1 h2
    unfold pyGet pyIdx
    split_ifs with h3
    · simp only
      rw [List.getElem?_eq_getElem (by omega)]
      exact ⟨_, rfl⟩
    · simp only
      rw [List.getElem?_eq_getElem (by omega)]
      exact ⟨_, rfl⟩
    · omega
  have hlast : pyGet T (-1) = .ok ((List.range si.nmany).map fun (k : Nat) => (k : α)) := by
    have e := h.numbers
    rw [List.getLast?_eq_getElem?] at e
    unfold pyGet
    have := pyIdx_neg (len := T.length) (k := 1) (by omega) (by omega)
    rw [show -((1 : Nat) : Int) = -1 from rfl] at this
    rw [this]
    simp only [e]
  have hkeys : ∃ keys : List (List α), srt.mapM (fun i => pyGet T i) = .ok keys ∧
      ∀ i j, keyLe (keys ++ [(List.range si.nmany).map fun (k : Nat) => (k : α)]) i j = true →
        i < si.nmany → j < si.nmany → i ≠ j → Before T srt i j := by
    clear hlast
    induction srt with
    | nil =>
      refine ⟨[], rfl, ?_⟩
      intro i j hij hi hj hne
      rw [List.nil_append] at hij
      simp only [keyLe] at hij
      simp only [Before]
      have ek : ∀ i, i < si.nmany → keyAt ((List.range si.nmany).map fun (k : Nat) => (k : α)) i
          = ((i : α) : WithBot α) := by
        intro i hi
        unfold keyAt
        rw [List.getElem?_map, List.getElem?_range hi]
        rfl
      rw [ek i hi, ek j hj] at hij
      by_contra hc
      have hlt : (j : α) < (i : α) := by exact_mod_cast (by omega : j < i)
      rw [if_neg (by simpa using hlt.le), if_pos (by simpa using hlt)] at hij
      cases hij
    | cons r srt ih =>
      obtain ⟨keys, e, H⟩ := ih (fun x hx => hs x (by simp [hx]))
      obtain ⟨row, hrow⟩ := hget r (hs r (by simp)).1 (hs r (by simp)).2
      refine ⟨row :: keys, by rw [List.mapM_cons, hrow, py_bind_ok, e]; rfl, ?_⟩
      intro i j hij hi hj hne
      rw [List.cons_append] at hij
      unfold keyLe at hij
      have hmem : row ∈ T := by
        unfold pyGet at hrow
        split at hrow
        · split at hrow
          · rename_i hh; cases hrow; exact List.mem_of_getElem? hh
          · cases hrow
        · cases hrow
      have hrl := h.cols row hmem
      have eqp : ∀ i, i < si.nmany → ∃ x, propOf T r i = some x ∧ keyAt row i = (x : WithBot α) := by
        intro i hi
        have hk := keyAt_row hrow i
        have e2 : keyAt row i = ((row[i]'(by omega) : α) : WithBot α) := by
          unfold keyAt
          rw [List.getElem?_eq_getElem (by omega)]
        cases hp : propOf T r i with
        | none => rw [hp, e2] at hk; simp at hk
        | some x => exact ⟨x, rfl, by rw [hk, hp]⟩
      obtain ⟨x, px, kx⟩ := eqp i hi
      obtain ⟨y, py, ky⟩ := eqp j hj
      rw [kx, ky] at hij
      simp only [Before]
      rcases lt_trichotomy x y with hxy | hxy | hxy
      · exact Or.inl ⟨x, y, px, py, hxy⟩
      · right
        subst hxy
        refine ⟨by rw [px, py], ?_⟩
        rw [if_neg (lt_irrefl _), if_neg (lt_irrefl _)] at hij
        exact H i j hij hi hj hne
      · rw [if_neg (by simpa using hxy.le), if_pos (by simpa using hxy)] at hij
        cases hij
  obtain ⟨keys, ek, HB⟩ := hkeys
  have hall : (srt ++ [-1]).mapM (fun i => pyGet T i)
      = .ok (keys ++ [(List.range si.nmany).map fun (k : Nat) => (k : α)]) := by
    rw [List.mapM_append, ek]
    simp only [py_bind_ok, List.mapM_cons, hlast, List.mapM_nil, py_pure]
  letI : Inhabited α := ⟨0⟩
  obtain ⟨σ, e1, e2, e3⟩ := multiarraySort_spec T (srt ++ [-1]) _ hall (by simp) h.cols
  refine ⟨_, σ.map fun j => ((List.range si.nmany).map fun (k : Nat) => (k : α)).getD j default, σ, e1, ?_, ?_, e2, ?_⟩
  · have e := h.numbers
    rw [List.getLast?_eq_getElem?] at e
    unfold pyGet
    have := pyIdx_neg (len := (T.map fun r => σ.map fun j => r.getD j default).length) (k := 1) (by omega)
      (by rw [List.length_map]; omega)
    rw [show -((1 : Nat) : Int) = -1 from rfl] at this
    rw [this]
    simp only [List.length_map, List.getElem?_map, e, Option.map_some]
  · rw [List.map_map]
    apply List.map_congr_left
    intro k hk
    have hk' : k < si.nmany := by simpa using e2.mem_iff.1 hk
    simp only [Function.comp]
    rw [List.getD_eq_getElem?_getD, List.getElem?_map, List.getElem?_range hk']
    exact pyTrunc_nat k
  · have hnd : σ.Nodup := e2.nodup_iff.2 List.nodup_range
    refine (e3.and hnd).imp_of_mem ?_
    intro i j hi hj hij
    exact HB i j hij.1 (by simpa using e2.mem_iff.1 hi) (by simpa using e2.mem_iff.1 hj) hij.2

/-- Sorting with any object that satisfies the invariant. -/
theorem sort_of_inv {n : Nat} {si : SI} (hinv : SIInv n si) {Ea : List α} (hE : Ea.length = si.nmany)
    (s : SortState α) (hs : ∀ T, s.eaExt = some T → ∃ Ea', IsTable si Ea' T) (srt : List Int)
    (hsrt : s.srt = some srt)
    (hr : ∀ r ∈ srt, -((qnNum si.indexing + 2 : Nat) : Int) ≤ r ∧ r < ((qnNum si.indexing + 2 : Nat) : Int)) :
    ∃ (T : List (List α)) (σ : List Nat),
      sortEigenstates si Ea s = .ok ⟨some T, σ.map (fun (k : Nat) => (k : Int)), some (srt ++ [-1])⟩ ∧
      IsTable si Ea T ∧ σ.Perm (List.range si.nmany) ∧ σ.Pairwise (Before T srt) := by
  have : ∃ T, (match s.eaExt with | none => eaExtended si Ea | some a => putRow a 0 Ea) = .ok T ∧ IsTable si Ea T := by
    cases hx : s.eaExt with
    | none => exact isTable_of_inv hinv hE
    | some a =>
      obtain ⟨Ea', ha⟩ := hs a hx
      exact ⟨_, (ha.refresh hE).1, (ha.refresh hE).2⟩
  obtain ⟨T, hT, ht⟩ := this
  have hlen : T.length = qnNum si.indexing + 2 := by
    have := ht.rows
    revert this
    cases si.indexing <;> exact id
  obtain ⟨sorted, last, σ, e1, e2, e3, e4, e5⟩ := sort_table ht srt (by rw [hlen]; exact hr)
  refine ⟨T, σ, ?_, ht, e4, e5⟩
  unfold sortEigenstates
  rw [hsrt]
  revert hT
  cases s.eaExt with
  | none =>
    intro hT
    simp only at hT
    simp only [hT, py_bind_ok, e1, e2, e3, py_pure]
  | some a =>
    intro hT
    simp only at hT
    simp only [hT, py_bind_ok, e1, e2, e3, py_pure]

/-! ### C38 -/

theorem sort_run_inv (n : Nat) (indexing : String) (calls : List (List Int))
    (hin : ∀ l ∈ calls, InRange n l) (hix : chooseIndexing n indexing = .Lin → calls.length ≤ 1) :
    ∃ si, SI.run n indexing calls = .ok si ∧ SIInv n si := by
  obtain ⟨si0, h1, hinv0, hch, hr⟩ := init_inv n indexing
  by_cases hs : si0.indexing = .ssq
  · have : indexing = "ssq" ∧ n % 2 = 0 := by
      rw [hch] at hs
      unfold chooseIndexing at hs
      split_ifs at hs with a b c
      exact c
    obtain ⟨rfl, hn⟩ := this
    exact ⟨si0, by rw [c09_ssq_ignored n hn, h1], hinv0⟩
  · obtain ⟨si, g1, g2, _⟩ := removes_inv n calls si0 hinv0 hs
      (fun h => Or.inl ⟨hr, hix (by rw [← hch, h])⟩) hin
    refine ⟨si, ?_, g2⟩
    unfold SI.run
    rw [h1]
    exact g1

/-- Calls of `sort_eigenstates`, each with the energies at that time and its argument. -/
def sortHist (si : SI) (hist : List (List α × Option (List Int))) : Py (SortState α) :=
  hist.foldlM (fun s c => sortEigenstates si c.1 { s with srt := c.2 })
    ⟨none, (List.range si.nmany).map fun (k : Nat) => (k : Int), none⟩

/-- An argument of `sort_eigenstates` that names existing rows. -/
def LegalSrt (ix : Indexing) (srt : List Int) : Prop :=
  ∀ r ∈ srt, -(match ix with | .sz => 4 | .ssq => 5 | _ => 3) ≤ r ∧
    r < (match ix with | .sz => 4 | .ssq => 5 | _ => 3)

theorem legalSrt_num {ix : Indexing} {srt : List Int} (h : LegalSrt ix srt) :
    ∀ r ∈ srt, -((qnNum ix + 2 : Nat) : Int) ≤ r ∧ r < ((qnNum ix + 2 : Nat) : Int) := by
  intro r hr
  have := h r hr
  revert this
  cases ix <;> exact id

theorem sortHist_ok {n : Nat} {si : SI} (hinv : SIInv n si) (hist : List (List α × Option (List Int)))
    (hh : ∀ c ∈ hist, c.1.length = si.nmany ∧ ∀ srt, c.2 = some srt → LegalSrt si.indexing srt) :
    ∃ s, sortHist si hist = .ok s ∧ ∀ T, s.eaExt = some T → ∃ Ea', IsTable si Ea' T := by
  unfold sortHist
  have : ∀ (hist : List (List α × Option (List Int)))
      (hh : ∀ c ∈ hist, c.1.length = si.nmany ∧ ∀ srt, c.2 = some srt → LegalSrt si.indexing srt)
      (s0 : SortState α) (h0 : ∀ T, s0.eaExt = some T → ∃ Ea', IsTable si Ea' T),
      ∃ s, hist.foldlM (fun s c => sortEigenstates si c.1 { s with srt := c.2 }) s0 = .ok s ∧
        ∀ T, s.eaExt = some T → ∃ Ea', IsTable si Ea' T := by
    intro hist
    induction hist with
    | nil => exact fun _ s0 h0 => ⟨s0, rfl, h0⟩
    | cons c hist ih =>
      intro hh s0 h0
      obtain ⟨hl, hs⟩ := hh c (by simp)
      have step : ∃ s1, sortEigenstates si c.1 { s0 with srt := c.2 } = .ok s1 ∧
          ∀ T, s1.eaExt = some T → ∃ Ea', IsTable si Ea' T := by
        cases hc : c.2 with
        | none => exact ⟨_, rfl, h0⟩
        | some srt =>
          obtain ⟨T, σ, e, ht, _⟩ := sort_of_inv hinv hl { s0 with srt := some srt } h0 srt rfl
            (legalSrt_num (hs srt hc))
          exact ⟨_, e, fun T' hT' => ⟨c.1, by cases hT'; exact ht⟩⟩
      obtain ⟨s1, e1, h1⟩ := step
      obtain ⟨s2, e2, h2⟩ := ih (fun c hc => hh c (by simp [hc])) s1 h1
      exact ⟨s2, by rw [List.foldlM_cons, e1]; exact e2, h2⟩
  exact this hist hh _ (by simp)

/-- **C38**. For every number of orbitals, every indexing and every history of removals of Fock states
(see C09 for 'Lin') and of earlier sorting calls with other energies: `sort_eigenstates(srt)` does
not raise, keeps the right table of properties in `Ea_ext`, and sets `states_order` to a permutation of all state numbers in
which a state comes before another if the first property of `srt` that differs is smaller, or if all
agree and its number is smaller. -/
theorem c38_sorted (n : Nat) (indexing : String) (calls : List (List Int))
    (hin : ∀ l ∈ calls, ∀ i ∈ l, -((2 ^ n : Nat) : Int) ≤ i ∧ i < ((2 ^ n : Nat) : Int))
    (hix : chooseIndexing n indexing = .Lin → calls.length ≤ 1) :
    ∃ si, SI.run n indexing calls = .ok si ∧
    ∀ (hist : List (List α × Option (List Int)))
      (_ : ∀ c ∈ hist, c.1.length = si.nmany ∧ ∀ srt, c.2 = some srt → LegalSrt si.indexing srt)
      (Ea : List α) (_ : Ea.length = si.nmany) (srt : List Int) (_ : LegalSrt si.indexing srt),
      ∃ (s : SortState α) (T : List (List α)) (σ : List Nat), sortHist si hist = .ok s ∧
        sortEigenstates si Ea { s with srt := some srt }
          = .ok ⟨some T, σ.map (fun (k : Nat) => (k : Int)), some (srt ++ [-1])⟩ ∧
        IsTable si Ea T ∧ σ.Perm (List.range si.nmany) ∧ σ.Pairwise (Before T srt) := by
  obtain ⟨si, h1, hinv⟩ := sort_run_inv n indexing calls hin hix
  refine ⟨si, h1, ?_⟩
  intro hist hh Ea hE srt hs
  obtain ⟨s, e, h0⟩ := sortHist_ok hinv hist hh
  obtain ⟨T, σ, g⟩ := sort_of_inv hinv hE { s with srt := some srt } h0 srt rfl (legalSrt_num hs)
  exact ⟨s, T, σ, e, g⟩

omit [LinearOrder α] [FloorRing α] [IsStrictOrderedRing α] in
theorem qn_state {n : Nat} {si : SI} (hinv : SIInv n si) {k : Nat} {key : QN} (hk : si.indQn.get? k = some key) :
    ∃ s, si.getState k = .ok s ∧ key[0]? = some ((s.sum : Nat) : Int) ∧
      (si.indexing = .sz ∨ si.indexing = .ssq → key[1]? = some (twoSz n s)) := by
  have ofCharge : ∀ (c : Nat) (l : List Nat), si.chargelst[c]? = some l → c ≤ n → k ∈ l →
      ∃ s, si.getState k = .ok s ∧ s.sum = c := by
    intro c l hl hc hkl
    obtain ⟨l', g1, _, g3⟩ := charges_of_inv hinv c hc
    have hlt : c < si.chargelst.length := by
      rcases Nat.lt_or_ge c si.chargelst.length with h | h
      · exact h
      · rw [List.getElem?_eq_none h] at hl; cases hl
    have : l' = l := by
      simp only [SI.getLst, pyGet_nat _ hlt, py_bind_ok, py_pure, Except.ok.injEq, Option.some.injEq] at g1
      rw [List.getElem?_eq_getElem hlt] at hl
      rw [← g1]; exact Option.some.inj hl
    subst this
    exact (g3 k).1 hkl
  have ofSz : ∀ (c j : Nat), c ≤ n → j ≤ szW n c → si.indexing = .sz ∨ si.indexing = .ssq →
      ∀ (T : List (List (List Nat))) (R : List (List Nat)) (l : List Nat), si.szlst = some T → T[c]? = some R →
      R[j]? = some l → k ∈ l →
      ∃ s, si.getState k = .ok s ∧ s.sum = c ∧ twoSz n s = -(szW n c : Int) + 2 * (j : Int) := by
    intro c j hc hj hix T R l hT hR hl hkl
    have hn := (hinv.sz hix).1
    obtain ⟨l', g1, _, g3⟩ := szs_of_inv hinv hix c _ hc ((admSz_iff hn hc _).2 ⟨j, hj, rfl⟩)
    obtain ⟨hc', eR⟩ := List.getElem?_eq_some_iff.1 hR
    obtain ⟨hj', el⟩ := List.getElem?_eq_some_iff.1 hl
    simp only [SI.getLst, hT, hinv.nsingle, pyGet_nat _ hc', py_bind_ok, szToInd_range n c j hc, eR,
      pyGet_nat _ hj', el, py_pure, Except.ok.injEq, Option.some.injEq] at g1
    subst g1
    exact (g3 k).1 hkl
  by_cases h1 : si.indexing = .Lin ∨ si.indexing = .charge
  · obtain ⟨hl, hok⟩ := hinv.qn_charge h1
    obtain ⟨b, hb, a, rfl, ha⟩ := (hok.bwd key k).1 hk
    obtain ⟨⟨lst, c⟩, hp, rfl⟩ := List.mem_map.1 hb
    have hp' : si.chargelst[c]? = some lst := by
      have := List.mem_zipIdx_iff_getElem?.1 hp
      simpa using this
    obtain ⟨hc, _⟩ := List.getElem?_eq_some_iff.1 hp'
    obtain ⟨s, e1, e2⟩ := ofCharge c lst hp' (by omega) (List.mem_of_getElem? ha)
    refine ⟨s, e1, by simp [e2], ?_⟩
    intro h2
    rcases h1 with h | h <;> rw [h] at h2 <;> simp at h2
  · by_cases h2 : si.indexing = .sz
    · obtain ⟨T, hT, hlen, hw, hok⟩ := hinv.qn_sz h2
      obtain ⟨b, hb, a, rfl, ha⟩ := (hok.bwd key k).1 hk
      unfold szBlocks at hb
      obtain ⟨⟨row, c⟩, hp, hb⟩ := List.mem_flatMap.1 hb
      obtain ⟨⟨lst, j⟩, hp2, rfl⟩ := List.mem_map.1 hb
      have hp' : T[c]? = some row := by
        have := List.mem_zipIdx_iff_getElem?.1 hp
        simpa using this
      have hp2' : row[j]? = some lst := by
        have := List.mem_zipIdx_iff_getElem?.1 hp2
        simpa using this
      obtain ⟨hc, e⟩ := List.getElem?_eq_some_iff.1 hp'
      obtain ⟨hj, e2⟩ := List.getElem?_eq_some_iff.1 hp2'
      have hwc := hw c hc
      rw [e] at hwc
      obtain ⟨s, e1, e2, e3⟩ := ofSz c j (by omega) (by omega) (Or.inl h2) T row lst hT hp' hp2' (List.mem_of_getElem? ha)
      exact ⟨s, e1, by simp [e2], fun _ => by simp [e3]⟩
    · have h3 : si.indexing = .ssq := by
        cases hx : si.indexing <;> simp_all
      obtain ⟨g1, g2, hok⟩ := hinv.qn_ssq h3
      have hn := (hinv.sz (Or.inr h3)).1
      obtain ⟨b, hb, a, rfl, ha⟩ := (hok.bwd key k).1 hk
      unfold ssqBlocks at hb
      obtain ⟨c, hc, hb⟩ := List.mem_flatMap.1 hb
      obtain ⟨j, hj, hb⟩ := List.mem_flatMap.1 hb
      obtain ⟨q, hq, rfl⟩ := List.mem_map.1 hb
      simp only [List.mem_range] at hc hj hq
      have hkl : k ∈ List.range' (szStart n c j) (szLen n c j) := by
        rw [← ssqCell_flatten n c j hn (by omega) (by omega)]
        exact List.mem_flatten.2 ⟨_, List.mem_map.2 ⟨q, List.mem_range.2 hq, rfl⟩, List.mem_of_getElem? ha⟩
      obtain ⟨s, e1, e2, e3⟩ := ofSz c j (by omega) (by omega) (Or.inr h3) _ _ _ g2
        (by rw [List.getElem?_map, List.getElem?_range hc]; rfl)
        (by rw [List.getElem?_map, List.getElem?_range hj]; rfl) hkl
      exact ⟨s, e1, by simp [e2], fun _ => by simp [e3]⟩

/-- **C38**, the rows of the table: the charge of a state is the number of electrons of its
occupation list, and with 'sz' or 'ssq' indexing the next row holds the spin projection (twice the z component). -/
theorem c38_properties (n : Nat) (indexing : String) (calls : List (List Int))
    (hin : ∀ l ∈ calls, ∀ i ∈ l, -((2 ^ n : Nat) : Int) ≤ i ∧ i < ((2 ^ n : Nat) : Int))
    (hix : chooseIndexing n indexing = .Lin → calls.length ≤ 1) :
    ∃ si, SI.run n indexing calls = .ok si ∧
    ∀ (Ea : List α) (T : List (List α)), IsTable si Ea T → ∀ k : Nat, k < si.nmany →
      ∃ s, si.getState k = .ok s ∧ entryAt T 1 k = some ((s.sum : Nat) : α) ∧
        (si.indexing = .sz ∨ si.indexing = .ssq → entryAt T 2 k = some ((twoSz n s : Int) : α)) := by
  obtain ⟨si, h1, hinv⟩ := sort_run_inv n indexing calls hin hix
  refine ⟨si, h1, ?_⟩
  intro Ea T ht k hk
  have hd := dictsOk_of_inv hinv
  obtain ⟨key, hkey⟩ := (hd.domain k).2 hk
  obtain ⟨c, sz, ssq, a, l, e, hsz, hssq, hl, ha⟩ := hd.meaning key k hkey
  obtain ⟨s, e1, e2, e3⟩ := qn_state hinv hkey
  subst e
  refine ⟨s, e1, ?_, ?_⟩
  · have hq := ht.quantum k ([(c : Int)] ++ sz.toList ++ ssq.toList) a hkey 0 (s.sum : Nat) (by simpa using e2)
    rw [Nat.zero_add] at hq
    rw [hq]
    simp
  · intro h
    have e3 := e3 h
    have h4 := hsz.2 h
    obtain ⟨z, rfl⟩ := Option.isSome_iff_exists.1 h4
    exact ht.quantum k ([(c : Int)] ++ (some z).toList ++ ssq.toList) a hkey 1 _ (by simpa using e3)

/-- **C38**, no argument: `states_order` is the order of the numbers and nothing else changes. -/
theorem c38_default (si : SI) (Ea : List α) (s : SortState α) : sortEigenstates si Ea { s with srt := none }
    = .ok { s with order := (List.range si.nmany).map fun (k : Nat) => (k : Int), srt := none } := rfl

/-- **C38**, negation: a table made before states were removed has the wrong number of columns, and the
next `sort_eigenstates` raises `ValueError`. -/
theorem c38_stale_raises {si si' : SI} {Ea Ea' : List α} {T : List (List α)} (h : IsTable si Ea T)
    (hE : Ea'.length = si'.nmany) (hne : si'.nmany ≠ si.nmany) (s : SortState α) (hs : s.eaExt = some T)
    (srt : List Int) : sortEigenstates si' Ea' { s with srt := some srt } = .error .value := by
  have h0 : 0 < T.length := by
    rw [h.rows]; cases si.indexing <;> simp
  have hp : putRow T 0 Ea' = .error .value := by
    unfold putRow
    have := pyGet_nat T h0
    rw [show ((0 : Nat) : Int) = 0 from rfl] at this
    rw [this]
    simp only [py_bind_ok]
    rw [if_neg (by rw [h.cols _ (List.getElem_mem h0), hE]; exact Ne.symm hne)]
  unfold sortEigenstates
  simp only [hs, hp]
  rfl

end

/-- The hypotheses of `c38_sorted` are met with removals, and the result is not trivial: two orbitals with
spin, one state removed, sorted by charge and then by energy. -/
example : (SI.run 2 "sz" [[1]] >>= fun si => sortEigenstates si [(3 : ℚ), 1, 2] ⟨none, [], some [1, 0]⟩
    >>= fun s => .ok (si.nmany, s.eaExt, s.order, s.srt))
    = .ok (3, some [[3, 1, 2], [0, 1, 2], [0, 1, 0], [0, 1, 2]], [0, 1, 2], some [1, 0, -1]) := by
  decide +kernel

example : (SI.run 2 "charge" [] >>= fun si => sortEigenstates si [(3 : ℚ), 1, -2, 3] ⟨none, [], some [0]⟩
    >>= fun s => sortEigenstates si [(5 : ℚ), 1, 7, 0] { s with srt := some [1, 0] }
    >>= fun s' => .ok (s.order, s'.eaExt, s'.order))
    = .ok ([2, 1, 0, 3], some [[5, 1, 7, 0], [0, 1, 1, 2], [0, 1, 2, 3]], [0, 1, 2, 3]) := by
  decide +kernel

example : LegalSrt .sz [1, 0] ∧ LegalSrt .charge [0, -1] := by
  unfold LegalSrt; decide

/-- A sorting call, a removal of a state, another sorting call: `ValueError`. -/
theorem c38_stale_example : (SI.run 2 "charge" [] >>= fun si =>
    sortEigenstates si [(3 : ℚ), 1, -2, 3] ⟨none, [], some [0]⟩ >>= fun s =>
    si.removeFockStates [1] >>= fun si' =>
    sortEigenstates si' [(3 : ℚ), -2, 3] { s with srt := some [0] } >>= fun s' => .ok s'.order)
    = .error .value := by
  decide +kernel

end Verif
