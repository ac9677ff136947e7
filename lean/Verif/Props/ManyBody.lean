import Verif.Lemmas.ManyBody
import Verif.Props.States
import Verif.Model.Various

/-! C41: systems given in the many-body basis. -/

namespace Verif

/-- `nmin` and `nmax` are the smallest and the largest charge. -/
structure ChargeRange (Na : List Int) (nmin nmax : Int) : Prop where
  minMem : nmin ∈ Na
  minLe : ∀ q ∈ Na, nmin ≤ q
  maxMem : nmax ∈ Na
  leMax : ∀ q ∈ Na, q ≤ nmax

theorem ChargeRange.le {Na : List Int} {nmin nmax : Int} (h : ChargeRange Na nmin nmax) : nmin ≤ nmax :=
  h.minLe _ h.maxMem

/-- `BuilderManyBody` when every charge is a legal index, giving the sector `k i` to the state `i`. -/
theorem initManyBody_ok {Na : List Int} {nmin nmax : Int} (h : ChargeRange Na nmin nmax) (kind : DMKind)
    (k : Nat → Nat) (hk : ∀ (i : Nat) (q : Int), Na[i]? = some q → pyIdx (nmax - nmin + 1).toNat q = .ok (k i)) :
    ∃ d, DM.initManyBody kind Na Na.length = .ok d ∧ d.kind = kind ∧
      d.si.ncharge = (nmax - nmin + 1).toNat ∧ d.si.nmany = Na.length ∧ d.si.nsingle = 0 ∧
      d.si.chargelst = [0] :: (if kind = .dm then [] else [[]]) ∧
      d.statesdm = ((List.range (nmax - nmin + 1).toNat).map fun c =>
        (List.range Na.length).filter fun i => k i = c) ++ [[]] ∧
      (kind = .dm → ∀ nleads, VOk (d.view nleads) d.labOf) ∧
      (kind = .dmc → LabDMc (nmax - nmin + 1).toNat ((List.range (nmax - nmin + 1).toNat).map fun c =>
        (List.range Na.length).filter fun i => k i = c) (fun _ _ => true) d) ∧
      (kind = .pauli → LabP (nmax - nmin + 1).toNat ((List.range (nmax - nmin + 1).toNat).map fun c =>
        (List.range Na.length).filter fun i => k i = c) d) := by
  have hle := h.le
  set m := (nmax - nmin + 1).toNat with hm
  have hinit : ∃ d0, DM.init kind 0 "charge" = .ok d0 ∧ d0.si.indexing = .charge ∧ d0.kind = kind ∧
      d0.si.nsingle = 0 ∧ d0.si.chargelst = [0] :: (if kind = .dm then [] else [[]]) := by
    have key : ∀ kind, (DM.init kind 0 "charge" >>= fun d =>
        .ok (d.si.indexing, d.kind, d.si.nsingle, d.si.chargelst)) =
        .ok (.charge, kind, 0, [0] :: (if kind = .dm then [] else [[]])) := by
      intro kind; cases kind <;> decide +kernel
    obtain ⟨d0, h1, h2⟩ := bind_iff.1 (key kind)
    simp only [Except.ok.injEq, Prod.mk.injEq] at h2
    exact ⟨d0, h1, h2⟩
  obtain ⟨d0, g1, g2, g3, g4, g5⟩ := hinit
  have hS := sectors_ok Na m k Na.length le_rfl (fun i q _ h => hk i q h)
  set S := (List.range m).map fun c => (List.range Na.length).filter fun i => k i = c with hSdef
  have hrow : ∀ c, c < m → rowOf S c = (List.range Na.length).filter fun i => k i = c := by
    intro c hc
    simp [rowOf, hSdef, hc]
  have hsh : DMShape m Na.length (d0.manyBodyBlank m Na.length) :=
    ⟨rfl, by omega, by simp [DM.manyBodyBlank], by simp [DM.manyBodyBlank], by simp [DM.manyBodyBlank],
      by simp [DM.manyBodyBlank],
      by simp only [DM.manyBodyBlank]; rw [List.getElem?_replicate, if_pos (by omega)], by simp [DM.manyBodyBlank]⟩
  have hgood : GoodStates m Na.length S := by
    constructor
    · simp [hSdef]
    · intro c hc; rw [hrow c hc]; exact List.nodup_range.filter _
    · intro c c' hc hc' hne x hx hx'
      rw [hrow c hc] at hx
      rw [hrow c' hc'] at hx'
      have h1 := (List.mem_filter.1 hx).2
      have h2 := (List.mem_filter.1 hx').2
      simp only [decide_eq_true_eq] at h1 h2
      exact hne (h1.symm.trans h2)
    · intro c hc x hx
      rw [hrow c hc] at hx
      exact List.mem_range.1 (List.mem_filter.1 hx).1
  obtain ⟨d, e1, e2, e3, e4, e5, e6, e7, e8, e9⟩ := setStatesdm_gen hsh hgood
    (show (d0.manyBodyBlank m Na.length).si.indexing ≠ .ssq by simp [DM.manyBodyBlank, g2])
    (show (d0.manyBodyBlank m Na.length).si.indexing ≠ .sz by simp [DM.manyBodyBlank, g2])
  refine ⟨d, ?_, e2.trans g3, by rw [e3]; rfl, by rw [e3]; rfl, by rw [e3]; exact g4, by rw [e3]; exact g5,
    e4, ?_, ?_, ?_⟩
  · unfold DM.initManyBody
    rw [g1, py_bind_ok, intMin_spec h.minMem h.minLe, py_bind_ok, intMax_spec h.maxMem h.leMax, py_bind_ok]
    simp only
    rw [← hm, hS, py_bind_ok]
    exact e1
  · intro hk nleads
    refine vok_of hgood e5 (e7 (g3.trans hk)) e6 (fun _ _ => rfl) (by rw [e3]; rfl) e4 ?_
    intro c hc
    rw [List.getElem?_eq_none (by simp [hSdef]; omega)]
    rfl
  · intro hk
    exact e8 (g3.trans hk)
  · intro hk
    exact e9 (g3.trans hk)

/-- A charge that is not a legal index: `IndexError`. -/
theorem initManyBody_error {Na : List Int} {nmin nmax : Int} (h : ChargeRange Na nmin nmax) (kind : DMKind)
    {q : Int} (hq : q ∈ Na) (hbad : pyIdx (nmax - nmin + 1).toNat q = .error .index) :
    DM.initManyBody kind Na Na.length = .error .index := by
  have hinit : ∃ d0, DM.init kind 0 "charge" = .ok d0 := by
    have key : ∀ kind, (DM.init kind 0 "charge" >>= fun _ => .ok ()) = .ok () := by
      intro kind; cases kind <;> decide +kernel
    obtain ⟨d0, h1, _⟩ := bind_iff.1 (key kind)
    exact ⟨d0, h1⟩
  obtain ⟨d0, g1⟩ := hinit
  unfold DM.initManyBody
  rw [g1, py_bind_ok, intMin_spec h.minMem h.minLe, py_bind_ok, intMax_spec h.maxMem h.leMax, py_bind_ok]
  obtain ⟨i, hi, e⟩ := List.getElem_of_mem hq
  simp only
  rw [sectors_error Na _ Na.length le_rfl ⟨i, q, hi, by rw [List.getElem?_eq_getElem hi, e], hbad⟩]
  rfl

theorem pyIdx_in {m : Nat} {q : Int} (h1 : 0 ≤ q) (h2 : q < m) : pyIdx m q = .ok q.toNat := by
  unfold pyIdx
  rw [if_pos h1, if_pos h2]

theorem pyIdx_wrap {m : Nat} {q : Int} (h1 : q < 0) (h2 : 0 ≤ q + m) : pyIdx m q = .ok (q + m).toNat := by
  unfold pyIdx
  rw [if_neg (by omega), if_pos (by omega)]

theorem pyIdx_out {m : Nat} {q : Int} (h : m ≤ q ∨ q + m < 0) : pyIdx m q = .error .index := by
  unfold pyIdx
  rcases h with h | h
  · rw [if_pos (by omega), if_neg (by omega)]
  · rw [if_neg (by omega), if_neg (by omega)]

/-- Membership in the sectors. -/
theorem sector_mem {n m : Nat} (k : Nat → Nat) {i : Nat} (hi : i < n) (hk : k i < m) (c : Nat) :
    i ∈ (((List.range m).map fun c => (List.range n).filter fun i => decide (k i = c)) ++ [[]])[c]?.getD []
      ↔ c = k i := by
  by_cases hc : c < m
  · rw [List.getElem?_append_left (by simpa using hc)]
    simp [hc, hi]
    exact eq_comm
  · constructor
    · intro h
      exfalso
      by_cases e : c = m
      · subst e
        rw [List.getElem?_append_right (by simp)] at h
        simp at h
      · rw [List.getElem?_eq_none (by simp; omega)] at h
        simp at h
    · rintro rfl; exact absurd hk hc

/-- **C41**, the part that holds: if the smallest charge is 0 (or the largest one is -1) the
construction succeeds for every class of indexing, `statesdm` has one list for each charge from `nmin` to `nmax` (and
an empty one), the state `i` lies in the list of its charge relative to the smallest one and in no
other, and the elements of the density matrix are labelled bijectively (`VOk`; for the other two
classes the structures of C50). -/
theorem c41_sectors_partial {Na : List Int} {nmin nmax : Int} (h : ChargeRange Na nmin nmax)
    (h0 : nmin = 0 ∨ nmax = -1) (kind : DMKind) :
    ∃ d, DM.initManyBody kind Na Na.length = .ok d ∧ (d.statesdm.length : Int) = nmax - nmin + 2 ∧
      (∀ (i : Nat) (q : Int), Na[i]? = some q → ∀ c : Nat, i ∈ d.statesdm[c]?.getD [] ↔ (c : Int) = q - nmin) ∧
      (kind = .dm → ∀ nleads, VOk (d.view nleads) d.labOf) ∧
      (kind = .dmc → LabDMc (nmax - nmin + 1).toNat d.statesdm (fun _ _ => true) d) ∧
      (kind = .pauli → LabP (nmax - nmin + 1).toNat d.statesdm d) := by
  have hle := h.le
  have hq : ∀ (i : Nat) (q : Int), Na[i]? = some q → nmin ≤ q ∧ q ≤ nmax ∧ i < Na.length := by
    intro i q e
    obtain ⟨hi, e⟩ := List.getElem?_eq_some_iff.1 e
    have hm : q ∈ Na := by rw [← e]; exact List.getElem_mem _
    exact ⟨h.minLe q hm, h.leMax q hm, hi⟩
  have hkk : ∀ (i : Nat) (q : Int), Na[i]? = some q → pyIdx (nmax - nmin + 1).toNat q
      = .ok ((fun i : Nat => ((Na[i]?.getD (0 : Int)) - nmin).toNat) i) := by
    intro i q e
    obtain ⟨h1, h2, _⟩ := hq i q e
    simp only [e, Option.getD_some]
    rcases h0 with rfl | rfl
    · rw [pyIdx_in h1 (by omega)]
      simp
    · rw [pyIdx_wrap (by omega) (by omega)]
      congr 1
      omega
  obtain ⟨d, e1, e2, e3, e4, e5, e6, e7, e8, e9, e10⟩ := initManyBody_ok h kind _ hkk
  set S := ((List.range (nmax - nmin + 1).toNat).map fun c =>
        (List.range Na.length).filter fun i => (fun i : Nat => ((Na[i]?.getD (0 : Int)) - nmin).toNat) i = c) with hS
  have hro : ∀ c, c < (nmax - nmin + 1).toNat → rowOf d.statesdm c = rowOf S c := by
    intro c hc
    rw [e7]
    simp only [rowOf]
    rw [List.getElem?_append_left (by simp [hS]; omega)]
  have hpos : ∀ c b, c < (nmax - nmin + 1).toNat → posP d.statesdm c b = posP S c b := by
    intro c b hc
    unfold posP
    rw [hro c hc]
    congr 1
    apply pre_congr
    intro c' hc'
    simp only [rowLen]
    rw [hro c' (by omega)]
  have hpre : pre (rowLen d.statesdm) (nmax - nmin + 1).toNat = pre (rowLen S) (nmax - nmin + 1).toNat :=
    pre_congr fun c hc => by simp only [rowLen]; rw [hro c hc]
  have hpre2 : pre (fun c => rowLen d.statesdm c ^ 2) (nmax - nmin + 1).toNat
      = pre (fun c => rowLen S c ^ 2) (nmax - nmin + 1).toNat :=
    pre_congr fun c hc => by simp only [rowLen]; rw [hro c hc]
  refine ⟨d, e1, ?_, ?_, e8, ?_, ?_⟩
  · rw [e7]; simp [hS]; omega
  · intro i q e c
    obtain ⟨h1, h2, h3⟩ := hq i q e
    have := sector_mem (n := Na.length) (m := (nmax - nmin + 1).toNat)
      (fun i : Nat => ((Na[i]?.getD (0 : Int)) - nmin).toNat) h3 (by simp only [e, Option.getD_some]; omega) c
    rw [e7, this]
    simp only [e, Option.getD_some]
    omega
  · intro hk
    obtain ⟨b1, b2, b3, b4, b5, b6, b7, b8, b9⟩ := e9 hk
    refine ⟨b1.trans hpre.symm, b2, ?_, ?_, ?_, ?_, ?_, b8, fun h => (b9 h).trans hpre2.symm⟩
    · intro c b hc hb; rw [hro c hc] at hb; rw [hpos c b hc]; exact b3 c b hc hb
    · intro c b bp hc hb hbp; rw [hro c hc] at hb hbp; exact b4 c b bp hc hb hbp
    · intro c b bp hc hb hbp; rw [hro c hc] at hb hbp; exact b5 c b bp hc hb hbp
    · intro c b bp c' b' bp' hc hb hbp hn hin hc' hb' hbp' hn' hin' e
      rw [hro c hc] at hb hbp
      rw [hro c' hc'] at hb' hbp'
      exact b6 c b bp c' b' bp' hc hb hbp hn hin hc' hb' hbp' hn' hin' e
    · intro k h1 h2
      obtain ⟨c, b, bp, a1, a2, a3, a4⟩ := b7 k h1 h2
      exact ⟨c, b, bp, a1, by rw [hro c a1]; exact a2, by rw [hro c a1]; exact a3, a4⟩
  · intro hk
    obtain ⟨b1, b2⟩ := e10 hk
    refine ⟨b1.trans hpre.symm, ?_⟩
    intro c b bp hc hb
    rw [hro c hc] at hb
    rw [hpos c b hc]
    exact b2 c b bp hc hb

/-- The hypotheses are met by four states of charges 0, 1, 1, 2. -/
example : ChargeRange [0, 1, 1, 2] 0 2 := by
  constructor <;> simp

/-- **C41**, negation: if the smallest charge is positive (or the largest one below -1) the construction
raises `IndexError`, for every list of charges. -/
theorem c41_raises {Na : List Int} {nmin nmax : Int} (h : ChargeRange Na nmin nmax)
    (h0 : 0 < nmin ∨ nmax < -1) (kind : DMKind) :
    DM.initManyBody kind Na Na.length = .error .index := by
  have hle := h.le
  rcases h0 with h0 | h0
  · exact initManyBody_error h kind h.maxMem (pyIdx_out (by left; omega))
  · exact initManyBody_error h kind h.minMem (pyIdx_out (by right; omega))

/-- Such lists: two states with charges 1 and 2. -/
example : DM.initManyBody .pauli [1, 2] 2 = .error .index :=
  c41_raises (nmin := 1) (nmax := 2) ⟨by simp, by simp, by simp, by simp⟩ (Or.inl (by norm_num)) _

/-- **C41**, negation: if charges on both sides of 0 occur the construction succeeds, but the lists are
shifted cyclically: those of the negative charges come after those of the other ones. The states of
smallest charge are never in the first list. -/
theorem c41_wrong_sectors {Na : List Int} {nmin nmax : Int} (h : ChargeRange Na nmin nmax)
    (h0 : nmin < 0) (h1 : 0 ≤ nmax) (kind : DMKind) :
    ∃ d, DM.initManyBody kind Na Na.length = .ok d ∧
      (∀ (i : Nat) (q : Int), Na[i]? = some q → ∀ c : Nat, i ∈ d.statesdm[c]?.getD [] ↔
        (c : Int) = if 0 ≤ q then q else q - nmin + nmax + 1) ∧
      ∀ i : Nat, Na[i]? = some nmin → i ∉ d.statesdm[0]?.getD [] := by
  have hq : ∀ (i : Nat) (q : Int), Na[i]? = some q → nmin ≤ q ∧ q ≤ nmax ∧ i < Na.length := by
    intro i q e
    obtain ⟨hi, e⟩ := List.getElem?_eq_some_iff.1 e
    have hm : q ∈ Na := by rw [← e]; exact List.getElem_mem _
    exact ⟨h.minLe q hm, h.leMax q hm, hi⟩
  obtain ⟨d, e1, e2, e3, e4, e5, e6, e7, _⟩ := initManyBody_ok h kind
    (fun i : Nat => if 0 ≤ Na[i]?.getD 0 then (Na[i]?.getD 0).toNat
      else (Na[i]?.getD 0 + (nmax - nmin + 1).toNat).toNat) (by
    intro i q e
    obtain ⟨a1, a2, _⟩ := hq i q e
    simp only [e, Option.getD_some]
    split
    · exact pyIdx_in (by assumption) (by omega)
    · exact pyIdx_wrap (by omega) (by omega))
  have hmem : ∀ (i : Nat) (q : Int), Na[i]? = some q → ∀ c : Nat, i ∈ d.statesdm[c]?.getD [] ↔
        (c : Int) = if 0 ≤ q then q else q - nmin + nmax + 1 := by
    intro i q e c
    obtain ⟨a1, a2, a3⟩ := hq i q e
    have := sector_mem (n := Na.length) (m := (nmax - nmin + 1).toNat)
      (fun i : Nat => if 0 ≤ Na[i]?.getD 0 then (Na[i]?.getD 0).toNat
        else (Na[i]?.getD 0 + (nmax - nmin + 1).toNat).toNat) a3
      (by simp only [e, Option.getD_some]; split <;> omega) c
    rw [e7, this]
    simp only [e, Option.getD_some]
    split <;> omega
  refine ⟨d, e1, hmem, ?_⟩
  intro i e hi
  have := (hmem i nmin e 0).1 hi
  rw [if_neg (by omega)] at this
  simp at this
  omega

/-- Such a list: charges -1, 0, 1. The state of charge -1 comes last, so that transitions between -1 and
0 are not considered, and transitions between 1 and -1 are. -/
example : (DM.initManyBody .pauli [-1, 0, 1] 3 >>= fun d => .ok d.statesdm) = .ok [[1], [2], [0], []] := by
  decide +kernel

/-! The other state functions with `BuilderManyBody` (C36) -/

/-- **C36**, negation for `BuilderManyBody`: with an approach that uses coherences and charges from 0 to
at least 1, `remove_states` and `use_all_states` raise `IndexError`, because they read the tables of
single-particle states. -/
theorem c36_many_body_raises {Na : List Int} {nmin nmax : Int} (h : ChargeRange Na nmin nmax)
    (h0 : nmin = 0) (h1 : 1 ≤ nmax) {d : DM} (hd : DM.initManyBody .dm Na Na.length = .ok d) :
    d.setStatesAll = .error .index ∧
    ∀ (Ea : List ℝ) (dE : ℝ), Ea ≠ [] → d.removeStates Ea dE = .error .index := by
  have hq : ∀ (i : Nat) (q : Int), Na[i]? = some q → pyIdx (nmax - nmin + 1).toNat q
      = .ok ((fun i : Nat => (Na[i]?.getD (0 : Int)).toNat) i) := by
    intro i q e
    obtain ⟨hi, e'⟩ := List.getElem?_eq_some_iff.1 e
    have hm : q ∈ Na := by rw [← e']; exact List.getElem_mem _
    have := h.minLe q hm
    have := h.leMax q hm
    simp only [e, Option.getD_some]
    exact pyIdx_in (by omega) (by omega)
  obtain ⟨d', e1, e2, e3, e4, e5, e6, _⟩ := initManyBody_ok h .dm _ hq
  rw [hd] at e1
  cases e1
  rw [if_pos rfl] at e6
  obtain ⟨t, ht⟩ : ∃ t, (nmax - nmin + 1).toNat = t + 2 := ⟨(nmax - nmin + 1).toNat - 2, by omega⟩
  constructor
  · have hc : countStates d.si.ncharge (if d.kind = .dm then d.si.chargelst else d.si.chargelst ++ [[]])
        = .error .index := by
      rw [if_pos e2, e6, e3, ht]
      unfold countStates
      rw [List.range_succ_eq_map, List.foldlM_cons]
      rfl
    unfold DM.setStatesAll DM.setStatesdm
    simp only [hc]
    rfl
  · intro Ea dE hne
    obtain ⟨x, l, rfl⟩ := List.exists_cons_of_ne_nil hne
    have hmin : pyMin (x :: l) = .ok (l.foldl min x) := rfl
    unfold DM.removeStates
    rw [hmin, py_bind_ok, e3, e6, e5, ht, List.range_succ_eq_map, List.foldlM_cons]
    have h0' : pyGet ([[0]] : List (List Nat)) ((0 : Nat) : Int) = .ok [0] := rfl
    have key : ∀ st : List (List Nat), (List.map Nat.succ (List.range (t + 1))).foldlM
        (fun (st : List (List Nat)) (charge : Nat) => do
          let l' ← pyGet ([[0]] : List (List Nat)) (charge : Nat)
          l'.foldlM (fun st b => do
            let e ← pyGet (x :: l) (b : Nat)
            if e < l.foldl min x + dE then pyModify st (charge : Nat) (· ++ [b]) else pure st) st) st
        = .error .index := by
      intro st
      rw [List.range_succ_eq_map, List.map_cons, List.foldlM_cons]
      rfl
    have hfirst : ∃ st', ([0] : List Nat).foldlM (fun (st : List (List Nat)) b => do
            let e ← pyGet (x :: l) ((b : Nat) : Int)
            if e < l.foldl min x + dE then pyModify st ((0 : Nat) : Int) (· ++ [b]) else pure st)
            (List.replicate (0 + 1) []) = .ok st' := by
      rw [lowLoop (x :: l) (l.foldl min x + dE) [0] (by simp) _ (by simp)]
      exact ⟨_, rfl⟩
    obtain ⟨st', hst⟩ := hfirst
    rw [h0', py_bind_ok, hst, py_bind_ok, key st']
    rfl

/-- The hypotheses are met by four states of charges 0, 1, 1, 2. -/
example : ∃ d, DM.initManyBody .dm [0, 1, 1, 2] 4 = .ok d ∧ d.setStatesAll = .error .index := by
  have hr : ChargeRange [0, 1, 1, 2] 0 2 := by constructor <;> simp
  obtain ⟨d, h, _⟩ := c41_sectors_partial hr (Or.inl rfl) .dm
  exact ⟨d, h, (c36_many_body_raises hr rfl (by norm_num) h).1⟩

/-- **C36**, negation for `BuilderManyBody` with the default `kerntype='Pauli'` and two charges:
`use_all_states` does not raise but keeps the state 0 only. -/
theorem c36_many_body_pauli_false :
    (DM.initManyBody .pauli [0, 1] 2 >>= fun d => d.setStatesAll >>= fun d' =>
      .ok (d.statesdm, d.npauli, d'.statesdm, d'.npauli)) = .ok ([[0], [1], []], 2, [[0], [], []], 1) := by
  decide +kernel

end Verif
