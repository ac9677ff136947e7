import Verif.Lemmas.DMLabelC
import Verif.Props.Indexing

/-! Objects reachable from the constructors of the density matrix indexing classes. -/

namespace Verif
open Spec

theorem SIInv.qnSz_eq {n : Nat} {si : SI} (h : SIInv n si) (hix : si.indexing = .sz) {b : Nat}
    (hb : b < si.i.length) :
    si.qnSz b = .ok (twoSz n (integerToBinarylist si.i[b] n)) := by
  obtain ⟨T, hT, h1, h2, hok⟩ := h.qn_sz hix
  obtain ⟨key, hkey⟩ := ((dictsOk_of_inv h).domain b).2 (by rw [← h.ilen]; exact hb)
  obtain ⟨B, hB, α, rfl, hα⟩ := (hok.bwd _ _).1 hkey
  unfold szBlocks at hB
  obtain ⟨⟨row, c⟩, hp, hB⟩ := List.mem_flatMap.1 hB
  obtain ⟨⟨lst, j⟩, hp2, rfl⟩ := List.mem_map.1 hB
  have hp' : T[c]? = some row := by
    have := List.mem_zipIdx_iff_getElem?.1 hp
    simpa using this
  have hp2' : row[j]? = some lst := by
    have := List.mem_zipIdx_iff_getElem?.1 hp2
    simpa using this
  obtain ⟨hc, e⟩ := List.getElem?_eq_some_iff.1 hp'
  obtain ⟨hj, e2⟩ := List.getElem?_eq_some_iff.1 hp2'
  have hjl : j ≤ szW n c := by have := h2 c hc; rw [e] at this; omega
  obtain ⟨T', R, l, g0, g1, g2, g3, g4, g5⟩ := h.sz_row (Or.inl hix) c j (by omega) hjl
  rw [hT] at g0
  simp only [Option.some.injEq] at g0
  subst g0
  rw [pyGet_nat _ hc, e] at g1
  simp only [Except.ok.injEq] at g1
  subst g1
  rw [pyGet_nat _ hj, e2] at g2
  simp only [Except.ok.injEq] at g2
  subst g2
  obtain ⟨_, hch, hpos⟩ := (g5 b).1 (List.mem_of_getElem? hα)
  have hn := (h.sz (Or.inl hix)).1
  unfold SI.qnSz
  simp only [Dict.get, hkey, py_bind_ok]
  rw [take_up (h.ilt hb) hn, szPos_sz hn (h.ilt hb), hch, hpos]
  rfl

/-- `SIInv` for objects whose `chargelst` received `k` extra empty lists. -/
def SIX (n k : Nat) (si : SI) : Prop :=
  ∃ s, SIInv n s ∧ si = { s with chargelst := s.chargelst ++ List.replicate k [],
                                 statesChanged := si.statesChanged }

/-- A legal argument of `set_statesdm`: a list per charge, states within range, no state twice. -/
structure Legal (si : SI) (S : List (List Nat)) : Prop where
  len : si.ncharge ≤ S.length
  nodup : ∀ c, c < si.ncharge → (S[c]?.getD []).Nodup
  disj : ∀ c c', c < si.ncharge → c' < si.ncharge → c ≠ c' →
    ∀ x ∈ S[c]?.getD [], x ∉ S[c']?.getD []
  lt : ∀ c, c < si.ncharge → ∀ x ∈ S[c]?.getD [], x < si.nmany

/-- Sizes set by `set_statesdm`. -/
structure Sizes (m : Nat) (S : List (List Nat)) (d : DM) : Prop where
  npauli_ : d.npauli_ = pre (rowLen S) m
  ndm0_ : d.ndm0_ = pre (fun c => rowLen S c ^ 2) m
  ndm1_ : d.ndm1_ = pre (fun c => rowLen S c * rowLen S (c + 1)) (m - 1)
  ndm1 : d.ndm1 = d.ndm1_

/-- Spin projection of the state `b`. -/
def szOf (n : Nat) (si : SI) (b : Nat) : Int :=
  match si.getState (b : Int) with
  | .ok s => twoSz n s
  | .error _ => 0

/-- The labels are right. -/
structure LabOk (n : Nat) (S : List (List Nat)) (d : DM) : Prop where
  dm : d.kind = .dm → LabDM (n + 1) S (inclOf d.si.indexing (szOf n d.si)) d
  dmc : d.kind = .dmc → LabDMc (n + 1) S (inclOf d.si.indexing (szOf n d.si)) d
  pauli : d.kind = .pauli → LabP (n + 1) S d

/-- Invariant of the arrays. -/
structure DMInv (n : Nat) (d : DM) (S : List (List Nat)) : Prop where
  si : ∃ k, SIX n k d.si ∧ (d.kind = .dm → k = 0)
  shape : DMShape (n + 1) (2 ^ n) d
  good : GoodStates (n + 1) (2 ^ n) S
  rows : ∀ c, c < n + 1 → pyGet d.statesdm (c : Int) = .ok (rowOf S c)
  dict : DictOk (n + 1) (2 ^ n) S d
  sizes : Sizes (n + 1) S d
  lab : d.si.indexing ≠ .ssq → LabOk n S d
  tot0 : d.ndm0Tot = ndm0TotOf n
  tot1 : d.ndm1Tot = n * ndm0TotOf n / (n + 1)
  sdm : d.statesdm = S ++ [[]]

theorem SIX.inv {n k : Nat} {si : SI} (h : SIX n k si) :
    si.nsingle = n ∧ si.ncharge = n + 1 ∧ si.nmany ≤ 2 ^ n := by
  obtain ⟨s, hs, e⟩ := h
  rw [e]
  refine ⟨hs.nsingle, hs.ncharge, ?_⟩
  simp only
  rw [hs.nmany]
  calc _ ≤ (List.range (2 ^ n)).length := List.length_filter_le _ _
    _ = 2 ^ n := List.length_range

theorem Legal.good {n k : Nat} {si : SI} {S : List (List Nat)} (h : SIX n k si) (hl : Legal si S) :
    GoodStates (n + 1) (2 ^ n) S := by
  obtain ⟨_, h2, h3⟩ := h.inv
  constructor
  · have := hl.len; omega
  · intro c hc; exact hl.nodup c (by omega)
  · intro c c' hc hc' hne x hx; exact hl.disj c c' (by omega) (by omega) hne x hx
  · intro c hc x hx
    have := hl.lt c (by omega) x hx
    omega

theorem szOf_eq {n : Nat} {si si' : SI} (h1 : si'.i = si.i) (h2 : si'.nsingle = si.nsingle) :
    szOf n si' = szOf n si := by
  funext b
  unfold szOf SI.getState
  rw [h1, h2]

theorem SIX.qnSz {n k : Nat} {si : SI} (h : SIX n k si) (hix : si.indexing = .sz) {b : Nat}
    (hb : b < si.nmany) : si.qnSz b = .ok (szOf n si b) := by
  obtain ⟨s, hs, e⟩ := h
  have hix' : s.indexing = .sz := by rw [e] at hix; exact hix
  have hb' : b < s.i.length := by rw [hs.ilen]; rw [e] at hb; exact hb
  have h1 : si.qnSz b = s.qnSz b := by rw [e]; rfl
  rw [h1, hs.qnSz_eq hix' hb']
  have h2 : szOf n si b = szOf n s b := by
    rw [szOf_eq (si := s)] <;> rw [e]
  rw [h2]
  unfold szOf
  rw [hs.getState hb']

theorem setMapdm_same (d d' : DM) (h : d.setMapdm = .ok d') : SameDict d d' := by
  unfold DM.setMapdm at h
  simp only at h
  generalize (List.foldlM _ _ _ : Py (MapSt × Nat)) = x at h
  cases x with
  | error e => cases h
  | ok st =>
    simp only [py_bind_ok] at h
    generalize d.offLoop st = y at h
    cases y with
    | error e => cases h
    | ok st' =>
      simp only [py_bind_ok, py_pure, Except.ok.injEq] at h
      subst h
      exact ⟨rfl, rfl, rfl, rfl, rfl, rfl, rfl, rfl, rfl, rfl, rfl, rfl, rfl⟩

/-- The object in `set_statesdm` before the call of `set_dictdm`. -/
def DM.counted (d : DM) (S : List (List Nat)) (m : Nat) : DM :=
  { d with
    statesdm := S ++ [[]]
    npauli_ := pre (rowLen S) m
    ndm0_ := pre (fun c => rowLen S c ^ 2) m
    ndm1_ := pre (fun c => rowLen S c * rowLen S (c + 1)) (m - 1) }

/-- The object in `__init__` before the call of `set_statesdm`. -/
def DM.blank (kind : DMKind) (si : SI) (n : Nat) : DM :=
  { kind := kind
    si := si
    statesdm := []
    npauli_ := 0
    ndm0_ := 0
    ndm1_ := 0
    lenlst := List.replicate si.ncharge 0
    shiftlst0 := List.replicate (si.ncharge + 1) 0
    shiftlst1 := List.replicate si.ncharge 0
    dictdm := List.replicate si.nmany 0
    mp := { map := [], bool := [], conj := [], ind := [] }
    npauli := 0
    ndm0 := 0
    ndm0r := 0
    ndm1 := 0
    ndm0Tot := ndm0TotOf n
    ndm1Tot := n * ndm0TotOf n / (n + 1) }

/-- `set_statesdm` keeps the invariant; it succeeds for 'Lin', 'charge' and 'sz'. -/
theorem setStatesdm_inv {n k : Nat} {d : DM} {S : List (List Nat)} (hsi : SIX n k d.si)
    (hk : d.kind = .dm → k = 0) (hsh : DMShape (n + 1) (2 ^ n) d) (hS : Legal d.si S)
    (ht0 : d.ndm0Tot = ndm0TotOf n) (ht1 : d.ndm1Tot = n * ndm0TotOf n / (n + 1)) :
    (d.si.indexing ≠ .ssq → ∃ d', d.setStatesdm S = .ok d') ∧
    (∀ d', d.setStatesdm S = .ok d' → DMInv n d' S ∧ d'.kind = d.kind ∧
      d'.si = { d.si with statesChanged := true }) := by
  have hg := hS.good hsi
  have hcount : countStates d.si.ncharge (if d.kind = .dm then S else S ++ [[]])
      = .ok (pre (rowLen S) (n + 1), pre (fun c => rowLen S c ^ 2) (n + 1),
        pre (fun c => rowLen S c * rowLen S (c + 1)) (n + 1 - 1)) := by
    rw [hsh.ncharge]
    have hl := hg.len
    split
    · exact countStates_eq _ _ hl
    · rw [countStates_eq _ _ (by simp; omega)]
      have : ∀ c, c < n + 1 → rowLen (S ++ [[]]) c = rowLen S c := by
        intro c hc
        simp only [rowLen, rowOf]
        rw [List.getElem?_append_left (by omega)]
      congr 1
      refine Prod.ext (pre_congr (by simpa using this)) (Prod.ext (pre_congr ?_) (pre_congr ?_))
      · intro c hc; simp only [this c hc]
      · intro c hc; simp only [this c (by omega), this (c + 1) (by omega)]
  have hset : d.setStatesdm S = (do
      let d1 ← (d.counted S (n + 1)).setDictdm
      let d2 ← d1.setMapdm
      pure { d2 with si := { d2.si with statesChanged := true } }) := by
    unfold DM.setStatesdm
    simp only [hcount, py_bind_ok]
    rfl
  obtain ⟨d1, e1, sh1, dk1, so1⟩ := setDictdm_spec (n + 1) (2 ^ n) S
    (d.counted S (n + 1))
    ⟨hsh.ncharge, hsh.pos, hsh.len, hsh.s0, hsh.s00, hsh.s1, hsh.s10, hsh.dict⟩ hg
    (fun c hc => rfl)
  rw [e1] at hset
  simp only [py_bind_ok] at hset
  obtain ⟨k1, k2, k3, k4, k5, k6, k7, k8⟩ := so1
  simp only [DM.counted] at k1 k2 k3 k4 k5 k6 k7 k8
  have hrows : ∀ c, c < n + 1 → pyGet d1.statesdm (c : Int) = .ok (rowOf S c) := by
    intro c hc
    have hl := hg.len
    rw [k3, pyGet_nat _ (by simp; omega), List.getElem_append_left (by omega)]
    simp [rowOf, show c < S.length by omega]
  have hready : d.si.indexing ≠ .ssq → MapReady (n + 1) (2 ^ n) S (szOf n d.si) d1 := by
    intro hix
    refine ⟨sh1.ncharge, dk1, hg, hrows, k4, k5, by rw [k2]; exact hix, ?_⟩
    intro hz c hc b hb
    rw [k2] at hz ⊢
    exact hsi.qnSz hz (hS.lt c (by rw [hsi.inv.2.1]; exact hc) b hb)
  have hmap : d.si.indexing ≠ .ssq → ∃ d2, d1.setMapdm = .ok d2 ∧
      (d.kind = .dm → LabDM (n + 1) S (inclOf d.si.indexing (szOf n d.si)) d2) ∧
      (d.kind = .dmc → LabDMc (n + 1) S (inclOf d.si.indexing (szOf n d.si)) d2) ∧
      (d.kind = .pauli → LabP (n + 1) S d2) := by
    intro hix
    cases hkd : d.kind with
    | dm =>
      obtain ⟨d2, a1, _, a3⟩ := setMapdm_dm (hready hix) (by rw [k1, hkd])
      rw [k2] at a3
      exact ⟨d2, a1, fun _ => a3, by simp, by simp⟩
    | dmc =>
      obtain ⟨d2, a1, _, a3⟩ := setMapdm_dmc (hready hix) (by rw [k1, hkd])
      rw [k2] at a3
      exact ⟨d2, a1, by simp, fun _ => a3, by simp⟩
    | pauli =>
      obtain ⟨d2, a1, _, a3⟩ := setMapdm_pauli (hready hix) (by rw [k1, hkd])
      exact ⟨d2, a1, by simp, by simp, fun _ => a3⟩
  constructor
  · intro hix
    obtain ⟨d2, a, _⟩ := hmap hix
    rw [hset, a]
    exact ⟨_, rfl⟩
  · intro d' hd'
    rw [hset] at hd'
    cases hx : d1.setMapdm with
    | error e => rw [hx] at hd'; cases hd'
    | ok d2 =>
      rw [hx] at hd'
      simp only [py_bind_ok, py_pure, Except.ok.injEq] at hd'
      obtain ⟨s1, s2, s3, s4, s5, s6, s7, s8, s9, s10, s11, s12, s13⟩ := setMapdm_same d1 d2 hx
      subst hd'
      refine ⟨⟨⟨k, ?_, ?_⟩, ?_, hg, ?_, ?_, ?_, ?_, ?_, ?_, by simp only [s3, k3]⟩, by simp only [s1, k1], by simp only [s2, k2]⟩
      · obtain ⟨s, hs, e⟩ := hsi
        refine ⟨s, hs, ?_⟩
        simp only [s2, k2]
        rw [e]
      · intro hd; apply hk; rw [← k1, ← s1]; exact hd
      · exact ⟨by simp only [s2]; exact sh1.ncharge, sh1.pos, by simp only [s7]; exact sh1.len,
          by simp only [s8]; exact sh1.s0, by simp only [s8]; exact sh1.s00,
          by simp only [s9]; exact sh1.s1, by simp only [s9]; exact sh1.s10,
          by simp only [s10]; exact sh1.dict⟩
      · intro c hc; simp only [s3]; exact hrows c hc
      · exact ⟨by simp only [s7]; exact dk1.len, by simp only [s8, s1]; exact dk1.s0,
          by simp only [s9]; exact dk1.s1, by simp only [s10]; exact dk1.dict⟩
      · exact ⟨by simp only [s4, k4], by simp only [s5, k5], by simp only [s6, k6], by simp only [s13, s6]⟩
      · intro hix
        simp only [s2, k2] at hix
        obtain ⟨d2', a1, a2, a3, a4⟩ := hmap hix
        rw [hx] at a1
        simp only [Except.ok.injEq] at a1
        subst a1
        have hz : szOf n { d2.si with statesChanged := true } = szOf n d.si := by
          rw [s2, k2]; exact szOf_eq rfl rfl
        have hkk : d2.kind = d.kind := by rw [s1, k1]
        refine ⟨fun hd => ?_, fun hd => ?_, fun hd => ?_⟩
        · simp only [hz, s2, k2]
          obtain ⟨b1, b2, b3, b4, b5, b6, b7, b8, b9, b10, b11⟩ := a2 (by rw [← hkk]; exact hd)
          exact ⟨b1, b2, b3, b4, b5, b6, b7, b8, b9, b10, b11⟩
        · simp only [hz, s2, k2]
          obtain ⟨b1, b2, b3, b4, b5, b6, b7, b8, b9⟩ := a3 (by rw [← hkk]; exact hd)
          exact ⟨b1, b2, b3, b4, b5, b6, b7, b8, b9⟩
        · obtain ⟨b1, b2⟩ := a4 (by rw [← hkk]; exact hd)
          exact ⟨b1, b2⟩
      · simp only [s11, k7]; exact ht0
      · simp only [s12, k8]; exact ht1

theorem getElem?_of_pyGet {α : Type} {l : List α} {c : Nat} {v : α}
    (h : pyGet l (c : Int) = .ok v) : l[c]? = some v := by
  by_cases hc : c < l.length
  · rw [pyGet_nat _ hc] at h
    simp only [Except.ok.injEq] at h
    rw [List.getElem?_eq_getElem hc, h]
  · rw [pyGet_nat_err _ (by omega)] at h
    cases h

theorem rowOf_pad (S : List (List Nat)) (k c : Nat) :
    rowOf (S ++ List.replicate k []) c = rowOf S c := by
  unfold rowOf
  by_cases h : c < S.length
  · rw [List.getElem?_append_left h]
  · rw [List.getElem?_append_right (by omega), List.getElem?_eq_none (l := S) (by omega),
      List.getElem?_replicate]
    split <;> rfl

theorem SIInv.rowOf_mem {n : Nat} {s : SI} (hs : SIInv n s) {c : Nat} (hc : c ≤ n) :
    (rowOf s.chargelst c).Nodup ∧ ∀ b, b ∈ rowOf s.chargelst c ↔
      ∃ hb : b < s.i.length, charge n s.i[b] = c := by
  obtain ⟨l, h1, h2, _, h4⟩ := hs.charge_row c hc
  have : rowOf s.chargelst c = l := by
    have := getElem?_of_pyGet h1
    simp [rowOf, this]
  rw [this]
  exact ⟨h2, h4⟩

theorem SIX.legal {n k : Nat} {si : SI} (h : SIX n k si) : Legal si si.chargelst := by
  have hinv := h.inv
  obtain ⟨s, hs, e⟩ := h
  have hrow : ∀ c, si.chargelst[c]?.getD [] = rowOf s.chargelst c := by
    intro c
    have : si.chargelst = s.chargelst ++ List.replicate k [] := by rw [e]
    rw [this]; exact rowOf_pad _ _ _
  have hnm : si.nmany = s.i.length := by rw [hs.ilen, e]
  constructor
  · have h1 : si.chargelst = s.chargelst ++ List.replicate k [] := by rw [e]
    obtain ⟨l, hl, _⟩ := hs.charge_row n (le_refl _)
    have := (List.getElem?_eq_some_iff.1 (getElem?_of_pyGet hl)).1
    rw [h1, hinv.2.1]; simp; omega
  · intro c hc; rw [hrow]; exact (hs.rowOf_mem (by omega)).1
  · intro c c' hc hc' hne x hx hx'
    rw [hrow] at hx hx'
    obtain ⟨_, e1⟩ := ((hs.rowOf_mem (by omega)).2 x).1 hx
    obtain ⟨_, e2⟩ := ((hs.rowOf_mem (by omega)).2 x).1 hx'
    exact hne (e1.symm.trans e2)
  · intro c hc x hx
    rw [hrow] at hx
    obtain ⟨h1, _⟩ := ((hs.rowOf_mem (by omega)).2 x).1 hx
    omega

/-- Changing `si` outside the tables used by the labels. -/
theorem LabOk.pad {n : Nat} {S : List (List Nat)} {d : DM} (h : LabOk n S d) (X : List (List Nat)) :
    LabOk n S { d with si := { d.si with chargelst := X } } := by
  have hz : szOf n { d.si with chargelst := X } = szOf n d.si := szOf_eq rfl rfl
  refine ⟨fun hd => ?_, fun hd => ?_, fun hd => ?_⟩
  · simp only [hz]
    obtain ⟨b1, b2, b3, b4, b5, b6, b7, b8, b9, b10, b11⟩ := h.dm hd
    exact ⟨b1, b2, b3, b4, b5, b6, b7, b8, b9, b10, b11⟩
  · simp only [hz]
    obtain ⟨b1, b2, b3, b4, b5, b6, b7, b8, b9⟩ := h.dmc hd
    exact ⟨b1, b2, b3, b4, b5, b6, b7, b8, b9⟩
  · obtain ⟨b1, b2⟩ := h.pauli hd
    exact ⟨b1, b2⟩

theorem setStatesAll_inv {n k : Nat} {d : DM} (hsi : SIX n k d.si)
    (hk : d.kind = .dm → k = 0) (hsh : DMShape (n + 1) (2 ^ n) d)
    (ht0 : d.ndm0Tot = ndm0TotOf n) (ht1 : d.ndm1Tot = n * ndm0TotOf n / (n + 1)) :
    (d.si.indexing ≠ .ssq → ∃ d', d.setStatesAll = .ok d') ∧
    (∀ d', d.setStatesAll = .ok d' → DMInv n d' d.si.chargelst ∧ d'.kind = d.kind ∧
      (∃ k', d'.si = { d.si with chargelst := d.si.chargelst ++ List.replicate k' [],
                                 statesChanged := true })) := by
  obtain ⟨h1, h2⟩ := setStatesdm_inv hsi hk hsh hsi.legal ht0 ht1
  unfold DM.setStatesAll
  constructor
  · intro hix
    obtain ⟨d', hd'⟩ := h1 hix
    rw [hd']
    exact ⟨_, rfl⟩
  · intro d' hd'
    cases hx : d.setStatesdm d.si.chargelst with
    | error e => rw [hx] at hd'; cases hd'
    | ok d1 =>
      obtain ⟨hinv, hkind, hsi'⟩ := h2 d1 hx
      rw [hx] at hd'
      simp only [py_bind_ok, py_pure, Except.ok.injEq] at hd'
      by_cases hdm : d.kind = .dm
      · rw [if_pos hdm] at hd'
        subst hd'
        refine ⟨hinv, hkind, 0, ?_⟩
        rw [hsi']; simp
      · rw [if_neg hdm] at hd'
        subst hd'
        refine ⟨⟨?_, ?_, hinv.good, hinv.rows, ?_, ?_, ?_, hinv.tot0, hinv.tot1, hinv.sdm⟩, hkind, 1, ?_⟩
        · obtain ⟨kk, ⟨s, hs, e⟩, _⟩ := hinv.si
          refine ⟨kk + 1, ⟨s, hs, ?_⟩, ?_⟩
          · simp only
            rw [e]
            simp [List.replicate_succ', ]
          · intro hd; exact absurd (hkind ▸ hd) hdm
        · obtain ⟨a1, a2, a3, a4, a5, a6, a7, a8⟩ := hinv.shape
          exact ⟨a1, a2, a3, a4, a5, a6, a7, a8⟩
        · obtain ⟨a1, a2, a3, a4⟩ := hinv.dict
          exact ⟨a1, a2, a3, a4⟩
        · obtain ⟨a1, a2, a3, a4⟩ := hinv.sizes
          exact ⟨a1, a2, a3, a4⟩
        · intro hix
          exact (hinv.lab hix).pad _
        · simp only [hsi']
          simp

theorem init_dm_inv (kind : DMKind) (n : Nat) (indexing : String) :
    (¬ (indexing = "ssq" ∧ n % 2 = 0) → ∃ d, DM.init kind n indexing = .ok d) ∧
    (∀ d, DM.init kind n indexing = .ok d → ∃ si, SI.init n indexing = .ok si ∧
      DMInv n d si.chargelst ∧ d.kind = kind ∧
      d.si.indexing = chooseIndexing n indexing ∧ d.si.removed = none) := by
  obtain ⟨si, h1, hinv, hch, hr⟩ := init_inv n indexing
  have hsix : SIX n 0 si := ⟨si, hinv, by simp⟩
  unfold DM.init
  rw [h1]
  simp only [py_bind_ok]
  have hnm : si.nmany = 2 ^ n := by rw [hinv.nmany, hr]; simp
  obtain ⟨a1, a2⟩ := setStatesAll_inv (n := n) (k := 0)
    (d := DM.blank kind si n) hsix (fun _ => rfl)
    ⟨hinv.ncharge, by omega, by simp [DM.blank, hinv.ncharge], by simp [DM.blank, hinv.ncharge],
      by simp [DM.blank], by simp [DM.blank, hinv.ncharge], by simp [DM.blank, hinv.ncharge], by simp [DM.blank, hnm]⟩ rfl rfl
  constructor
  · intro hne
    apply a1
    show si.indexing ≠ .ssq
    rw [hch]
    unfold chooseIndexing
    split
    · simp
    · split
      · simp
      · simp
  · intro d hd
    obtain ⟨b1, b2, k', b3⟩ := a2 d hd
    refine ⟨_, rfl, b1, b2, ?_, ?_⟩
    · rw [b3]; exact hch
    · rw [b3]; exact hr


theorem removeFock_congr (s : SI) (X : List (List Nat)) (y : Bool) (inds : List Int)
    (h1 : s.indexing ≠ .ssq) (h2 : s.indexing ≠ .Lin ∨ X = s.chargelst) :
    ({ s with chargelst := X, statesChanged := y } : SI).removeFockStates inds
      = s.removeFockStates inds := by
  unfold SI.removeFockStates SI.removedArr
  cases hix : s.indexing with
  | ssq => exact absurd hix h1
  | Lin =>
    rcases h2 with h2 | h2
    · exact absurd hix h2
    · simp [h2, hix]
  | charge => simp [hix]
  | sz => simp [hix]

theorem SIX.remove {n k : Nat} {si : SI} (h : SIX n k si) (inds : List Int)
    (hlin : si.indexing = .Lin → si.removed = none ∧ k = 0)
    (hin : ∀ i ∈ inds, -((2 ^ n : Nat) : Int) ≤ i ∧ i < ((2 ^ n : Nat) : Int)) :
    ∃ si', si.removeFockStates inds = .ok si' ∧ si'.indexing = si.indexing ∧
      (si.indexing ≠ .ssq → SIX n 0 si') ∧ (si.indexing = .ssq → si' = si) := by
  by_cases hssq : si.indexing = .ssq
  · refine ⟨si, ?_, rfl, fun h => absurd hssq h, fun _ => rfl⟩
    unfold SI.removeFockStates
    rw [if_pos hssq]; rfl
  · obtain ⟨s, hs, e⟩ := h
    have hix : si.indexing = s.indexing := by rw [e]
    have hrem : si.removed = s.removed := by rw [e]
    have h2 : si.removeFockStates inds = s.removeFockStates inds := by
      rw [e]
      apply removeFock_congr
      · rw [← hix]; exact hssq
      · by_cases hl : s.indexing = .Lin
        · right
          have := (hlin (by rw [hix]; exact hl)).2
          subst this; simp
        · exact Or.inl hl
    obtain ⟨si', g1, g2, g3, _⟩ := remove_inv n s hs (by rw [← hix]; exact hssq)
      (fun hl => by rw [← hrem]; exact (hlin (by rw [hix]; exact hl)).1) inds hin
    refine ⟨si', by rw [h2]; exact g1, by rw [g3, hix], fun _ => ⟨si', g2, by simp⟩,
      fun h => absurd h hssq⟩

/-- Objects that a user can obtain: construction followed by calls of `set_statesdm` with a
legal argument, `set_statesdm(chargelst)` and `remove_fock_states`, together with the list
of considered states, i.e. the last argument of `set_statesdm`. Restriction: a second
removal with 'Lin' indexing (see C09) and a removal with 'Lin' indexing in the classes that
append `[]` to `chargelst` are left out. -/
inductive Reach (kind : DMKind) (n : Nat) (indexing : String) : DM → List (List Nat) → Prop
  | init {si d} : SI.init n indexing = .ok si → DM.init kind n indexing = .ok d →
      Reach kind n indexing d si.chargelst
  | set {d S S' d'} : Reach kind n indexing d S → Legal d.si S' → d.setStatesdm S' = .ok d' →
      Reach kind n indexing d' S'
  | all {d S d'} : Reach kind n indexing d S → d.setStatesAll = .ok d' →
      Reach kind n indexing d' d.si.chargelst
  | remove {d S inds si' d'} : Reach kind n indexing d S →
      (d.si.indexing = .Lin → d.si.removed = none ∧ kind = .dm) →
      (∀ i ∈ inds, -((2 ^ n : Nat) : Int) ≤ i ∧ i < ((2 ^ n : Nat) : Int)) →
      d.si.removeFockStates inds = .ok si' → d.removeFockStates inds = .ok d' →
      Reach kind n indexing d' si'.chargelst

theorem Reach.inv {kind : DMKind} {n : Nat} {indexing : String} {d : DM} {S : List (List Nat)}
    (h : Reach kind n indexing d S) :
    DMInv n d S ∧ d.kind = kind ∧ d.si.indexing = chooseIndexing n indexing := by
  induction h with
  | init h1 h2 =>
    obtain ⟨si', g1, g2, g3, g4, _⟩ := (init_dm_inv kind n indexing).2 _ h2
    rw [h1] at g1
    simp only [Except.ok.injEq] at g1
    subst g1
    exact ⟨g2, g3, g4⟩
  | set _ hl hs ih =>
    obtain ⟨hi, hk, hix⟩ := ih
    obtain ⟨k, h1, h2⟩ := hi.si
    obtain ⟨a1, a2, a3⟩ := (setStatesdm_inv h1 h2 hi.shape hl hi.tot0 hi.tot1).2 _ hs
    exact ⟨a1, by rw [a2, hk], by rw [a3]; exact hix⟩
  | all _ hs ih =>
    obtain ⟨hi, hk, hix⟩ := ih
    obtain ⟨k, h1, h2⟩ := hi.si
    obtain ⟨a1, a2, k', a3⟩ := (setStatesAll_inv h1 h2 hi.shape hi.tot0 hi.tot1).2 _ hs
    exact ⟨a1, by rw [a2, hk], by rw [a3]; exact hix⟩
  | @remove d S inds si' d' _ hl hin hs hr ih =>
    obtain ⟨hi, hk, hix⟩ := ih
    obtain ⟨k, h1, h2⟩ := hi.si
    obtain ⟨si'', b1, b2, b3, b4⟩ := h1.remove inds
      (fun h => ⟨(hl h).1, h2 (by rw [hk]; exact (hl h).2)⟩) hin
    rw [hs] at b1
    simp only [Except.ok.injEq] at b1
    subst b1
    unfold DM.removeFockStates at hr
    rw [hs] at hr
    simp only [py_bind_ok] at hr
    have h3 : ∃ k', SIX n k' si' ∧ (d.kind = .dm → k' = 0) := by
      by_cases hssq : d.si.indexing = .ssq
      · rw [b4 hssq]; exact ⟨k, h1, h2⟩
      · exact ⟨0, b3 hssq, fun _ => rfl⟩
    obtain ⟨k', c1, c2⟩ := h3
    have hsh : DMShape (n + 1) (2 ^ n) { d with si := si' } := by
      obtain ⟨a1, a2, a3, a4, a5, a6, a7, a8⟩ := hi.shape
      exact ⟨c1.inv.2.1, a2, a3, a4, a5, a6, a7, a8⟩
    obtain ⟨a1, a2, k'', a3⟩ := (setStatesAll_inv (d := { d with si := si' }) c1 c2 hsh
      hi.tot0 hi.tot1).2 _ hr
    exact ⟨a1, by rw [a2]; exact hk, by rw [a3]; exact b2.trans hix⟩

/-- All calls succeed, unless the indexing is 'ssq'. -/
theorem Reach.total {kind : DMKind} {n : Nat} {indexing : String} {d : DM} {S : List (List Nat)}
    (h : Reach kind n indexing d S) (hix : d.si.indexing ≠ .ssq) :
    (∀ S', Legal d.si S' → ∃ d', d.setStatesdm S' = .ok d') ∧
    (∃ d', d.setStatesAll = .ok d') ∧
    (∀ inds : List Int, (d.si.indexing = .Lin → d.si.removed = none ∧ kind = .dm) →
      (∀ i ∈ inds, -((2 ^ n : Nat) : Int) ≤ i ∧ i < ((2 ^ n : Nat) : Int)) →
      ∃ si' d', d.si.removeFockStates inds = .ok si' ∧ d.removeFockStates inds = .ok d') := by
  obtain ⟨hi, hk, _⟩ := h.inv
  obtain ⟨k, h1, h2⟩ := hi.si
  refine ⟨?_, ?_, ?_⟩
  · intro S' hl
    exact (setStatesdm_inv h1 h2 hi.shape hl hi.tot0 hi.tot1).1 hix
  · exact (setStatesAll_inv h1 h2 hi.shape hi.tot0 hi.tot1).1 hix
  · intro inds hl hin
    obtain ⟨si', b1, b2, b3, b4⟩ := h1.remove inds
      (fun h => ⟨(hl h).1, h2 (by rw [hk]; exact (hl h).2)⟩) hin
    have hsh : DMShape (n + 1) (2 ^ n) { d with si := si' } := by
      obtain ⟨a1, a2, a3, a4, a5, a6, a7, a8⟩ := hi.shape
      exact ⟨(b3 hix).inv.2.1, a2, a3, a4, a5, a6, a7, a8⟩
    obtain ⟨d', hd'⟩ := (setStatesAll_inv (d := { d with si := si' }) (b3 hix) (fun _ => rfl) hsh
      hi.tot0 hi.tot1).1 (by simpa [b2] using hix)
    refine ⟨si', d', b1, ?_⟩
    unfold DM.removeFockStates
    rw [b1]
    exact hd'

end Verif
