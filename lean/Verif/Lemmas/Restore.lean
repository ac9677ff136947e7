import Verif.Props.RemoveCoh

/-! The result of `set_statesdm` does not depend on the history when it lists all states. -/

namespace Verif

theorem pySet_eq {α : Type} {l l' : List α} {j : Nat} {v : α} (h : pySet l (j : Int) v = .ok l') :
    l' = l.set j v := by
  by_cases hj : j < l.length
  · rw [pySet_nat _ _ hj] at h
    cases h; rfl
  · unfold pySet at h
    split at h
    · rename_i k hk
      exfalso
      unfold pyIdx at hk
      have : ¬ ((j : Int) < l.length) := by omega
      simp [this] at hk
    · cases h

/-- `set_dictdm` keeps the shape of the arrays, whatever states are considered. -/
theorem setDictdm_shape {m N : Nat} {d d' : DM} (hsh : DMShape m N d) (h : d.setDictdm = .ok d') :
    DMShape m N d' ∧ SameOuter d d' := by
  unfold DM.setDictdm at h
  refine foldlM_pres (fun x : DM => DMShape m N x ∧ SameOuter d x) _ ?_
    ⟨hsh, rfl, rfl, rfl, rfl, rfl, rfl, rfl, rfl⟩ h
  rintro s c s' ⟨hs, ho⟩ e
  obtain ⟨l, _, e⟩ := bind_iff.1 e
  obtain ⟨l1, e1, e⟩ := bind_iff.1 e
  obtain ⟨x, _, e⟩ := bind_iff.1 e
  obtain ⟨l2, e2, e⟩ := bind_iff.1 e
  obtain ⟨l3, e3, e⟩ := bind_iff.1 e
  obtain ⟨l4, e4, e⟩ := bind_iff.1 e
  cases e
  refine ⟨⟨hs.ncharge, hs.pos, ?_, ?_, ?_, ?_, ?_, ?_⟩, ho⟩
  · rw [pySet_length e1]; exact hs.len
  · rw [pySet_length e2]; exact hs.s0
  · rw [pySet_eq e2, List.getElem?_set_ne (by omega)]; exact hs.s00
  · unfold setShift1 at e3
    split at e3
    · obtain ⟨_, _, e3⟩ := bind_iff.1 e3
      obtain ⟨_, _, e3⟩ := bind_iff.1 e3
      rw [pySet_length e3]; exact hs.s1
    · cases e3; exact hs.s1
  · unfold setShift1 at e3
    split at e3
    · obtain ⟨_, _, e3⟩ := bind_iff.1 e3
      obtain ⟨_, _, e3⟩ := bind_iff.1 e3
      rw [pySet_eq e3, List.getElem?_set_ne (by omega)]; exact hs.s10
    · cases e3; exact hs.s10
  · unfold enumStates at e4
    refine foldlM_pres (fun x : List Nat => x.length = N) _ ?_ hs.dict e4
    intro a p a' ha e
    rw [pySet_length e, ha]

theorem setStatesdm_shape {m N : Nat} {d d' : DM} {S : List (List Nat)} (hsh : DMShape m N d)
    (h : d.setStatesdm S = .ok d') : DMShape m N d' ∧ d'.kind = d.kind ∧
      d'.si = { d.si with statesChanged := true } ∧ d'.ndm0Tot = d.ndm0Tot ∧ d'.ndm1Tot = d.ndm1Tot := by
  unfold DM.setStatesdm at h
  obtain ⟨t, _, h⟩ := bind_iff.1 h
  obtain ⟨d1, h1, h⟩ := bind_iff.1 h
  obtain ⟨d2, h2, h⟩ := bind_iff.1 h
  cases h
  have hsh' : DMShape m N { d with statesdm := S ++ [[]], npauli_ := t.1, ndm0_ := t.2.1, ndm1_ := t.2.2 } :=
    ⟨hsh.ncharge, hsh.pos, hsh.len, hsh.s0, hsh.s00, hsh.s1, hsh.s10, hsh.dict⟩
  obtain ⟨g1, k1, k2, k3, k4, k5, k6, k7, k8⟩ := setDictdm_shape hsh' h1
  obtain ⟨s1, s2, s3, s4, s5, s6, s7, s8, s9, s10, s11, s12, s13⟩ := setMapdm_same d1 d2 h2
  refine ⟨⟨?_, g1.pos, ?_, ?_, ?_, ?_, ?_, ?_⟩, s1.trans k1, ?_, s11.trans k7, s12.trans k8⟩
  · simp only [s2]; exact g1.ncharge
  · simp only [s7]; exact g1.len
  · simp only [s8]; exact g1.s0
  · simp only [s8]; exact g1.s00
  · simp only [s9]; exact g1.s1
  · simp only [s9]; exact g1.s10
  · simp only [s10]; exact g1.dict
  · simp only [s2, k2]

/-- Attributes that `set_mapdm` does not read, or reads only for charges of the system. -/
def DM.swap (d : DM) (X : List (List Nat)) (y : Bool) (T : List (List Nat)) (o : DM) : DM :=
  { d with si := { d.si with chargelst := X, statesChanged := y }, statesdm := T, mp := o.mp,
           npauli := o.npauli, ndm0 := o.ndm0, ndm0r := o.ndm0r, ndm1 := o.ndm1,
           ndm0Tot := o.ndm0Tot, ndm1Tot := o.ndm1Tot }

theorem setMapdm_swap (d o : DM) (X : List (List Nat)) (y : Bool) (T : List (List Nat))
    (hT : ∀ c, c < d.si.ncharge → pyGet T (c : Int) = pyGet d.statesdm (c : Int)) {r : DM}
    (h : d.setMapdm = .ok r) : (d.swap X y T o).setMapdm = .ok { r with
      si := { d.si with chargelst := X, statesChanged := y }, statesdm := T,
      ndm0Tot := o.ndm0Tot, ndm1Tot := o.ndm1Tot } := by
  unfold DM.setMapdm at h ⊢
  obtain ⟨st, h1, h⟩ := bind_iff.1 h
  obtain ⟨st', h2, h⟩ := bind_iff.1 h
  have h1' : (List.range (d.swap X y T o).si.ncharge).foldlM (fun st charge => do
      let l ← pyGet (d.swap X y T o).statesdm (charge : Nat)
      l.foldlM ((d.swap X y T o).diagStep charge) st)
      (({ map := List.replicate (if (d.swap X y T o).kind = .pauli then (d.swap X y T o).npauli_
            else (d.swap X y T o).ndm0_) (-1),
          bool := List.replicate (if (d.swap X y T o).kind = .pauli then (d.swap X y T o).npauli_
            else (d.swap X y T o).ndm0_) false,
          conj := List.replicate (if (d.swap X y T o).kind = .pauli then (d.swap X y T o).npauli_
            else (d.swap X y T o).ndm0_) false, ind := [] } : MapSt), 0) = .ok st := by
    rw [← h1]
    refine foldlM_congr_mem _ _ ?_
    intro c hc s
    have : pyGet (d.swap X y T o).statesdm (c : Int) = pyGet d.statesdm (c : Int) :=
      hT c (List.mem_range.1 hc)
    rw [this]
    rfl
  have h2' : (d.swap X y T o).offLoop st = .ok st' := by
    rw [← h2]
    unfold DM.offLoop
    have hkk : (d.swap X y T o).kind = d.kind := rfl
    rw [hkk]
    split
    · rfl
    · refine foldlM_congr_mem _ _ ?_
      intro c hc s
      have : pyGet (d.swap X y T o).statesdm (c : Int) = pyGet d.statesdm (c : Int) :=
        hT c (List.mem_range.1 hc)
      rw [this]
      rfl
    · refine foldlM_congr_mem _ _ ?_
      intro c hc s
      have : pyGet (d.swap X y T o).statesdm (c : Int) = pyGet d.statesdm (c : Int) :=
        hT c (List.mem_range.1 hc)
      rw [this]
      rfl
  simp only
  refine bind_iff.2 ⟨st, h1', bind_iff.2 ⟨st', h2', ?_⟩⟩
  cases h
  rfl

theorem list_eq_of_getElem? {α : Type} {l l' : List α} {m : Nat} (h1 : l.length = m) (h2 : l'.length = m)
    (h : ∀ i, i < m → l[i]? = l'[i]?) : l = l' := by
  apply List.ext_getElem?
  intro i
  by_cases hi : i < m
  · exact h i hi
  · rw [List.getElem?_eq_none (by omega), List.getElem?_eq_none (by omega)]

/-- Two objects with the same tables that consider the same list of all states. -/
theorem setStatesdm_agree {m N : Nat} {d1 d2 r : DM} {S1 S2 : List (List Nat)}
    (hs1 : DMShape m N d1) (hs2 : DMShape m N d2) (hg1 : GoodStates m N S1) (hg2 : GoodStates m N S2)
    (hr : ∀ c, c < m → rowOf S2 c = rowOf S1 c) (hkind : d2.kind = d1.kind)
    (hsi : d2.si = { d1.si with chargelst := d2.si.chargelst, statesChanged := d2.si.statesChanged })
    (hall : ∀ b, b < N → ∃ c, c < m ∧ b ∈ rowOf S1 c) (h : d1.setStatesdm S1 = .ok r) :
    d2.setStatesdm S2 = .ok { r with
      si := { r.si with chargelst := d2.si.chargelst }
      statesdm := S2 ++ [[]]
      ndm0Tot := d2.ndm0Tot
      ndm1Tot := d2.ndm1Tot } := by
  have count : ∀ (d : DM) (S : List (List Nat)), DMShape m N d → GoodStates m N S →
      d.setStatesdm S = (do
        let d1 ← (d.counted S m).setDictdm
        let d2 ← d1.setMapdm
        pure { d2 with si := { d2.si with statesChanged := true } }) := by
    intro d S hsh hg
    have hcount : countStates d.si.ncharge (if d.kind = .dm then S else S ++ [[]])
        = .ok (pre (rowLen S) m, pre (fun c => rowLen S c ^ 2) m,
          pre (fun c => rowLen S c * rowLen S (c + 1)) (m - 1)) := by
      rw [hsh.ncharge]
      have hl := hg.len
      split
      · exact countStates_eq _ _ hl
      · rw [countStates_eq _ _ (by simp; omega)]
        have : ∀ c, c < m → rowLen (S ++ [[]]) c = rowLen S c := by
          intro c hc
          simp only [rowLen, rowOf]
          rw [List.getElem?_append_left (by omega)]
        congr 1
        refine Prod.ext (pre_congr (by simpa using this)) (Prod.ext (pre_congr ?_) (pre_congr ?_))
        · intro c hc; simp only [this c hc]
        · intro c hc; simp only [this c (by omega), this (c + 1) (by omega)]
    unfold DM.setStatesdm
    simp only [hcount, py_bind_ok]
    rfl
  rw [count d1 S1 hs1 hg1] at h
  rw [count d2 S2 hs2 hg2]
  obtain ⟨e1, a1, sh1, dk1, so1⟩ := setDictdm_spec m N S1 (d1.counted S1 m)
    ⟨hs1.ncharge, hs1.pos, hs1.len, hs1.s0, hs1.s00, hs1.s1, hs1.s10, hs1.dict⟩ hg1 (fun c hc => rfl)
  obtain ⟨e2, a2, sh2, dk2, so2⟩ := setDictdm_spec m N S2 (d2.counted S2 m)
    ⟨hs2.ncharge, hs2.pos, hs2.len, hs2.s0, hs2.s00, hs2.s1, hs2.s10, hs2.dict⟩ hg2 (fun c hc => rfl)
  rw [a1, py_bind_ok] at h
  obtain ⟨r1, b1, h⟩ := bind_iff.1 h
  rw [a2, py_bind_ok]
  obtain ⟨k1, k2, k3, k4, k5, k6, k7, k8⟩ := so1
  obtain ⟨l1, l2, l3, l4, l5, l6, l7, l8⟩ := so2
  simp only [DM.counted] at k1 k2 k3 k4 k5 k6 k7 k8 l1 l2 l3 l4 l5 l6 l7 l8
  have hlen : ∀ c, c < m → rowLen S2 c = rowLen S1 c := fun c hc => by simp only [rowLen, hr c hc]
  have q1 : e2.lenlst = e1.lenlst := list_eq_of_getElem? sh2.len sh1.len (fun i hi => by
    rw [dk2.len i hi, dk1.len i hi, hlen i hi])
  have hek : e2.kind = e1.kind := by rw [k1, l1, hkind]
  have q2 : e2.shiftlst0 = e1.shiftlst0 := list_eq_of_getElem? sh2.s0 sh1.s0 (fun i hi => by
    rw [dk2.s0 i (by omega), dk1.s0 i (by omega), hek]
    congr 1
    apply pre_congr
    intro c hc
    rw [hlen c (by omega)])
  have q3 : e2.shiftlst1 = e1.shiftlst1 := list_eq_of_getElem? sh2.s1 sh1.s1 (fun i hi => by
    rw [dk2.s1 i hi, dk1.s1 i hi]
    congr 1
    apply pre_congr
    intro c hc
    rw [hlen c (by omega), hlen (c + 1) (by omega)])
  have q4 : e2.dictdm = e1.dictdm := list_eq_of_getElem? sh2.dict sh1.dict (fun b hb => by
    obtain ⟨c, hc, hbc⟩ := hall b hb
    have g1 := getElem?_of_pyGet (dk1.get hc hbc)
    have g2 := getElem?_of_pyGet (dk2.get hc (by rw [hr c hc]; exact hbc))
    rw [g1, g2, hr c hc])
  have hst : ∀ c, c < m → pyGet (S2 ++ [[]]) (c : Int) = pyGet (S1 ++ [[]]) (c : Int) := by
    intro c hc
    have h1 := hg1.len
    have h2 := hg2.len
    rw [pyGet_nat _ (by simp; omega), pyGet_nat _ (by simp; omega), List.getElem_append_left (by omega),
      List.getElem_append_left (by omega)]
    have := hr c hc
    simp only [rowOf, List.getElem?_eq_getElem (show c < S1.length by omega),
      List.getElem?_eq_getElem (show c < S2.length by omega), Option.getD_some] at this
    rw [this]
  have hE : e2 = e1.swap d2.si.chargelst d2.si.statesChanged (S2 ++ [[]]) e2 := by
    have p1 : pre (rowLen S2) m = pre (rowLen S1) m := pre_congr hlen
    have p2 : pre (fun c => rowLen S2 c ^ 2) m = pre (fun c => rowLen S1 c ^ 2) m :=
      pre_congr fun c hc => by rw [hlen c hc]
    have p3 : pre (fun c => rowLen S2 c * rowLen S2 (c + 1)) (m - 1)
        = pre (fun c => rowLen S1 c * rowLen S1 (c + 1)) (m - 1) :=
      pre_congr fun c hc => by rw [hlen c (by omega), hlen (c + 1) (by omega)]
    rw [p1] at l4
    rw [p2] at l5
    rw [p3] at l6
    have hsi' : e2.si = { e1.si with chargelst := d2.si.chargelst, statesChanged := d2.si.statesChanged } := by
      rw [l2, k2]; exact hsi
    clear a1 a2 b1 h dk1 dk2 sh1 sh2
    cases e1
    cases e2
    simp only [DM.swap] at *
    subst q1 q2 q3 q4 hek k4 k5 k6 hsi' l3
    rw [l4, l5, l6]
  have := setMapdm_swap e1 e2 d2.si.chargelst d2.si.statesChanged (S2 ++ [[]]) (by
    intro c hc
    rw [k3]
    exact hst c (by rw [sh1.ncharge] at hc; exact hc)) b1
  rw [hE, this, py_bind_ok]
  obtain ⟨s1, s2, s3, s4, s5, s6, s7, s8, s9, s10, s11, s12, s13⟩ := setMapdm_same e1 r1 b1
  cases h
  simp only [s2, l7, l8]
  rfl

end Verif
