import Verif.Lemmas.Restore

/-! C36: removal of states and use of all states. -/

namespace Verif

theorem SIX.row_mem {n k : Nat} {si : SI} (h : SIX n k si) {c : Nat} (hc : c ≤ n) (b : Nat) :
    b ∈ rowOf si.chargelst c ↔ b < si.nmany ∧ si.chargeOf b = .ok c := by
  obtain ⟨s, hs, e⟩ := h
  have h1 : rowOf si.chargelst c = rowOf s.chargelst c := by
    have : si.chargelst = s.chargelst ++ List.replicate k [] := by rw [e]
    rw [this]; exact rowOf_pad _ _ _
  have h2 : si.nmany = s.i.length := by rw [hs.ilen, e]
  have h3 : si.chargeOf b = s.chargeOf b := by rw [e]; rfl
  rw [h1, (hs.rowOf_mem hc).2, h2, h3]
  constructor
  · rintro ⟨hb, rfl⟩
    refine ⟨hb, ?_⟩
    unfold SI.chargeOf
    rw [hs.getState hb]
    rfl
  · rintro ⟨hb, e⟩
    refine ⟨hb, ?_⟩
    unfold SI.chargeOf at e
    rw [hs.getState hb] at e
    exact Except.ok.inj e

theorem SIX.charge_le {n k : Nat} {si : SI} (h : SIX n k si) {b : Nat} (hb : b < si.nmany) :
    ∃ c, c ≤ n ∧ si.chargeOf b = .ok c := by
  obtain ⟨s, hs, e⟩ := h
  have h2 : si.nmany = s.i.length := by rw [hs.ilen, e]
  have h3 : si.chargeOf b = s.chargeOf b := by rw [e]; rfl
  have hb' : b < s.i.length := by omega
  refine ⟨charge n s.i[b], ?_, ?_⟩
  · exact Verif.charge_le (hs.ilt hb')
  · rw [h3]; unfold SI.chargeOf; rw [hs.getState (by omega)]; rfl

noncomputable section
open Classical

theorem pyMin_spec {l : List ℝ} (h : l ≠ []) : ∃ x, pyMin l = .ok x ∧ x ∈ l ∧ ∀ y ∈ l, x ≤ y := by
  cases l with
  | nil => exact absurd rfl h
  | cons a l =>
    refine ⟨l.foldl min a, rfl, ?_⟩
    clear h
    induction l generalizing a with
    | nil => simp
    | cons b l ih =>
      obtain ⟨h1, h2⟩ := ih (min a b)
      rw [List.foldl_cons]
      constructor
      · rcases List.mem_cons.1 h1 with e | e
        · rcases min_choice a b with e' | e'
          · rw [e, e']; simp
          · rw [e, e']; simp
        · simp [e]
      · intro y hy
        have h3 := h2 (min a b) (by simp)
        rcases List.mem_cons.1 hy with rfl | hy
        · exact h3.trans (min_le_left _ _)
        · rcases List.mem_cons.1 hy with rfl | hy
          · exact h3.trans (min_le_right _ _)
          · exact h2 y (by simp [hy])

/-- The states kept by `remove_states`. -/
def lowStates (Ea : List ℝ) (E : ℝ) (l : List Nat) : List Nat := l.filter fun b => decide (Ea.getD b 0 < E)

theorem lowLoop (Ea : List ℝ) (E : ℝ) (l : List Nat) (hl : ∀ b ∈ l, b < Ea.length)
    (st : List (List Nat)) {c : Nat} (hc : c < st.length) :
    l.foldlM (fun st b => do
      let e ← pyGet Ea (b : Nat)
      if e < E then pyModify st (c : Nat) (· ++ [b]) else pure st) st
      = .ok (st.set c (st[c] ++ lowStates Ea E l)) := by
  induction l generalizing st with
  | nil => simp [lowStates]
  | cons b l ih =>
    have hb : b < Ea.length := hl b (by simp)
    rw [List.foldlM_cons, pyGet_nat _ hb]
    simp only [py_bind_ok]
    have hgd : Ea.getD b 0 = Ea[b] := by
      simp [List.getD_eq_getElem?_getD, List.getElem?_eq_getElem hb]
    by_cases h : Ea[b] < E
    · rw [if_pos h]
      have hm : pyModify st (c : Int) (· ++ [b]) = .ok (st.set c (st[c] ++ [b])) := by
        unfold pyModify
        rw [pyIdx_nat hc]
        simp [List.modify_eq_set_get _ hc]
      rw [hm, py_bind_ok, ih (fun x hx => hl x (by simp [hx])) _ (by simpa using hc)]
      simp [lowStates, List.filter_cons, h, List.getElem?_eq_getElem hb]
    · rw [if_neg h]
      refine (ih (fun x hx => hl x (by simp [hx])) st hc).trans ?_
      simp [lowStates, List.filter_cons, h, List.getElem?_eq_getElem hb]

theorem removeStates_eq {n k : Nat} {d : DM} (hsi : SIX n k d.si) {Ea : List ℝ}
    (hEa : Ea.length = d.si.nmany) {e0 : ℝ} (h0 : pyMin Ea = .ok e0) (dE : ℝ) :
    d.removeStates Ea dE = d.setStatesdm ((List.range (n + 1)).map fun c =>
      lowStates Ea (e0 + dE) (rowOf d.si.chargelst c)) := by
  obtain ⟨i1, i2, i3⟩ := hsi.inv
  have hl := hsi.legal
  unfold DM.removeStates
  rw [h0, py_bind_ok]
  have key := foldlM_range_inv (f := fun (st : List (List Nat)) (charge : Nat) => do
    let l ← pyGet d.si.chargelst (charge : Nat)
    l.foldlM (fun st b => do
      let e ← pyGet Ea (b : Nat)
      if e < e0 + dE then pyModify st (charge : Nat) (· ++ [b]) else pure st) st)
    (fun t st => st.length = n + 1 ∧ ∀ c, c < n + 1 → st[c]? = some (if c < t then
      lowStates Ea (e0 + dE) (rowOf d.si.chargelst c) else [])) (n + 1)
    (List.replicate (d.si.nsingle + 1) [])
    ⟨by simp [i1], by intro c hc; simp [i1, List.getElem?_replicate, hc]⟩
    (by
      rintro t ht st ⟨h1, h2⟩
      have hlen := hl.len
      rw [pyGet_row (by omega : t < d.si.chargelst.length)]
      simp only [py_bind_ok]
      rw [lowLoop Ea (e0 + dE) _ (fun b hb => by rw [hEa]; exact hl.lt t (by omega) b hb) st
        (by omega : t < st.length)]
      have h3 := h2 t ht
      rw [if_neg (lt_irrefl _), List.getElem?_eq_getElem (by omega)] at h3
      have h3' : st[t] = [] := by simpa using h3
      refine ⟨_, rfl, by simp [h1], ?_⟩
      intro c hc
      by_cases e : c = t
      · subst e
        rw [List.getElem?_set_self (by omega), if_pos (by omega), h3']
        simp
      · rw [List.getElem?_set_ne (Ne.symm e), h2 c hc]
        by_cases h4 : c < t
        · rw [if_pos h4, if_pos (by omega)]
        · rw [if_neg h4, if_neg (by omega)])
  obtain ⟨st, e1, e2, e3⟩ := key
  rw [i2, e1, py_bind_ok]
  congr 1
  apply list_eq_of_getElem? e2 (by simp)
  intro c hc
  rw [e3 c hc, if_pos hc]
  simp [hc]

/-- **C36**, removal. On an object of any of the three classes after any history, with the list of the
energies of all states, `remove_states(dE)` is a call of `set_statesdm` with a legal argument `T`
whose list of charge `c` contains exactly the states of charge `c` with energy below the smallest
energy plus `dE`. So (C05-C08, C50) the labels of the kept states are again bijective. -/
theorem c36_remove_states {kind : DMKind} {n : Nat} {indexing : String} {d : DM} {S : List (List Nat)}
    (h : Reach kind n indexing d S) {Ea : List ℝ} (hEa : Ea.length = d.si.nmany) (hne : Ea ≠ [])
    (dE : ℝ) :
    ∃ (T : List (List Nat)) (e0 : ℝ), e0 ∈ Ea ∧ (∀ e ∈ Ea, e0 ≤ e) ∧ T.length = n + 1 ∧ Legal d.si T ∧
      (∀ c, c ≤ n → ∀ b, b ∈ T[c]?.getD [] ↔
        d.si.chargeOf b = .ok c ∧ ∃ e, Ea[b]? = some e ∧ e < e0 + dE) ∧
      d.removeStates Ea dE = d.setStatesdm T ∧
      (∀ d', d.removeStates Ea dE = .ok d' → Reach kind n indexing d' T) ∧
      (d.si.indexing ≠ .ssq → ∃ d', d.removeStates Ea dE = .ok d') := by
  obtain ⟨hi, hk, _⟩ := h.inv
  obtain ⟨k, hsi, _⟩ := hi.si
  obtain ⟨e0, p1, p2, p3⟩ := pyMin_spec hne
  have heq := removeStates_eq hsi hEa p1 dE
  obtain ⟨i1, i2, i3⟩ := hsi.inv
  have hl := hsi.legal
  set T := (List.range (n + 1)).map fun c => lowStates Ea (e0 + dE) (rowOf d.si.chargelst c) with hT
  have hrow : ∀ c, c < n + 1 → T[c]?.getD [] = lowStates Ea (e0 + dE) (rowOf d.si.chargelst c) := by
    intro c hc
    rw [hT]
    simp [hc]
  have hleg : Legal d.si T := by
    constructor
    · rw [i2, hT]; simp
    · intro c hc
      rw [hrow c (by omega)]
      exact (hl.nodup c hc).filter _
    · intro c c' hc hc' hne x hx hx'
      rw [hrow c (by omega)] at hx
      rw [hrow c' (by omega)] at hx'
      exact hl.disj c c' hc hc' hne x (List.mem_filter.1 hx).1 (List.mem_filter.1 hx').1
    · intro c hc x hx
      rw [hrow c (by omega)] at hx
      exact hl.lt c hc x (List.mem_filter.1 hx).1
  refine ⟨T, e0, p2, p3, by simp [hT], hleg, ?_, heq, ?_, ?_⟩
  · intro c hc b
    rw [hrow c (by omega)]
    unfold lowStates
    rw [List.mem_filter, hsi.row_mem hc]
    constructor
    · rintro ⟨⟨h1, h2⟩, h3⟩
      refine ⟨h2, Ea[b], List.getElem?_eq_getElem (by omega), ?_⟩
      simpa [List.getD_eq_getElem?_getD, List.getElem?_eq_getElem (show b < Ea.length by omega)] using h3
    · rintro ⟨h1, e, h2, h3⟩
      obtain ⟨h4, _⟩ := List.getElem?_eq_some_iff.1 h2
      refine ⟨⟨by omega, h1⟩, ?_⟩
      simpa [List.getD_eq_getElem?_getD, h2] using h3
  · intro d' hd'
    rw [heq] at hd'
    exact Reach.set h hleg hd'
  · intro hix
    rw [heq]
    exact (h.total hix).1 T hleg

/-- The hypotheses are met by a fresh object with two single particle states. -/
example : ∃ d S, Reach .dm 2 "charge" d S ∧ ([0, 1, 2, 3] : List ℝ).length = d.si.nmany := by
  have key : (SI.init 2 "charge" >>= fun si => DM.init .dm 2 "charge" >>= fun d =>
      .ok (si.chargelst.length, d.si.nmany)) = .ok (3, 4) := by decide +kernel
  obtain ⟨si, h1, h⟩ := bind_iff.1 key
  obtain ⟨d, h2, h⟩ := bind_iff.1 h
  simp only [Except.ok.injEq, Prod.mk.injEq] at h
  exact ⟨d, _, Reach.init h1 h2, by rw [h.2]; rfl⟩

end

/-- Objects obtained from a fresh one by calls that change which states and coherences are considered:
`set_statesdm` with any argument, `use_all_states`, `remove_states` and `remove_coherences`. -/
inductive StateCalls (kind : DMKind) (n : Nat) (indexing : String) : DM → Prop
  | init {d} : DM.init kind n indexing = .ok d → StateCalls kind n indexing d
  | set {d S d'} : StateCalls kind n indexing d → d.setStatesdm S = .ok d' →
      StateCalls kind n indexing d'
  | all {d d'} : StateCalls kind n indexing d → d.setStatesAll = .ok d' →
      StateCalls kind n indexing d'
  | states {d Ea dE d'} : StateCalls kind n indexing d → d.removeStates Ea dE = .ok d' →
      StateCalls kind n indexing d'
  | coh {d E dE d'} : StateCalls kind n indexing d → d.removeCoherences E dE = .ok d' →
      StateCalls kind n indexing d'

theorem setStatesAll_shape {m N : Nat} {d d' : DM} (hsh : DMShape m N d) (h : d.setStatesAll = .ok d') :
    DMShape m N d' ∧ d'.kind = d.kind ∧ (∃ k, (d.kind = .dm → k = 0) ∧
      d'.si = { d.si with chargelst := d.si.chargelst ++ List.replicate k [], statesChanged := true }) ∧
    d'.ndm0Tot = d.ndm0Tot ∧ d'.ndm1Tot = d.ndm1Tot := by
  unfold DM.setStatesAll at h
  obtain ⟨d1, h1, h⟩ := bind_iff.1 h
  obtain ⟨g1, g2, g3, g4, g5⟩ := setStatesdm_shape hsh h1
  cases h
  by_cases hk : d.kind = .dm
  · rw [if_pos hk]
    exact ⟨g1, g2, ⟨0, fun _ => rfl, by rw [g3]; simp⟩, g4, g5⟩
  · rw [if_neg hk]
    refine ⟨⟨g1.ncharge, g1.pos, g1.len, g1.s0, g1.s00, g1.s1, g1.s10, g1.dict⟩, g2,
      ⟨1, fun h => absurd h hk, ?_⟩, g4, g5⟩
    simp only [g3]
    rfl

theorem removeCohBy_shape {d d' : DM} {keep : Nat → Nat → Bool} (h : d.removeCohBy keep = .ok d') :
    ∃ mp n0 n0r, d' = { d with mp := mp, ndm0 := n0, ndm0r := n0r } := by
  unfold DM.removeCohBy at h
  obtain ⟨_, _, h⟩ := bind_iff.1 h
  obtain ⟨_, _, h⟩ := bind_iff.1 h
  obtain ⟨_, _, h⟩ := bind_iff.1 h
  obtain ⟨_, _, h⟩ := bind_iff.1 h
  obtain ⟨_, _, h⟩ := bind_iff.1 h
  cases h
  exact ⟨_, _, _, rfl⟩

/-- What all these objects have in common. -/
theorem StateCalls.inv {kind : DMKind} {n : Nat} {indexing : String} {d : DM}
    (h : StateCalls kind n indexing d) {si : SI} (hsi : SI.init n indexing = .ok si) :
    DMShape (n + 1) (2 ^ n) d ∧ d.kind = kind ∧
    (∃ k y, (kind = .dm → k = 0) ∧
      d.si = { si with chargelst := si.chargelst ++ List.replicate k [], statesChanged := y }) ∧
    d.ndm0Tot = ndm0TotOf n ∧ d.ndm1Tot = n * ndm0TotOf n / (n + 1) := by
  have step : ∀ {d d' : DM} {S : List (List Nat)}, (DMShape (n + 1) (2 ^ n) d ∧ d.kind = kind ∧
      (∃ k y, (kind = .dm → k = 0) ∧
        d.si = { si with chargelst := si.chargelst ++ List.replicate k [], statesChanged := y }) ∧
      d.ndm0Tot = ndm0TotOf n ∧ d.ndm1Tot = n * ndm0TotOf n / (n + 1)) → d.setStatesdm S = .ok d' →
      (DMShape (n + 1) (2 ^ n) d' ∧ d'.kind = kind ∧
      (∃ k y, (kind = .dm → k = 0) ∧
        d'.si = { si with chargelst := si.chargelst ++ List.replicate k [], statesChanged := y }) ∧
      d'.ndm0Tot = ndm0TotOf n ∧ d'.ndm1Tot = n * ndm0TotOf n / (n + 1)) := by
    rintro d d' S ⟨a1, a2, ⟨k, y, a3, a3'⟩, a4, a5⟩ hs
    obtain ⟨b1, b2, b3, b4, b5⟩ := setStatesdm_shape a1 hs
    exact ⟨b1, b2.trans a2, ⟨k, true, a3, by rw [b3, a3']⟩, b4.trans a4, b5.trans a5⟩
  have stepAll : ∀ {d d' : DM}, (DMShape (n + 1) (2 ^ n) d ∧ d.kind = kind ∧
      (∃ k y, (kind = .dm → k = 0) ∧
        d.si = { si with chargelst := si.chargelst ++ List.replicate k [], statesChanged := y }) ∧
      d.ndm0Tot = ndm0TotOf n ∧ d.ndm1Tot = n * ndm0TotOf n / (n + 1)) → d.setStatesAll = .ok d' →
      (DMShape (n + 1) (2 ^ n) d' ∧ d'.kind = kind ∧
      (∃ k y, (kind = .dm → k = 0) ∧
        d'.si = { si with chargelst := si.chargelst ++ List.replicate k [], statesChanged := y }) ∧
      d'.ndm0Tot = ndm0TotOf n ∧ d'.ndm1Tot = n * ndm0TotOf n / (n + 1)) := by
    rintro d d' ⟨a1, a2, ⟨k, y, a3, a3'⟩, a4, a5⟩ hs
    obtain ⟨b1, b2, ⟨k', b3, b3'⟩, b4, b5⟩ := setStatesAll_shape a1 hs
    refine ⟨b1, b2.trans a2, ⟨k + k', true, ?_, ?_⟩, b4.trans a4, b5.trans a5⟩
    · intro hk
      have := a3 hk
      have := b3 (a2.trans hk)
      omega
    · rw [b3', a3', List.replicate_add, ← List.append_assoc]
  induction h with
  | init h =>
    obtain ⟨si', h1, hinv, hch, hr⟩ := init_inv n indexing
    rw [hsi] at h1
    cases h1
    have hnm : si.nmany = 2 ^ n := by rw [hinv.nmany, hr]; simp
    unfold DM.init at h
    rw [hsi, py_bind_ok] at h
    refine stepAll (d := DM.blank kind si n) ?_ h
    exact ⟨⟨hinv.ncharge, by omega, by simp [DM.blank, hinv.ncharge], by simp [DM.blank, hinv.ncharge],
      by simp [DM.blank], by simp [DM.blank, hinv.ncharge], by simp [DM.blank, hinv.ncharge],
      by simp [DM.blank, hnm]⟩, rfl, ⟨0, si.statesChanged, fun _ => rfl, by simp [DM.blank]⟩, rfl, rfl⟩
  | set _ h ih => exact step ih h
  | all _ h ih => exact stepAll ih h
  | states _ h ih =>
    unfold DM.removeStates at h
    obtain ⟨_, _, h⟩ := bind_iff.1 h
    obtain ⟨_, _, h⟩ := bind_iff.1 h
    exact step ih h
  | coh _ h ih =>
    obtain ⟨mp, n0, n0r, rfl⟩ := removeCohBy_shape h
    obtain ⟨a1, a2, a3, a4, a5⟩ := ih
    exact ⟨⟨a1.ncharge, a1.pos, a1.len, a1.s0, a1.s00, a1.s1, a1.s10, a1.dict⟩, a2, a3, a4, a5⟩

/-- **C36**, restoring. Take a system without removed Fock states whose construction succeeds (`d0`), of any
of the three classes and with any indexing. After any sequence of `remove_states`,
`remove_coherences`, `set_statesdm` (with any argument) and `use_all_states`, one more
`use_all_states` succeeds and gives the fresh object again; for `StateIndexingPauli` and
`StateIndexingDMc` up to empty lists at the end of `chargelst` and `statesdm`. -/
theorem c36_restore {kind : DMKind} {n : Nat} {indexing : String} {d d0 : DM}
    (h : StateCalls kind n indexing d) (h0 : DM.init kind n indexing = .ok d0) :
    ∃ k, (kind = .dm → k = 0) ∧ d.setStatesAll = .ok { d0 with
      si := { d0.si with chargelst := d0.si.chargelst ++ List.replicate k [] }
      statesdm := d0.statesdm ++ List.replicate k [] } := by
  obtain ⟨si, h1, hinv, hch, hr⟩ := init_inv n indexing
  have hnm : si.nmany = 2 ^ n := by rw [hinv.nmany, hr]; simp
  obtain ⟨a1, a2, ⟨k, y, a3, a3'⟩, a4, a5⟩ := h.inv h1
  refine ⟨k, a3, ?_⟩
  unfold DM.init at h0
  rw [h1, py_bind_ok] at h0
  have hsix : SIX n 0 si := ⟨si, hinv, by simp⟩
  have hsix' : SIX n k d.si := ⟨si, hinv, by rw [a3']⟩
  have hsh : DMShape (n + 1) (2 ^ n) (DM.blank kind si n) :=
    ⟨hinv.ncharge, by omega, by simp [DM.blank, hinv.ncharge], by simp [DM.blank, hinv.ncharge],
      by simp [DM.blank], by simp [DM.blank, hinv.ncharge], by simp [DM.blank, hinv.ncharge],
      by simp [DM.blank, hnm]⟩
  have hcl : d.si.chargelst = si.chargelst ++ List.replicate k [] := by rw [a3']
  unfold DM.setStatesAll at h0
  obtain ⟨r, hr1, hr2⟩ := bind_iff.1 h0
  have hr1' : (DM.blank kind si n).setStatesdm si.chargelst = .ok r := hr1
  have key := setStatesdm_agree (d1 := DM.blank kind si n) (d2 := d) (S1 := si.chargelst)
    (S2 := d.si.chargelst) hsh a1 (hsix.legal.good hsix) (hsix'.legal.good hsix')
    (fun c _ => by rw [hcl]; exact rowOf_pad _ _ _) a2
    (by rw [a3']; rfl)
    (by
      intro b hb
      obtain ⟨c, hc, e⟩ := hsix.charge_le (b := b) (by omega)
      exact ⟨c, by omega, (hsix.row_mem hc b).2 ⟨by omega, e⟩⟩) hr1'
  obtain ⟨g1, g2, g3, g4, g5⟩ := setStatesdm_shape hsh hr1'
  have hst : r.statesdm = si.chargelst ++ [[]] := by
    unfold DM.setStatesdm at hr1'
    obtain ⟨t, _, h⟩ := bind_iff.1 hr1'
    obtain ⟨d1, h1, h⟩ := bind_iff.1 h
    obtain ⟨d2, h2, h⟩ := bind_iff.1 h
    cases h
    obtain ⟨_, _, s3, _⟩ := setMapdm_same d1 d2 h2
    have := (setDictdm_shape (m := n + 1) (N := 2 ^ n) (d := { DM.blank kind si n with
      statesdm := si.chargelst ++ [[]], npauli_ := t.1, ndm0_ := t.2.1, ndm1_ := t.2.2 })
      ⟨hsh.ncharge, hsh.pos, hsh.len, hsh.s0, hsh.s00, hsh.s1, hsh.s10, hsh.dict⟩ h1).2.2.2.1
    exact s3.trans this
  unfold DM.setStatesAll
  rw [key, py_bind_ok]
  have t0 : r.ndm0Tot = d.ndm0Tot := by rw [g4, a4]; rfl
  have t1 : r.ndm1Tot = d.ndm1Tot := by rw [g5, a5]; rfl
  have hkr : (DM.blank kind si n).kind = kind := rfl
  rw [← t0, ← t1, hcl]
  simp only [py_pure, Except.ok.injEq] at hr2 ⊢
  have hrc : r.si.chargelst = si.chargelst := by rw [g3]; rfl
  by_cases hk : kind = .dm
  · have hk0 := a3 hk
    subst hk0
    have : d.kind = .dm := a2.trans hk
    rw [if_pos this]
    have h3 : r = d0 := by
      rw [← hr2]; exact (if_pos hk).symm
    subst h3
    simp only [List.replicate_zero, List.append_nil, ← hst]
    rw [← hrc]
  · have : d.kind ≠ .dm := fun h => hk (a2.symm.trans h)
    rw [if_neg this]
    have h3 : { r with si := { r.si with chargelst := r.si.chargelst ++ [[]] } } = d0 := by
      rw [← hr2]; exact (if_neg hk).symm
    subst h3
    simp only [hrc, hst]
    have e2 : ∀ l : List (List Nat), l ++ List.replicate k [] ++ [[]] = l ++ [[]] ++ List.replicate k [] := by
      intro l
      rw [List.append_assoc, List.append_assoc]
      congr 1
      rw [← List.replicate_succ', List.replicate_succ]
      rfl
    rw [e2]

/-- In particular the look-up functions are those of the fresh object. -/
theorem c36_restore_lookup {kind : DMKind} {n : Nat} {indexing : String} {d d0 : DM}
    (h : StateCalls kind n indexing d) (h0 : DM.init kind n indexing = .ok d0) :
    ∃ d', d.setStatesAll = .ok d' ∧ d'.getIndDm0 = d0.getIndDm0 ∧ d'.getBoolDm0 = d0.getBoolDm0 ∧
      d'.getConjDm0 = d0.getConjDm0 ∧ d'.getIndDm1 = d0.getIndDm1 ∧ d'.npauli = d0.npauli ∧
      d'.ndm0 = d0.ndm0 ∧ d'.ndm0r = d0.ndm0r ∧ d'.ndm1 = d0.ndm1 := by
  obtain ⟨k, _, e⟩ := c36_restore h h0
  exact ⟨_, e, rfl, rfl, rfl, rfl, rfl, rfl, rfl, rfl⟩

/-- A history of the kind considered. -/
example : ∃ d d0, StateCalls .dmc 2 "sz" d ∧ DM.init .dmc 2 "sz" = .ok d0 ∧
    d.statesdm = [[], [1], [], []] ∧ d0.statesdm = [[0], [1, 2], [3], []] := by
  have key : (DM.init .dmc 2 "sz" >>= fun d0 => d0.setStatesdm [[], [1], []] >>= fun d =>
      .ok (d.statesdm, d0.statesdm)) = .ok ([[], [1], [], []], [[0], [1, 2], [3], []]) := by
    decide +kernel
  obtain ⟨d0, h1, h⟩ := bind_iff.1 key
  obtain ⟨d, h2, h⟩ := bind_iff.1 h
  simp only [Except.ok.injEq, Prod.mk.injEq] at h
  exact ⟨d, d0, .set (.init h1) h2, h1, h⟩

end Verif
