import Verif.Lemmas.RemoveCoh
import Verif.Lemmas.Params
import Verif.Props.View

/-! C35: removal of coherences. -/

namespace Verif

/-! ### The map has `ndm0_` entries -/

theorem foldlM_pres {σ α : Type} {f : σ → α → Py σ} (P : σ → Prop) (xs : List α) {s s' : σ}
    (h : ∀ s a s', P s → f s a = .ok s' → P s') (h0 : P s) (e : xs.foldlM f s = .ok s') : P s' := by
  induction xs generalizing s with
  | nil => cases e; exact h0
  | cons a xs ih =>
    rw [List.foldlM_cons] at e
    obtain ⟨s1, e1, e2⟩ := bind_iff.1 e
    exact ih (h _ _ _ h0 e1) e2

theorem pySet_length {α : Type} {l l' : List α} {i : Int} {v : α} (h : pySet l i v = .ok l') :
    l'.length = l.length := by
  unfold pySet at h
  split at h
  · cases h; simp
  · cases h

theorem addElem_length {d : DM} {st st' : MapSt} {k b bp c : Nat} {x y : Bool}
    (h : d.addElem st k b bp c x y = .ok st') : st'.map.length = st.map.length := by
  unfold DM.addElem at h
  obtain ⟨r, _, h⟩ := bind_iff.1 h
  obtain ⟨m, h1, h⟩ := bind_iff.1 h
  obtain ⟨m2, _, h⟩ := bind_iff.1 h
  obtain ⟨m3, _, h⟩ := bind_iff.1 h
  cases h
  exact pySet_length h1

theorem setMapdm_length {d d' : DM} (h : d.setMapdm = .ok d') (hk : d.kind ≠ .pauli) :
    d'.mp.map.length = d.ndm0_ ∧ d'.ndm0_ = d.ndm0_ := by
  unfold DM.setMapdm at h
  rw [if_neg hk] at h
  obtain ⟨st, h1, h⟩ := bind_iff.1 h
  obtain ⟨st', h2, h⟩ := bind_iff.1 h
  cases h
  refine ⟨?_, rfl⟩
  have p1 : st.1.map.length = d.ndm0_ := by
    refine foldlM_pres (fun st : MapSt × Nat => st.1.map.length = d.ndm0_) _ ?_ (by simp) h1
    intro s c s' hs e
    obtain ⟨l, _, e⟩ := bind_iff.1 e
    refine foldlM_pres (fun st : MapSt × Nat => st.1.map.length = d.ndm0_) _ ?_ hs e
    intro s b s' hs e
    unfold DM.diagStep at e
    split at e
    · obtain ⟨q, _, e⟩ := bind_iff.1 e
      split at e
      · obtain ⟨m, e1, e⟩ := bind_iff.1 e
        obtain ⟨m', e2, e⟩ := bind_iff.1 e
        cases e
        refine foldlM_pres (fun st : MapSt => st.map.length = d.ndm0_) _ ?_ ?_ e2
        · intro s z s' hs e
          obtain ⟨_, _, e⟩ := bind_iff.1 e
          rw [addElem_length e, hs]
        · rw [addElem_length e1, hs]
      · cases e; exact hs
    · obtain ⟨m, e1, e⟩ := bind_iff.1 e
      cases e
      rw [addElem_length e1, hs]
  have q1 : ∀ (c : Nat) (s : MapSt × Nat) (p : Nat × Nat) (s' : MapSt × Nat),
      s.1.map.length = d.ndm0_ → d.offStepDM c s p = .ok s' → s'.1.map.length = d.ndm0_ := by
    intro c s p s' hs e
    unfold DM.offStepDM at e
    split at e
    · obtain ⟨_, _, e⟩ := bind_iff.1 e
      obtain ⟨_, _, e⟩ := bind_iff.1 e
      split at e
      · obtain ⟨m, e1, e⟩ := bind_iff.1 e
        obtain ⟨m', e2, e⟩ := bind_iff.1 e
        cases e
        rw [addElem_length e2, addElem_length e1, hs]
      · cases e; exact hs
    · obtain ⟨_, _, e⟩ := bind_iff.1 e
      obtain ⟨_, _, e⟩ := bind_iff.1 e
      split at e
      · split at e
        · obtain ⟨m, e1, e⟩ := bind_iff.1 e
          obtain ⟨m', e2, e⟩ := bind_iff.1 e
          obtain ⟨m'', e3, e⟩ := bind_iff.1 e
          cases e
          refine foldlM_pres (fun st : MapSt => st.map.length = d.ndm0_) _ ?_ ?_ e3
          · intro s z s' hs e
            obtain ⟨_, _, e⟩ := bind_iff.1 e
            obtain ⟨_, _, e⟩ := bind_iff.1 e
            obtain ⟨m, e1, e⟩ := bind_iff.1 e
            rw [addElem_length e, addElem_length e1, hs]
          · rw [addElem_length e2, addElem_length e1, hs]
        · cases e; exact hs
      · cases e; exact hs
    · obtain ⟨m, e1, e⟩ := bind_iff.1 e
      obtain ⟨m', e2, e⟩ := bind_iff.1 e
      cases e
      rw [addElem_length e2, addElem_length e1, hs]
  have q2 : ∀ (c : Nat) (s : MapSt × Nat) (p : Nat × Nat) (s' : MapSt × Nat),
      s.1.map.length = d.ndm0_ → d.offStepDMc c s p = .ok s' → s'.1.map.length = d.ndm0_ := by
    intro c s p s' hs e
    unfold DM.offStepDMc at e
    split at e
    · obtain ⟨_, _, e⟩ := bind_iff.1 e
      obtain ⟨_, _, e⟩ := bind_iff.1 e
      split at e
      · obtain ⟨m, e1, e⟩ := bind_iff.1 e
        cases e
        rw [addElem_length e1, hs]
      · cases e; exact hs
    · obtain ⟨_, _, e⟩ := bind_iff.1 e
      obtain ⟨_, _, e⟩ := bind_iff.1 e
      split at e
      · split at e
        · obtain ⟨m, e1, e⟩ := bind_iff.1 e
          obtain ⟨m'', e3, e⟩ := bind_iff.1 e
          cases e
          refine foldlM_pres (fun st : MapSt => st.map.length = d.ndm0_) _ ?_ ?_ e3
          · intro s z s' hs e
            obtain ⟨_, _, e⟩ := bind_iff.1 e
            obtain ⟨_, _, e⟩ := bind_iff.1 e
            rw [addElem_length e, hs]
          · rw [addElem_length e1, hs]
        · cases e; exact hs
      · cases e; exact hs
    · obtain ⟨m, e1, e⟩ := bind_iff.1 e
      cases e
      rw [addElem_length e1, hs]
  unfold DM.offLoop at h2
  split at h2
  · cases h2; exact p1
  · refine foldlM_pres (fun st : MapSt × Nat => st.1.map.length = d.ndm0_) _ ?_ p1 h2
    intro s c s' hs e
    obtain ⟨l, _, e⟩ := bind_iff.1 e
    exact foldlM_pres (fun st : MapSt × Nat => st.1.map.length = d.ndm0_) _ (q1 c) hs e
  · refine foldlM_pres (fun st : MapSt × Nat => st.1.map.length = d.ndm0_) _ ?_ p1 h2
    intro s c s' hs e
    obtain ⟨l, _, e⟩ := bind_iff.1 e
    exact foldlM_pres (fun st : MapSt × Nat => st.1.map.length = d.ndm0_) _ (q2 c) hs e

theorem setDictdm_kind {d d' : DM} (h : d.setDictdm = .ok d') : d'.kind = d.kind := by
  unfold DM.setDictdm at h
  refine foldlM_pres (fun x : DM => x.kind = d.kind) _ ?_ rfl h
  intro s c s' hs e
  obtain ⟨_, _, e⟩ := bind_iff.1 e
  obtain ⟨_, _, e⟩ := bind_iff.1 e
  obtain ⟨_, _, e⟩ := bind_iff.1 e
  obtain ⟨_, _, e⟩ := bind_iff.1 e
  obtain ⟨_, _, e⟩ := bind_iff.1 e
  obtain ⟨_, _, e⟩ := bind_iff.1 e
  cases e
  exact hs

theorem setStatesdm_length {d d' : DM} {S : List (List Nat)} (h : d.setStatesdm S = .ok d')
    (hk : d.kind ≠ .pauli) : d'.mp.map.length = d'.ndm0_ := by
  unfold DM.setStatesdm at h
  obtain ⟨t, _, h⟩ := bind_iff.1 h
  obtain ⟨d1, h1, h⟩ := bind_iff.1 h
  obtain ⟨d2, h2, h⟩ := bind_iff.1 h
  cases h
  have := setMapdm_length h2 (by rw [setDictdm_kind h1]; exact hk)
  show d2.mp.map.length = d2.ndm0_
  rw [this.1, this.2]

theorem setStatesAll_length {d d' : DM} (h : d.setStatesAll = .ok d') (hk : d.kind ≠ .pauli) :
    d'.mp.map.length = d'.ndm0_ := by
  unfold DM.setStatesAll at h
  obtain ⟨d1, h1, h⟩ := bind_iff.1 h
  cases h
  have := setStatesdm_length h1 hk
  split <;> exact this

theorem Reach.map_length {kind : DMKind} {n : Nat} {indexing : String} {d : DM} {S : List (List Nat)}
    (h : Reach kind n indexing d S) (hk : kind ≠ .pauli) : d.mp.map.length = d.ndm0_ := by
  cases h with
  | init _ h =>
    unfold DM.init at h
    obtain ⟨si, _, h⟩ := bind_iff.1 h
    exact setStatesAll_length h hk
  | set h1 _ h2 => exact setStatesdm_length h2 (by rw [h1.inv.2.1]; exact hk)
  | all h1 h2 => exact setStatesAll_length h2 (by rw [h1.inv.2.1]; exact hk)
  | remove h1 _ _ _ h2 =>
    unfold DM.removeFockStates at h2
    obtain ⟨si, _, h2⟩ := bind_iff.1 h2
    exact setStatesAll_length h2 (by show DM.kind _ ≠ _; rw [h1.inv.2.1]; exact hk)

/-! ### The labels after the removal -/

/-- The label of an included element leads back to the element or its transpose. -/
theorem Reach.label {kind : DMKind} {n : Nat} {indexing : String} {d : DM} {S : List (List Nat)}
    (h : Reach kind n indexing d S) (hk : kind ≠ .pauli) (hix : d.si.indexing ≠ .ssq) {c b bp : Nat}
    (hc : c < n + 1) (hb : b ∈ rowOf S c) (hbp : bp ∈ rowOf S c) :
    d.getIndDm0 b bp c = .ok (-1) ∨ ∃ k : Nat, d.getIndDm0 b bp c = .ok (k : Int) ∧ k < d.ndm0 ∧
      (d.mp.ind.get? k = some (b, bp) ∨ d.mp.ind.get? k = some (bp, b)) := by
  obtain ⟨hi, hkd, _⟩ := h.inv
  have L := hi.lab hix
  cases kind with
  | pauli => exact absurd rfl hk
  | dm =>
    have L := L.dm hkd
    by_cases e : b = bp
    · subst e
      obtain ⟨a1, _, _, a4⟩ := L.diag c b hc hb
      exact Or.inr ⟨_, a1, lt_of_lt_of_le (by rw [L.npauli]; exact posP_lt hc hb) L.le, Or.inl a4⟩
    · cases hin : inclOf d.si.indexing (szOf n d.si) b bp with
      | true =>
        obtain ⟨k, x, _, a2, a3, _, _, _, _, _, a9⟩ := L.off c b bp hc hb hbp e hin
        refine Or.inr ⟨k, a3, a2, ?_⟩
        cases x
        · exact Or.inr (by simpa using a9)
        · exact Or.inl (by simpa using a9)
      | false => exact Or.inl (L.excl c b bp hc hb hbp e hin).1
  | dmc =>
    have L := L.dmc hkd
    by_cases e : b = bp
    · subst e
      obtain ⟨a1, _, a4⟩ := L.diag c b hc hb
      exact Or.inr ⟨_, a1, lt_of_lt_of_le (by rw [L.npauli]; exact posP_lt hc hb) L.le, Or.inl a4⟩
    · cases hin : inclOf d.si.indexing (szOf n d.si) b bp with
      | true =>
        obtain ⟨k, _, a2, a3, _, a9⟩ := L.off c b bp hc hb hbp e hin
        exact Or.inr ⟨k, a3, a2, Or.inl a9⟩
      | false => exact Or.inl (L.excl c b bp hc hb hbp e hin).1

theorem Reach.diag_label {kind : DMKind} {n : Nat} {indexing : String} {d : DM} {S : List (List Nat)}
    (h : Reach kind n indexing d S) (hk : kind ≠ .pauli) (hix : d.si.indexing ≠ .ssq) :
    d.npauli = pre (rowLen S) (n + 1) ∧ d.npauli ≤ d.ndm0 ∧
    ∀ c b, c < n + 1 → b ∈ rowOf S c → d.getIndDm0 b b c = .ok (posP S c b : Int) := by
  obtain ⟨hi, hkd, _⟩ := h.inv
  have L := hi.lab hix
  cases kind with
  | pauli => exact absurd rfl hk
  | dm => exact ⟨(L.dm hkd).npauli, (L.dm hkd).le, fun c b hc hb => ((L.dm hkd).diag c b hc hb).1⟩
  | dmc => exact ⟨(L.dmc hkd).npauli, (L.dmc hkd).le, fun c b hc hb => ((L.dmc hkd).diag c b hc hb).1⟩

/-- What the removal does, in terms of the look-up functions. -/
theorem removeCoh_core {kind : DMKind} {n : Nat} {indexing : String} {d : DM} {S : List (List Nat)}
    (h : Reach kind n indexing d S) (hk : kind ≠ .pauli) (hix : d.si.indexing ≠ .ssq)
    {keep : Nat → Nat → Bool} (hsymm : ∀ b bp, keep b bp = keep bp b) (hrefl : ∀ b, keep b b = true)
    (hne : ∃ c b, Considered n S c b) :
    ∃ (m' : List Int) (K : Finset Int),
      d.removeCohBy keep = .ok { d with
        mp := { d.mp with map := m' }, ndm0 := K.card, ndm0r := 2 * K.card - d.npauli } ∧
      (∀ x ∈ K, 0 ≤ x) ∧ (∀ k : Nat, k < d.npauli → (k : Int) ∈ K) ∧
      (∀ x, x ∈ K ↔ ∃ c b bp, Considered n S c b ∧ Considered n S c bp ∧
        d.getIndDm0 b bp c = .ok x ∧ x ≠ -1 ∧ keep b bp = true) ∧
      (∀ c b bp x, Considered n S c b → Considered n S c bp → d.getIndDm0 b bp c = .ok x →
        DM.getIndDm0 { d with
          mp := { d.mp with map := m' }, ndm0 := K.card, ndm0r := 2 * K.card - d.npauli } b bp c =
          .ok (if x ≠ -1 ∧ keep b bp = true then (newLabel K x : Int) else -1)) := by
  obtain ⟨hi, hkd, _⟩ := h.inv
  have hkp : d.kind ≠ .pauli := by rw [hkd]; exact hk
  have hlen := h.map_length hk
  have hraw : ∀ {c b bp : Nat}, c < n + 1 → b ∈ rowOf S c → bp ∈ rowOf S c →
      d.rawInd0 b bp c = .ok (pos0 S c b bp) := fun hc hb hbp => hi.dict.raw hc hb hbp hkp
  have hget : ∀ {c b bp : Nat} {x : Int}, c < n + 1 → b ∈ rowOf S c → bp ∈ rowOf S c →
      d.getIndDm0 b bp c = .ok x → d.mp.map[pos0 S c b bp]? = some x := by
    intro c b bp x hc hb hbp e
    unfold DM.getIndDm0 at e
    rw [hraw hc hb hbp, py_bind_ok] at e
    exact getElem?_of_pyGet e
  have hsurj : ∀ i, i < d.mp.map.length → ∃ c b bp, c < n + 1 ∧ b ∈ rowOf S c ∧ bp ∈ rowOf S c ∧
      pos0 S c b bp = i := by
    intro i hi'
    rw [hlen, hi.sizes.ndm0_] at hi'
    obtain ⟨c, b, bp, h1, h2, h3, e⟩ := pos0_surj hi.good.nodup hi'
    exact ⟨c, b, bp, h1, h2, h3, e.symm ▸ rfl⟩
  have hlab : Labelled d.mp.map d.mp.ind := by
    intro i hi'
    obtain ⟨c, b, bp, h1, h2, h3, rfl⟩ := hsurj i hi'
    rcases h.label hk hix h1 h2 h3 with e | ⟨k, e, _, e2⟩
    · have := hget h1 h2 h3 e
      rw [List.getElem?_eq_getElem hi'] at this
      exact Or.inl (by simpa using this)
    · have := hget h1 h2 h3 e
      rw [List.getElem?_eq_getElem hi'] at this
      refine Or.inr ⟨k, ?_⟩
      rcases e2 with e2 | e2
      · exact ⟨_, by simpa using this, e2⟩
      · exact ⟨_, by simpa using this, e2⟩
  have hkept : ∀ {c b bp : Nat} {x : Int}, c < n + 1 → b ∈ rowOf S c → bp ∈ rowOf S c →
      d.getIndDm0 b bp c = .ok x →
      (keptAt d.mp.map d.mp.ind keep (pos0 S c b bp) = true ↔ x ≠ -1 ∧ keep b bp = true) := by
    intro c b bp x hc hb hbp e
    have hx := hget hc hb hbp e
    rcases h.label hk hix hc hb hbp with e' | ⟨k, e', _, e2⟩
    · rw [e] at e'
      have : x = -1 := by simpa using e'
      unfold keptAt
      rw [hx]
      simp [this]
    · rw [e] at e'
      have hxk : x = (k : Int) := by simpa using e'
      rw [hxk] at hx ⊢
      rcases e2 with e2 | e2
      · rw [keptAt_iff hx e2]
        simp
      · rw [keptAt_iff hx e2, hsymm]
        simp
  have hmem : ∀ x, x ∈ keptLabels d.mp.map d.mp.ind keep ↔
      ∃ c b bp, Considered n S c b ∧ Considered n S c bp ∧
        d.getIndDm0 b bp c = .ok x ∧ x ≠ -1 ∧ keep b bp = true := by
    intro x
    rw [mem_keptLabels]
    constructor
    · rintro ⟨i, e1, e2⟩
      obtain ⟨hi', _⟩ := List.getElem?_eq_some_iff.1 e1
      obtain ⟨c, b, bp, h1, h2, h3, rfl⟩ := hsurj i hi'
      have hx : d.getIndDm0 b bp c = .ok x := by
        unfold DM.getIndDm0
        rw [hraw h1 h2 h3, py_bind_ok]
        exact pyGet_of_getElem? e1
      exact ⟨c, b, bp, ⟨by omega, h2⟩, ⟨by omega, h3⟩, hx, (hkept h1 h2 h3 hx).1 e2⟩
    · rintro ⟨c, b, bp, ⟨h1, h2⟩, ⟨_, h3⟩, hx, h4⟩
      exact ⟨_, hget (by omega) h2 h3 hx, (hkept (by omega) h2 h3 hx).2 h4⟩
  obtain ⟨d1, d2, d3⟩ := h.diag_label hk hix
  have hP : ∀ k : Nat, k < d.npauli → (k : Int) ∈ keptLabels d.mp.map d.mp.ind keep := by
    intro k hk'
    rw [d1] at hk'
    obtain ⟨c, b, h1, h2, rfl⟩ := posP_surj hi.good.nodup hk'
    rw [hmem]
    exact ⟨c, b, b, ⟨by omega, h2⟩, ⟨by omega, h2⟩, d3 c b h1 h2, by omega, hrefl b⟩
  have h0 : (0 : Int) ∈ keptLabels d.mp.map d.mp.ind keep := by
    obtain ⟨c, b, h1, h2⟩ := hne
    have : posP S c b < d.npauli := by rw [d1]; exact posP_lt (by omega) h2
    exact hP 0 (by omega)
  obtain ⟨m', s1, s2, s3⟩ := removeCohBy_spec hlen hlab h0
  refine ⟨m', _, s1, fun x hx => keptLabels_nonneg hlab hx, hP, hmem, ?_⟩
  rintro c b bp x ⟨h1, h2⟩ ⟨_, h3⟩ hx
  have hr := hraw (by omega : c < n + 1) h2 h3
  unfold DM.getIndDm0
  show DM.rawInd0 d b bp c >>= _ = _
  rw [hr, py_bind_ok]
  have := s3 (pos0 S c b bp)
  rw [hget (by omega) h2 h3 hx, Option.map_some] at this
  refine (pyGet_of_getElem? this).trans ?_
  congr 1
  exact if_congr (hkept (by omega) h2 h3 hx) rfl rfl

theorem keepCoh_iff (E : Nat → ℝ) (dE : ℝ) (b bp : Nat) :
    keepCoh E dE b bp = true ↔ |E b - E bp| ≤ dE := by
  unfold keepCoh
  simp

theorem keepCoh_symm (E : Nat → ℝ) (dE : ℝ) (b bp : Nat) : keepCoh E dE b bp = keepCoh E dE bp b := by
  rw [Bool.eq_iff_iff, keepCoh_iff, keepCoh_iff, abs_sub_comm]

/-- **C35** for one call. On every object of class `StateIndexingDM` or `StateIndexingDMc` with
'Lin', 'charge' or 'sz' indexing (any history of `set_statesdm` and removals of Fock states, at
least one considered state) `remove_coherences(dE)` with `dE >= 0` succeeds. Afterwards an
element has a label exactly when it had one and `|E_b - E_bp| <= dE`; the populations keep their
labels, which are those below `npauli`; the labels of the coherences are `npauli..ndm0-1` without
gaps; two elements share a label only if they did before. The answers of the other look-up
functions do not change. -/
theorem c35_remove_coherences {kind : DMKind} {n : Nat} {indexing : String} {d : DM}
    {S : List (List Nat)} (h : Reach kind n indexing d S) (hk : kind ≠ .pauli)
    (hix : d.si.indexing ≠ .ssq) (E : Nat → ℝ) {dE : ℝ} (hdE : 0 ≤ dE)
    (hne : ∃ c b, Considered n S c b) :
    ∃ d', d.removeCoherences E dE = .ok d' ∧ d'.npauli = d.npauli ∧ d.npauli ≤ d'.ndm0 ∧
      d'.ndm0r = d'.npauli + 2 * (d'.ndm0 - d'.npauli) ∧
      -- exactly the elements within the window are kept
      (∀ c b bp, Considered n S c b → Considered n S c bp →
        ((∃ k : Nat, d'.getIndDm0 b bp c = .ok (k : Int)) ↔
          (∃ k : Nat, d.getIndDm0 b bp c = .ok (k : Int)) ∧ |E b - E bp| ≤ dE) ∧
        ((∃ k : Nat, d'.getIndDm0 b bp c = .ok (k : Int)) ∨ d'.getIndDm0 b bp c = .ok (-1))) ∧
      -- populations
      (∀ c b, Considered n S c b → ∃ k : Nat, k < d.npauli ∧
        d.getIndDm0 b b c = .ok (k : Int) ∧ d'.getIndDm0 b b c = .ok (k : Int)) ∧
      -- coherences
      (∀ c b bp, Considered n S c b → Considered n S c bp → b ≠ bp → ∀ k : Nat,
        d'.getIndDm0 b bp c = .ok (k : Int) → d.npauli ≤ k ∧ k < d'.ndm0) ∧
      -- labels are shared as before and in the same order
      (∀ c b bp c' b' bp', Considered n S c b → Considered n S c bp → Considered n S c' b' →
        Considered n S c' bp' → ∀ k k' j j' : Nat,
        d'.getIndDm0 b bp c = .ok (k : Int) → d'.getIndDm0 b' bp' c' = .ok (k' : Int) →
        d.getIndDm0 b bp c = .ok (j : Int) → d.getIndDm0 b' bp' c' = .ok (j' : Int) →
        (k < k' ↔ j < j')) ∧
      -- no gaps
      (∀ k, k < d'.ndm0 → ∃ c b bp, Considered n S c b ∧ Considered n S c bp ∧
        d'.getIndDm0 b bp c = .ok (k : Int)) ∧
      -- the other functions
      d'.getBoolDm0 = d.getBoolDm0 ∧ d'.getConjDm0 = d.getConjDm0 ∧ d'.getIndDm1 = d.getIndDm1 ∧
      d'.statesdm = d.statesdm ∧ d'.ndm1 = d.ndm1 := by
  obtain ⟨m', K, s1, s2, s3, s4, s5⟩ := removeCoh_core h hk hix (keepCoh_symm E dE)
    (fun b => (keepCoh_iff E dE b b).2 (by simpa using hdE)) hne
  obtain ⟨d1, d2, d3⟩ := h.diag_label hk hix
  have hcard : d.npauli ≤ K.card := by
    have h1 : ((Finset.range d.npauli).image fun j : Nat => (j : Int)) ⊆ K := by
      intro z hz
      obtain ⟨j, hj, rfl⟩ := Finset.mem_image.1 hz
      exact s3 j (Finset.mem_range.1 hj)
    have h2 := Finset.card_le_card h1
    rwa [Finset.card_image_of_injective _ (fun a b h => by simpa using h), Finset.card_range] at h2
  have old : ∀ {c b bp}, Considered n S c b → Considered n S c bp →
      d.getIndDm0 b bp c = .ok (-1) ∨ ∃ k : Nat, d.getIndDm0 b bp c = .ok (k : Int) := by
    rintro c b bp ⟨h1, h2⟩ ⟨_, h3⟩
    rcases h.label hk hix (by omega) h2 h3 with e | ⟨k, e, _⟩
    · exact Or.inl e
    · exact Or.inr ⟨k, e⟩
  -- the new label
  set d' : DM := { d with
    mp := { d.mp with map := m' }, ndm0 := K.card, ndm0r := 2 * K.card - d.npauli } with hd'
  have new : ∀ {c b bp k}, Considered n S c b → Considered n S c bp →
      d'.getIndDm0 b bp c = .ok ((k : Nat) : Int) → ∃ j : Nat, d.getIndDm0 b bp c = .ok (j : Int) ∧
        keepCoh E dE b bp = true ∧ (j : Int) ∈ K ∧ k = newLabel K j := by
    intro c b bp k hb hbp e
    rcases old hb hbp with e1 | ⟨j, e1⟩
    · rw [s5 c b bp _ hb hbp e1] at e
      simp at e
    · rw [s5 c b bp _ hb hbp e1] at e
      by_cases hkp : keepCoh E dE b bp = true
      · rw [if_pos ⟨by omega, hkp⟩] at e
        refine ⟨j, e1, hkp, (s4 _).2 ⟨c, b, bp, hb, hbp, e1, by omega, hkp⟩, ?_⟩
        have : ((newLabel K j : Nat) : Int) = k := by simpa using e
        omega
      · rw [if_neg (by simp [hkp])] at e
        simp at e
  refine ⟨d', s1, rfl, hcard, ?_, ?_, ?_, ?_, ?_, ?_, rfl, rfl, rfl, rfl, rfl⟩
  · show 2 * K.card - d.npauli = d.npauli + 2 * (K.card - d.npauli)
    omega
  · intro c b bp hb hbp
    rcases old hb hbp with e1 | ⟨j, e1⟩
    · have e2 := s5 c b bp _ hb hbp e1
      rw [if_neg (by simp)] at e2
      refine ⟨⟨?_, ?_⟩, Or.inr e2⟩
      · rintro ⟨k, e⟩; rw [e2] at e; simp at e
      · rintro ⟨⟨k, e⟩, _⟩; rw [e1] at e; simp at e
    · have e2 := s5 c b bp _ hb hbp e1
      by_cases hkp : keepCoh E dE b bp = true
      · rw [if_pos ⟨by omega, hkp⟩] at e2
        exact ⟨⟨fun _ => ⟨⟨j, e1⟩, (keepCoh_iff ..).1 hkp⟩, fun _ => ⟨_, e2⟩⟩, Or.inl ⟨_, e2⟩⟩
      · rw [if_neg (by simp [hkp])] at e2
        refine ⟨⟨?_, ?_⟩, Or.inr e2⟩
        · rintro ⟨k, e⟩; rw [e2] at e; simp at e
        · rintro ⟨_, e⟩; exact absurd ((keepCoh_iff ..).2 e) hkp
  · rintro c b ⟨h1, h2⟩
    have e1 := d3 c b (by omega) h2
    have hlt : posP S c b < d.npauli := by rw [d1]; exact posP_lt (by omega) h2
    refine ⟨_, hlt, e1, ?_⟩
    rw [s5 c b b _ ⟨h1, h2⟩ ⟨h1, h2⟩ e1, if_pos ⟨by omega, (keepCoh_iff ..).2 (by simpa using hdE)⟩,
      newLabel_fix s2 s3 hlt.le]
  · intro c b bp hb hbp hne k e
    obtain ⟨j, e1, hkp, hj, rfl⟩ := new hb hbp e
    refine ⟨?_, newLabel_lt hj⟩
    have hj' : d.npauli ≤ j := by
      by_contra hlt
      obtain ⟨hi, hkd, _⟩ := h.inv
      rw [not_le, d1] at hlt
      obtain ⟨c', b', g1, g2, rfl⟩ := posP_surj hi.good.nodup hlt
      have g3 := d3 c' b' g1 g2
      rcases h.label hk hix (by have := hb.1; omega) hb.2 hbp.2 with g4 | ⟨k, g4, _, g5⟩
      · rw [e1] at g4; simp at g4
      · rcases h.label hk hix g1 g2 g2 with g6 | ⟨k', g6, _, g7⟩
        · rw [g3] at g6; simp at g6
        · rw [e1] at g4; rw [g3] at g6
          have r1 : posP S c' b' = k := by simpa using g4
          have r2 : posP S c' b' = k' := by simpa using g6
          rw [← r1] at g5
          rw [← r2] at g7
          simp only [or_self] at g7
          rw [g7] at g5
          simp only [Option.some.injEq, Prod.mk.injEq] at g5
          rcases g5 with ⟨r3, r4⟩ | ⟨r3, r4⟩
          · exact hne (r3.symm.trans r4)
          · exact hne (r4.symm.trans r3)
    calc d.npauli = newLabel K (d.npauli : Int) := (newLabel_fix s2 s3 le_rfl).symm
      _ ≤ newLabel K (j : Int) := by
        unfold newLabel
        apply Finset.card_le_card
        intro z hz
        simp only [Finset.mem_filter] at hz ⊢
        exact ⟨hz.1, by omega⟩
  · intro c b bp c' b' bp' hb hbp hb' hbp' k k' j j' e e' f f'
    obtain ⟨i, e1, _, hj, rfl⟩ := new hb hbp e
    obtain ⟨i', e1', _, hj', rfl⟩ := new hb' hbp' e'
    rw [e1] at f; rw [e1'] at f'
    have r1 : i = j := by simpa using f
    have r2 : i' = j' := by simpa using f'
    subst r1 r2
    constructor
    · intro hlt
      by_contra hge
      rcases eq_or_lt_of_le (not_lt.1 hge) with q | q
      · subst q; omega
      · have := newLabel_mono (K := K) hj' (by exact_mod_cast q : (i' : Int) < i); omega
    · intro hlt
      exact newLabel_mono hj (by exact_mod_cast hlt)
  · intro k hk'
    obtain ⟨x, hx, e⟩ := newLabel_surj K hk'
    obtain ⟨c, b, bp, hb, hbp, e1, hx1, hkp⟩ := (s4 x).1 hx
    refine ⟨c, b, bp, hb, hbp, ?_⟩
    rw [s5 c b bp x hb hbp e1, if_pos ⟨hx1, hkp⟩, e]

/-- **C35**, consequence. After `remove_coherences(dE)` the object still labels a density matrix, so
that all statements about the approaches (conservation of probability and charge, agreement of
the solution methods, ...) apply. -/
theorem c35_view_ok {n nleads : Nat} {indexing : String} {d : DM} {S : List (List Nat)}
    (h : Reach .dm n indexing d S) (hix : d.si.indexing ≠ .ssq)
    (hS : ∀ c, n + 1 ≤ c → S[c]?.getD [] = []) (E : Nat → ℝ) {dE : ℝ} (hdE : 0 ≤ dE)
    (hne : ∃ c b, Considered n S c b) :
    ∃ d', d.removeCoherences E dE = .ok d' ∧ VOk (d'.view nleads) d'.labOf := by
  have V := view_ok' (nleads := nleads) h hix hS
  have hrow : ∀ c b, b ∈ (d.view nleads).row c → Considered n S c b := by
    intro c b hb
    have hsdm : d.statesdm = S ++ [[]] := h.inv.1.sdm
    have hr : b ∈ S[c]?.getD [] := by
      simp only [View.row, DM.view, hsdm] at hb
      rcases Nat.lt_trichotomy c S.length with hc | hc | hc
      · rwa [List.getElem?_append_left hc] at hb
      · subst hc; simp at hb
      · rw [List.getElem?_eq_none (by simp; omega)] at hb; simp at hb
    refine ⟨?_, hr⟩
    by_contra hc
    rw [hS c (by omega)] at hr
    simp at hr
  obtain ⟨m', K, s1, s2, s3, s4, s5⟩ := removeCoh_core h (by simp) hix (keepCoh_symm E dE)
    (fun b => (keepCoh_iff E dE b b).2 (by simpa using hdE)) hne
  set keep := keepCoh E dE with hkeep
  have hkd : ∀ b, keep b b = true := fun b => (keepCoh_iff E dE b b).2 (by simpa using hdE)
  have hks : ∀ b bp, keep b bp = keep bp b := keepCoh_symm E dE
  have hcard : d.npauli ≤ K.card := by
    have h1 : ((Finset.range d.npauli).image fun j : Nat => (j : Int)) ⊆ K := by
      intro z hz
      obtain ⟨j, hj, rfl⟩ := Finset.mem_image.1 hz
      exact s3 j (Finset.mem_range.1 hj)
    have h2 := Finset.card_le_card h1
    rwa [Finset.card_image_of_injective _ (fun a b h => by simpa using h), Finset.card_range] at h2
  set d' : DM := { d with
    mp := { d.mp with map := m' }, ndm0 := K.card, ndm0r := 2 * K.card - d.npauli } with hd'
  have hrw : ∀ c, (d'.view nleads).row c = (d.view nleads).row c := fun _ => rfl
  have hnew : ∀ {c b bp}, b ∈ (d.view nleads).row c → bp ∈ (d.view nleads).row c →
      d'.getIndDm0 b bp c = .ok (if d.labOf.inc c b bp = true ∧ keep b bp = true then
        (newLabel K (d.labOf.lab c b bp) : Int) else -1) := by
    intro c b bp hb hbp
    have e := V.ind0 c b bp hb hbp
    have e2 := s5 c b bp _ (hrow c b hb) (hrow c bp hbp) e
    rw [e2]
    congr 1
    cases hi : d.labOf.inc c b bp with
    | false => simp
    | true =>
      simp only [if_true, true_and]
      refine if_congr ?_ rfl rfl
      exact and_iff_right (by omega)
  have hinc : ∀ {c b bp}, b ∈ (d.view nleads).row c → bp ∈ (d.view nleads).row c →
      d'.labOf.inc c b bp = (d.labOf.inc c b bp && keep b bp) := by
    intro c b bp hb hbp
    simp only [DM.labOf]
    rw [hnew hb hbp]
    by_cases hh : d.labOf.inc c b bp = true ∧ keep b bp = true
    · rw [if_pos hh]
      have h1 : okD (-1) (d.getIndDm0 b bp c) != -1 := hh.1
      rw [h1, hh.2]
      simp [okD]
    · rw [if_neg hh]
      have h1 : ¬ ((okD (-1) (d.getIndDm0 b bp c) != -1) = true ∧ keep b bp = true) := hh
      simp only [okD, bne_self_eq_false]
      rw [eq_comm, ← Bool.not_eq_true, Bool.and_eq_true]
      exact h1
  have hlab : ∀ {c b bp}, b ∈ (d.view nleads).row c → bp ∈ (d.view nleads).row c →
      d'.labOf.inc c b bp = true → d.labOf.inc c b bp = true ∧ keep b bp = true ∧
        d'.labOf.lab c b bp = newLabel K (d.labOf.lab c b bp) ∧ (d.labOf.lab c b bp : Int) ∈ K := by
    intro c b bp hb hbp hi
    rw [hinc hb hbp, Bool.and_eq_true] at hi
    refine ⟨hi.1, hi.2, ?_, ?_⟩
    · simp only [DM.labOf]
      rw [hnew hb hbp, if_pos hi]
      simp [okD, DM.labOf]
    · rw [s4]
      have e := V.ind0 c b bp hb hbp
      rw [if_pos hi.1] at e
      exact ⟨c, b, bp, hrow c b hb, hrow c bp hbp, e, by omega, hi.2⟩
  refine ⟨d', s1, ?_⟩
  refine VOk.intro ?_ ?_ ?_ ?_ ?_ ?_ ?_ ?_ ?_ ?_ ?_ ?_ ?_ ?_ ?_ ?_ ?_ ?_ ?_ ?_ ?_ ?_
  · exact V.len
  · exact V.last
  · exact V.nodup
  · exact V.disj
  · intro c b bp hb hbp
    rw [hrw] at hb hbp
    show d'.getIndDm0 b bp c = _
    rw [hnew hb hbp]
    by_cases hi : d'.labOf.inc c b bp = true
    · obtain ⟨a1, a2, a3, _⟩ := hlab hb hbp hi
      rw [if_pos hi, a3, if_pos ⟨a1, a2⟩]
    · rw [if_neg hi, if_neg]
      rw [hinc hb hbp, Bool.and_eq_true] at hi
      exact hi
  · intro c b bp hb hbp hi
    rw [hrw] at hb hbp
    exact V.bool0 c b bp hb hbp (hlab hb hbp hi).1
  · intro c b bp hb hbp hi
    rw [hrw] at hb hbp
    exact V.conj0 c b bp hb hbp (hlab hb hbp hi).1
  · intro c b hb
    rw [hrw] at hb
    rw [hinc hb hb, V.inc_diag c b hb, hkd]; rfl
  · intro c b bp hb hbp
    rw [hrw] at hb hbp
    rw [hinc hb hbp, hinc hbp hb, V.inc_symm c b bp hb hbp, hks]
  · intro c b hb
    rw [hrw] at hb
    exact V.can_diag c b hb
  · intro c b bp hb hbp hne hi
    rw [hrw] at hb hbp
    exact V.can_off c b bp hb hbp hne (hlab hb hbp hi).1
  · intro c b bp hmem hi
    rw [hrw] at hmem
    have := combs2_mem hmem
    exact V.can_ord c b bp hmem (hlab this.1 this.2 hi).1
  · intro c b hb
    rw [hrw] at hb
    have h1 := V.lab_diag c b hb
    have hi : d'.labOf.inc c b b = true := by
      rw [hinc hb hb, V.inc_diag c b hb, hkd]; rfl
    rw [(hlab hb hb hi).2.2.1, newLabel_fix s2 s3 h1.le]
    exact h1
  · intro c b bp hb hbp hne hi
    rw [hrw] at hb hbp
    obtain ⟨a1, a2, a3, a4⟩ := hlab hb hbp hi
    rw [a3]
    refine ⟨?_, newLabel_lt a4⟩
    have h1 := (V.lab_off c b bp hb hbp hne a1).1
    show d.npauli ≤ _
    calc d.npauli = newLabel K (d.npauli : Int) := (newLabel_fix s2 s3 le_rfl).symm
      _ ≤ newLabel K (d.labOf.lab c b bp : Int) := by
        unfold newLabel
        apply Finset.card_le_card
        intro z hz
        simp only [Finset.mem_filter] at hz ⊢
        have h2 : (d.npauli : Int) ≤ d.labOf.lab c b bp := by exact_mod_cast h1
        exact ⟨hz.1, by omega⟩
  · intro c b bp hb hbp hi
    rw [hrw] at hb hbp
    obtain ⟨a1, a2, a3, a4⟩ := hlab hb hbp hi
    have hi' : d'.labOf.inc c bp b = true := by
      rw [hinc hbp hb, V.inc_symm c bp b hbp hb, hks, a1, a2]; rfl
    rw [a3, (hlab hbp hb hi').2.2.1, V.lab_symm c b bp hb hbp a1]
  · intro c b bp c' b' bp' hb hbp hi hb' hbp' hi' e
    rw [hrw] at hb hbp hb' hbp'
    obtain ⟨a1, a2, a3, a4⟩ := hlab hb hbp hi
    obtain ⟨b1, b2, b3, b4⟩ := hlab hb' hbp' hi'
    rw [a3, b3] at e
    have := newLabel_inj a4 b4 e
    exact V.lab_inj c b bp c' b' bp' hb hbp a1 hb' hbp' b1 (by exact_mod_cast this)
  · intro k hk
    obtain ⟨x, hx, e⟩ := newLabel_surj K hk
    obtain ⟨c, b, bp, hb, hbp, e1, hx1, hkp⟩ := (s4 x).1 hx
    have mem : ∀ {b}, Considered n S c b → b ∈ (d.view nleads).row c := by
      rintro b ⟨hc, hb⟩
      have hsdm : d.statesdm = S ++ [[]] := h.inv.1.sdm
      have hlt : c < S.length := by
        by_contra hge
        rw [List.getElem?_eq_none (by omega)] at hb; simp at hb
      simp only [View.row, DM.view, hsdm]
      rwa [List.getElem?_append_left hlt]
    have hb' := mem hb
    have hbp' := mem hbp
    have e2 := V.ind0 c b bp hb' hbp'
    have e3 : (d.view nleads).ind0 b bp c = .ok x := e1
    rw [e3] at e2
    have hinc0 : d.labOf.inc c b bp = true := by
      by_contra hn
      rw [if_neg hn] at e2
      exact hx1 (by simpa using e2)
    rw [if_pos hinc0] at e2
    have hx2 : x = (d.labOf.lab c b bp : Int) := by simpa using e2
    have hi : d'.labOf.inc c b bp = true := by rw [hinc hb' hbp', hinc0, hkp]; rfl
    refine ⟨c, b, bp, hb', hbp', hi, ?_⟩
    rw [(hlab hb' hbp' hi).2.2.1, ← hx2, e]
  · exact hcard
  · show 2 * K.card - d.npauli = K.card + (K.card - d.npauli)
    omega
  · exact V.ind1
  · exact V.ix1_lt
  · exact V.ix1_inj

/-- The hypotheses are met by a fresh object with three single particle states. -/
example : ∃ d S, Reach .dm 3 "charge" d S ∧ d.si.indexing ≠ .ssq ∧ S.length = 4 ∧
    (∃ c b, Considered 3 S c b) := by
  have key : (SI.init 3 "charge" >>= fun si => DM.init .dm 3 "charge" >>= fun d =>
      .ok (si.chargelst, decide (d.si.indexing = .ssq))) =
      .ok ([[0], [1, 2, 3], [4, 5, 6], [7]], false) := by decide +kernel
  obtain ⟨si, h1, h⟩ := bind_iff.1 key
  obtain ⟨d, h2, h⟩ := bind_iff.1 h
  simp only [Except.ok.injEq, Prod.mk.injEq, decide_eq_false_iff_not] at h
  exact ⟨d, _, Reach.init h1 h2, h.2, by rw [h.1]; rfl, 1, 2, by omega, by rw [h.1]; decide⟩

/-- What happens in an example: the states 1 and 3 have energy 0, the state 2 and all states with
two electrons other energies. The coherence (1,3) is kept, (1,2) is not. -/
example : (DM.init .dm 3 "charge" >>= fun d => d.removeCohBy (fun b bp => b = bp ∨ b + bp = 4) >>= fun d =>
    .ok (d.ndm0, d.ndm0r, okD 0 (d.getIndDm0 1 3 1), okD 0 (d.getIndDm0 3 1 1),
      okD 0 (d.getIndDm0 1 2 1), okD 0 (d.getIndDm0 4 5 2))) = .ok (9, 10, 8, 8, -1, -1) := by
  decide +kernel

/-- The energies of the witness below: state 2 is far from the others. -/
noncomputable def farE (b : Nat) : ℝ := if b = 2 then 10 else 0

theorem farE_keep : keepCoh farE 1 = fun b bp => decide (b = 2 ↔ bp = 2) := by
  funext b bp
  rw [Bool.eq_iff_iff, keepCoh_iff]
  unfold farE
  by_cases h1 : b = 2 <;> by_cases h2 : bp = 2 <;> simp [h1, h2] <;> norm_num

/-- **C35**, negation for repeated calls. `remove_coherences` looks up the pair of a label in
`inddm0`, which it does not update. Three single particle states, fresh object, states 1 and 3
degenerate, state 2 far away in energy: the first call with `dE = 1` keeps the coherence (1,3) and
gives it the label of the removed (1,2); a second identical call then removes it, although the
energies of its states are equal. Doing the same call twice is not the same as once. -/
theorem c35_repeated_call_wrong : ∃ d d' d'', DM.init .dm 3 "charge" = .ok d ∧
    d.removeCoherences farE 1 = .ok d' ∧ d'.removeCoherences farE 1 = .ok d'' ∧
    farE 1 = farE 3 ∧ d'.getIndDm0 1 3 1 = .ok 8 ∧ d''.getIndDm0 1 3 1 = .ok (-1) := by
  have key : (DM.init .dm 3 "charge" >>= fun d => d.removeCohBy (fun b bp => decide (b = 2 ↔ bp = 2))
      >>= fun d' => d'.removeCohBy (fun b bp => decide (b = 2 ↔ bp = 2)) >>= fun d'' =>
      d'.getIndDm0 1 3 1 >>= fun x => d''.getIndDm0 1 3 1 >>= fun y => .ok (x, y)) =
      .ok (8, -1) := by decide +kernel
  obtain ⟨d, h1, h⟩ := bind_iff.1 key
  obtain ⟨d', h2, h⟩ := bind_iff.1 h
  obtain ⟨d'', h3, h⟩ := bind_iff.1 h
  obtain ⟨x, h4, h⟩ := bind_iff.1 h
  obtain ⟨y, h5, h⟩ := bind_iff.1 h
  simp only [Except.ok.injEq, Prod.mk.injEq] at h
  refine ⟨d, d', d'', h1, ?_, ?_, by simp [farE], by rw [h4, h.1], by rw [h5, h.2]⟩
  · unfold DM.removeCoherences; rw [farE_keep]; exact h2
  · unfold DM.removeCoherences; rw [farE_keep]; exact h3

end Verif
