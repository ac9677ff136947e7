import Verif.Lemmas.DMDict

/-! `set_mapdm` as a list of labelled writes. -/

namespace Verif

/-- One call of `add_elem` without its label. -/
structure Wr where
  ch : Nat
  b : Nat
  bp : Nat
  dq : Bool
  cq : Bool
  deriving DecidableEq

/-- Execute one labelled write. -/
def DM.wr (d : DM) (st : MapSt) (x : Nat × Wr) : Py MapSt :=
  d.addElem st x.1 x.2.b x.2.bp x.2.ch x.2.dq x.2.cq

/-- The result of labelled writes `ws` to positions `R`. -/
structure WrOk (kind : DMKind) (size : Nat) (R : Wr → Nat) (ws : List (Nat × Wr)) (st : MapSt) :
    Prop where
  mlen : st.map.length = size
  blen : st.bool.length = size
  clen : st.conj.length = size
  hit : ∀ x ∈ ws, st.map[R x.2]? = some (x.1 : Int) ∧ st.bool[R x.2]? = some x.2.dq ∧
    (kind = .dm → st.conj[R x.2]? = some x.2.cq)
  miss : ∀ r, r < size → (∀ x ∈ ws, R x.2 ≠ r) →
    st.map[r]? = some (-1) ∧ st.bool[r]? = some false ∧ (kind = .dm → st.conj[r]? = some false)
  ind : kind ≠ .pauli → ∀ k v, st.ind.get? k = some v ↔
    ∃ x ∈ ws, x.1 = k ∧ x.2.dq = true ∧ v = (x.2.b, x.2.bp)

theorem setConj_ok (k : DMKind) (l : List Bool) (i : Nat) (v : Bool) (h : i < l.length) :
    setConj k l i v = .ok (if k = .dm then l.set i v else l) := by
  unfold setConj
  split
  · exact pySet_nat _ _ h
  · rfl

theorem writes_spec (d : DM) (size : Nat) (R : Wr → Nat) (ws : List (Nat × Wr))
    (hraw : ∀ x ∈ ws, d.rawInd0 x.2.b x.2.bp (x.2.ch : Int) = .ok (R x.2) ∧ R x.2 < size)
    (hnd : (ws.map fun x => R x.2).Nodup)
    (hlab : ((ws.filter fun x => x.2.dq).map Prod.fst).Nodup) :
    ∃ st, ws.foldlM d.wr (MapSt.mk (List.replicate size (-1)) (List.replicate size false)
      (List.replicate size false) []) = .ok st ∧ WrOk d.kind size R ws st := by
  induction ws using List.reverseRecOn with
  | nil =>
    refine ⟨_, rfl, ⟨by simp, by simp, by simp, by simp, ?_, by simp⟩⟩
    intro r hr _
    simp [hr]
  | append_singleton ws x ih =>
    rw [List.map_append, List.nodup_append] at hnd
    rw [List.filter_append, List.map_append, List.nodup_append] at hlab
    obtain ⟨st, e, h⟩ := ih (fun x hx => hraw x (by simp [hx])) hnd.1 hlab.1
    obtain ⟨hr1, hr2⟩ := hraw x (by simp)
    have hne : ∀ y ∈ ws, R y.2 ≠ R x.2 := by
      intro y hy
      exact hnd.2.2 _ (List.mem_map_of_mem hy) _ (by simp)
    rw [List.foldlM_append, e]
    simp only [py_bind_ok, List.foldlM_cons, List.foldlM_nil]
    unfold DM.wr DM.addElem
    have hl1 := h.mlen
    have hl2 := h.blen
    have hl3 := h.clen
    rw [hr1, py_bind_ok, pySet_nat _ _ (by omega), py_bind_ok, pySet_nat _ _ (by omega), py_bind_ok,
      setConj_ok _ _ _ _ (by omega), py_bind_ok]
    refine ⟨_, rfl, ⟨by simpa using hl1, by simpa using hl2, ?_, ?_, ?_, ?_⟩⟩
    · simp only
      split
      · simpa using hl3
      · exact hl3
    · intro y hy
      simp only [List.mem_append, List.mem_singleton] at hy
      rcases hy with hy | rfl
      · obtain ⟨g1, g2, g3⟩ := h.hit y hy
        have := hne y hy
        refine ⟨?_, ?_, ?_⟩
        · simp only; rw [List.getElem?_set_ne (Ne.symm this)]; exact g1
        · simp only; rw [List.getElem?_set_ne (Ne.symm this)]; exact g2
        · intro hk
          simp only [hk, if_true]; rw [List.getElem?_set_ne (Ne.symm this)]; exact g3 hk
      · refine ⟨?_, ?_, ?_⟩
        · simp only; rw [List.getElem?_set_self (by omega)]
        · simp only; rw [List.getElem?_set_self (by omega)]
        · intro hk
          simp only [hk, if_true]; rw [List.getElem?_set_self (by omega)]
    · intro r hr hmiss
      have hx : R x.2 ≠ r := hmiss x (by simp)
      obtain ⟨g1, g2, g3⟩ := h.miss r hr (fun y hy => hmiss y (by simp [hy]))
      refine ⟨?_, ?_, ?_⟩
      · simp only; rw [List.getElem?_set_ne hx]; exact g1
      · simp only; rw [List.getElem?_set_ne hx]; exact g2
      · intro hk
        simp only [hk, if_true]; rw [List.getElem?_set_ne hx]; exact g3 hk
    · intro hk k v
      simp only [hk, ne_eq, not_false_eq_true, and_true]
      cases hdq : x.2.dq with
      | false =>
        simp only [Bool.false_eq_true, if_false]
        rw [h.ind hk k v]
        constructor
        · rintro ⟨y, hy, h1, h2, h3⟩
          exact ⟨y, by simp [hy], h1, h2, h3⟩
        · rintro ⟨y, hy, h1, h2, h3⟩
          simp only [List.mem_append, List.mem_singleton] at hy
          rcases hy with hy | rfl
          · exact ⟨y, hy, h1, h2, h3⟩
          · rw [hdq] at h2; cases h2
      | true =>
        simp only [if_true]
        rw [Dict.get?_set]
        have hnew : ∀ y ∈ ws, y.2.dq = true → y.1 ≠ x.1 := by
          intro y hy hyd
          refine hlab.2.2 y.1 ?_ x.1 ?_
          · exact List.mem_map_of_mem (List.mem_filter.2 ⟨hy, hyd⟩)
          · simp [hdq]
        split
        · rename_i hkk
          subst hkk
          constructor
          · intro hv
            simp only [Option.some.injEq] at hv
            exact ⟨x, by simp, rfl, hdq, hv.symm⟩
          · rintro ⟨y, hy, h1, h2, h3⟩
            simp only [List.mem_append, List.mem_singleton] at hy
            rcases hy with hy | rfl
            · exact absurd h1 (hnew y hy h2)
            · rw [h3]
        · rename_i hkk
          rw [h.ind hk k v]
          constructor
          · rintro ⟨y, hy, h1, h2, h3⟩
            exact ⟨y, by simp [hy], h1, h2, h3⟩
          · rintro ⟨y, hy, h1, h2, h3⟩
            simp only [List.mem_append, List.mem_singleton] at hy
            rcases hy with hy | rfl
            · exact ⟨y, hy, h1, h2, h3⟩
            · exact absurd h1 hkk

/-! ### Groups of writes that share a label -/

/-- Label the groups by consecutive numbers. -/
def labelled (gs : List (List Wr)) (k : Nat) : List (Nat × Wr) :=
  (gs.zipIdx k).flatMap fun p => p.1.map fun w => (p.2, w)

theorem labelled_append (gs gs' : List (List Wr)) (k : Nat) :
    labelled (gs ++ gs') k = labelled gs k ++ labelled gs' (k + gs.length) := by
  simp [labelled, List.zipIdx_append]

theorem mem_labelled {gs : List (List Wr)} {k i : Nat} {w : Wr} :
    (i, w) ∈ labelled gs k ↔ k ≤ i ∧ ∃ g, gs[i - k]? = some g ∧ w ∈ g := by
  unfold labelled
  simp only [List.mem_flatMap, List.mem_map, Prod.mk.injEq, List.mem_zipIdx_iff_le_and_getElem?_sub]
  constructor
  · rintro ⟨⟨g, j⟩, ⟨h1, h2⟩, w', hw, rfl, rfl⟩
    exact ⟨h1, g, h2, hw⟩
  · rintro ⟨h1, g, h2, hw⟩
    exact ⟨(g, i), ⟨h1, h2⟩, w, hw, rfl, rfl⟩

theorem labelled_map_snd (gs : List (List Wr)) (k : Nat) :
    (labelled gs k).map Prod.snd = gs.flatten := by
  induction gs generalizing k with
  | nil => rfl
  | cons g gs ih =>
    have : labelled (g :: gs) k = g.map (fun w => (k, w)) ++ labelled gs (k + 1) := by
      simp [labelled]
    rw [this]
    simp [ih, Function.comp_def]

theorem labelled_dq_nodup (gs : List (List Wr)) (k : Nat)
    (h : ∀ g ∈ gs, (g.filter fun w => w.dq).length ≤ 1) :
    (((labelled gs k).filter fun x => x.2.dq).map Prod.fst).Nodup := by
  induction gs generalizing k with
  | nil => simp [labelled]
  | cons g gs ih =>
    have : labelled (g :: gs) k = g.map (fun w => (k, w)) ++ labelled gs (k + 1) := by
      simp [labelled]
    rw [this, List.filter_append, List.map_append, List.nodup_append]
    refine ⟨?_, ih _ (fun g hg => h g (by simp [hg])), ?_⟩
    · rw [List.filter_map, List.map_map]
      have hg := h g (by simp)
      have : (g.filter ((fun x : Nat × Wr => x.2.dq) ∘ fun w => (k, w)))
          = g.filter fun w => w.dq := rfl
      rw [this]
      generalize g.filter (fun w => w.dq) = l at hg ⊢
      match l, hg with
      | [], _ => simp
      | [a], _ => simp
      | a :: b :: l, h => simp at h
    · intro a ha b hb
      simp only [List.mem_map, List.mem_filter] at ha hb
      obtain ⟨⟨i, w⟩, ⟨⟨w', _, e⟩, _⟩, rfl⟩ := ha
      obtain ⟨⟨i', w''⟩, ⟨h1, _⟩, rfl⟩ := hb
      simp only [Prod.mk.injEq] at e
      have := (mem_labelled.1 h1).1
      simp only
      omega

/-- A loop whose body writes one group of elements with the current counter, or nothing. -/
theorem loop_groups {α : Type} (d : DM) (step : MapSt × Nat → α → Py (MapSt × Nat))
    (grp : α → Option (List Wr)) (xs : List α)
    (h : ∀ x ∈ xs, ∀ st, step st x = match grp x with
      | none => .ok st
      | some g => (g.map fun w => (st.2, w)).foldlM d.wr st.1 >>= fun m => .ok (m, st.2 + 1))
    (m : MapSt) (k : Nat) :
    xs.foldlM step (m, k) = (labelled (xs.filterMap grp) k).foldlM d.wr m >>= fun m' =>
      .ok (m', k + (xs.filterMap grp).length) := by
  induction xs generalizing m k with
  | nil => simp [labelled]
  | cons x xs ih =>
    rw [List.foldlM_cons, h x (by simp)]
    have ih' := fun m k => ih (fun x hx => h x (by simp [hx])) m k
    cases hg : grp x with
    | none =>
      simp only [py_bind_ok, List.filterMap_cons, hg]
      exact ih' m k
    | some g =>
      simp only [List.filterMap_cons, hg]
      have : labelled (g :: xs.filterMap grp) k
          = g.map (fun w => (k, w)) ++ labelled (xs.filterMap grp) (k + 1) := by
        simp [labelled]
      rw [this, List.foldlM_append]
      cases hx : (g.map fun w => (k, w)).foldlM d.wr m with
      | error e => rfl
      | ok m1 =>
        simp only [py_bind_ok]
        rw [ih' m1 (k + 1)]
        simp only [List.length_cons]
        congr 1
        funext m'
        congr 2
        omega

theorem foldlM_flatMap' {σ α β : Type} (f : α → σ → β → Py σ) (g : α → List β) (xs : List α)
    (s : σ) :
    xs.foldlM (fun s a => (g a).foldlM (f a) s) s
      = (xs.flatMap fun a => (g a).map fun b => (a, b)).foldlM (fun s p => f p.1 s p.2) s := by
  induction xs generalizing s with
  | nil => rfl
  | cons a xs ih =>
    rw [List.foldlM_cons, List.flatMap_cons, List.foldlM_append]
    have : ((g a).map fun b => (a, b)).foldlM (fun s p => f p.1 s p.2) s = (g a).foldlM (f a) s := by
      rw [List.foldlM_map]
    rw [this]
    congr 1
    funext s'
    exact ih s'

end Verif
