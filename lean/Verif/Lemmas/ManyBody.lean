import Verif.Lemmas.Restore
import Verif.Model.ManyBody

/-! Lemmas for systems given in the many-body basis. -/

namespace Verif

theorem intMin_spec {Na : List Int} {q : Int} (h1 : q ∈ Na) (h2 : ∀ x ∈ Na, q ≤ x) : intMin Na = .ok q := by
  have key : ∀ (l : List Int) (a : Int), (l.foldl min a ≤ a ∧ ∀ x ∈ l, l.foldl min a ≤ x) ∧
      l.foldl min a ∈ a :: l := by
    intro l
    induction l with
    | nil => intro a; simp
    | cons b l ih =>
      intro a
      obtain ⟨⟨i1, i2⟩, i3⟩ := ih (min a b)
      rw [List.foldl_cons]
      refine ⟨⟨by omega, ?_⟩, ?_⟩
      · intro x hx
        rcases List.mem_cons.1 hx with rfl | hx
        · omega
        · exact i2 x hx
      · rcases List.mem_cons.1 i3 with e | e
        · rw [e]
          rcases min_choice a b with e' | e' <;> rw [e'] <;> simp
        · simp [e]
  cases Na with
  | nil => simp at h1
  | cons a l =>
    obtain ⟨⟨i1, i2⟩, i3⟩ := key l a
    show Except.ok _ = _
    congr 1
    have h3 := h2 _ i3
    rcases List.mem_cons.1 h1 with rfl | h1
    · omega
    · have := i2 q h1; omega

theorem intMax_spec {Na : List Int} {q : Int} (h1 : q ∈ Na) (h2 : ∀ x ∈ Na, x ≤ q) : intMax Na = .ok q := by
  have key : ∀ (l : List Int) (a : Int), (a ≤ l.foldl max a ∧ ∀ x ∈ l, x ≤ l.foldl max a) ∧
      l.foldl max a ∈ a :: l := by
    intro l
    induction l with
    | nil => intro a; simp
    | cons b l ih =>
      intro a
      obtain ⟨⟨i1, i2⟩, i3⟩ := ih (max a b)
      rw [List.foldl_cons]
      refine ⟨⟨by omega, ?_⟩, ?_⟩
      · intro x hx
        rcases List.mem_cons.1 hx with rfl | hx
        · omega
        · exact i2 x hx
      · rcases List.mem_cons.1 i3 with e | e
        · rw [e]
          rcases max_choice a b with e' | e' <;> rw [e'] <;> simp
        · simp [e]
  cases Na with
  | nil => simp at h1
  | cons a l =>
    obtain ⟨⟨i1, i2⟩, i3⟩ := key l a
    show Except.ok _ = _
    congr 1
    have h3 := h2 _ i3
    rcases List.mem_cons.1 h1 with rfl | h1
    · omega
    · have := i2 q h1; omega

/-- The sectors when the charges are legal indices. -/
theorem sectors_ok (Na : List Int) (m : Nat) (k : Nat → Nat) (N : Nat) (hN : N ≤ Na.length)
    (hk : ∀ i q, i < N → Na[i]? = some q → pyIdx m q = .ok (k i)) :
    manyBodySectors Na m N = .ok ((List.range m).map fun c => (List.range N).filter fun i => k i = c) := by
  unfold manyBodySectors
  have key := foldlM_range_inv (f := fun (st : List (List Nat)) (i : Nat) => do
    let q ← pyGet Na (i : Nat)
    pyModify st q (· ++ [i])) (fun t st => st = (List.range m).map fun c =>
      (List.range t).filter fun i => decide (k i = c)) N (List.replicate m [])
    (by
      apply List.ext_getElem (by simp)
      intro i h1 h2
      simp)
    (by
      rintro t ht st rfl
      rw [pyGet_nat _ (by omega), py_bind_ok]
      have h1 := hk t Na[t] ht (List.getElem?_eq_getElem (by omega))
      have h2 := pyIdx_ok_lt h1
      unfold pyModify
      simp only [List.length_map, List.length_range, h1]
      refine ⟨_, rfl, ?_⟩
      apply List.ext_getElem (by simp)
      intro i h3 h4
      rw [List.getElem_modify]
      simp only [List.getElem_map, List.getElem_range, List.range_succ, List.filter_append]
      by_cases e : k t = i
      · simp [e]
      · simp [e])
  obtain ⟨st, e1, e2⟩ := key
  rw [e1, e2]

theorem foldlM_error {σ α : Type} {f : σ → α → Py σ} {e : PyErr} (xs : List α) (s : σ)
    (P : σ → Prop) (hs : P s) (hP : ∀ s a s', P s → a ∈ xs → f s a = .ok s' → P s')
    (herr : ∀ s a e', P s → a ∈ xs → f s a = .error e' → e' = e)
    (hbad : ∃ a ∈ xs, ∀ s, P s → f s a = .error e) : xs.foldlM f s = .error e := by
  induction xs generalizing s with
  | nil => obtain ⟨a, ha, _⟩ := hbad; simp at ha
  | cons x xs ih =>
    rw [List.foldlM_cons]
    cases hx : f s x with
    | error e' =>
      have := herr s x e' hs (by simp) hx
      subst this; rfl
    | ok s' =>
      refine ih s' (hP s x s' hs (by simp) hx) (fun s a s' h1 h2 h3 => hP s a s' h1 (by simp [h2]) h3)
        (fun s a e' h1 h2 h3 => herr s a e' h1 (by simp [h2]) h3) ?_
      obtain ⟨a, ha, hb⟩ := hbad
      rcases List.mem_cons.1 ha with rfl | ha
      · rw [hb s hs] at hx; cases hx
      · exact ⟨a, ha, hb⟩

/-- A charge that is not a legal index makes the loop raise. -/
theorem sectors_error (Na : List Int) (m N : Nat) (hN : N ≤ Na.length)
    (hbad : ∃ i q, i < N ∧ Na[i]? = some q ∧ pyIdx m q = .error .index) :
    manyBodySectors Na m N = .error .index := by
  unfold manyBodySectors
  have idxErr : ∀ {m : Nat} {q : Int} {e}, pyIdx m q = .error e → e = .index := by
    intro m q e h
    unfold pyIdx at h
    split at h
    · split at h
      · cases h
      · cases h; rfl
    · split at h
      · cases h
      · cases h; rfl
  refine foldlM_error _ _ (fun st => st.length = m) (by simp) ?_ ?_ ?_
  · intro s a s' hs ha e
    obtain ⟨q, _, e⟩ := bind_iff.1 e
    unfold pyModify at e
    split at e
    · cases e; simpa using hs
    · cases e
  · intro s a e' hs ha e
    have ha' := List.mem_range.1 ha
    rw [pyGet_nat _ (by omega), py_bind_ok] at e
    unfold pyModify at e
    split at e
    · cases e
    · rename_i h
      cases e
      exact idxErr h
  · obtain ⟨i, q, h1, h2, h3⟩ := hbad
    refine ⟨i, List.mem_range.2 h1, ?_⟩
    intro s hs
    rw [pyGet_of_getElem? h2, py_bind_ok]
    unfold pyModify
    rw [hs, h3]

/-- `set_statesdm` on an object of any shape, with an indexing other than 'sz' and 'ssq'. -/
theorem setStatesdm_gen {m N : Nat} {d : DM} {S : List (List Nat)} (hsh : DMShape m N d)
    (hg : GoodStates m N S) (hix : d.si.indexing ≠ .ssq) (hix' : d.si.indexing ≠ .sz) :
    ∃ d', d.setStatesdm S = .ok d' ∧ d'.kind = d.kind ∧ d'.si = { d.si with statesChanged := true } ∧
      d'.statesdm = S ++ [[]] ∧ DictOk m N S d' ∧ Sizes m S d' ∧
      (d.kind = .dm → LabDM m S (fun _ _ => true) d') ∧
      (d.kind = .dmc → LabDMc m S (fun _ _ => true) d') ∧ (d.kind = .pauli → LabP m S d') := by
  have hcount : countStates d.si.ncharge (if d.kind = .dm then S else S ++ [[]])
      = .ok (pre (rowLen S) m, pre (fun c => rowLen S c ^ 2) m,
        pre (fun c => rowLen S c * rowLen S (c + 1)) (m - 1)) := by
    rw [hsh.ncharge]
    have hl := hg.len
    split
    · exact countStates_eq _ _ hl
    · rw [countStates_eq _ _ (by simp; omega)]
      have : ∀ c, c < m → rowLen (S ++ [[]]) c = rowLen S c := by
        intro c hc
        simp only [rowLen, rowOf]
        rw [List.getElem?_append_left (by omega)]
      congr 1
      refine Prod.ext (pre_congr (by simpa using this)) (Prod.ext (pre_congr ?_) (pre_congr ?_))
      · intro c hc; simp only [this c hc]
      · intro c hc; simp only [this c (by omega), this (c + 1) (by omega)]
  have hset : d.setStatesdm S = (do
      let d1 ← (d.counted S m).setDictdm
      let d2 ← d1.setMapdm
      pure { d2 with si := { d2.si with statesChanged := true } }) := by
    unfold DM.setStatesdm
    simp only [hcount, py_bind_ok]
    rfl
  obtain ⟨d1, e1, sh1, dk1, so1⟩ := setDictdm_spec m N S (d.counted S m)
    ⟨hsh.ncharge, hsh.pos, hsh.len, hsh.s0, hsh.s00, hsh.s1, hsh.s10, hsh.dict⟩ hg
    (fun c hc => rfl)
  rw [e1] at hset
  simp only [py_bind_ok] at hset
  obtain ⟨k1, k2, k3, k4, k5, k6, k7, k8⟩ := so1
  simp only [DM.counted] at k1 k2 k3 k4 k5 k6 k7 k8
  have hrows : ∀ c, c < m → pyGet d1.statesdm (c : Int) = .ok (rowOf S c) := by
    intro c hc
    have hl := hg.len
    rw [k3, pyGet_nat _ (by simp; omega), List.getElem_append_left (by omega)]
    simp [rowOf, show c < S.length by omega]
  have hready : MapReady m N S (fun _ => 0) d1 :=
    ⟨sh1.ncharge, dk1, hg, hrows, k4, k5, by rw [k2]; exact hix,
      fun hz => absurd (by rw [k2] at hz; exact hz) hix'⟩
  have hincl : ∀ z, inclOf d1.si.indexing z = fun _ _ => true := by
    intro z
    funext b bp
    rw [k2]
    unfold inclOf
    cases h : d.si.indexing <;> simp_all
  have hmap : ∃ d2, d1.setMapdm = .ok d2 ∧ (d.kind = .dm → LabDM m S (fun _ _ => true) d2) ∧
      (d.kind = .dmc → LabDMc m S (fun _ _ => true) d2) ∧ (d.kind = .pauli → LabP m S d2) := by
    cases hkd : d.kind with
    | dm =>
      obtain ⟨d2, a1, _, a3⟩ := setMapdm_dm hready (by rw [k1, hkd])
      rw [hincl] at a3
      exact ⟨d2, a1, fun _ => a3, by simp, by simp⟩
    | dmc =>
      obtain ⟨d2, a1, _, a3⟩ := setMapdm_dmc hready (by rw [k1, hkd])
      rw [hincl] at a3
      exact ⟨d2, a1, by simp, fun _ => a3, by simp⟩
    | pauli =>
      obtain ⟨d2, a1, _, a3⟩ := setMapdm_pauli hready (by rw [k1, hkd])
      exact ⟨d2, a1, by simp, by simp, fun _ => a3⟩
  obtain ⟨d2, hx, a2, a3, a4⟩ := hmap
  obtain ⟨s1, s2, s3, s4, s5, s6, s7, s8, s9, s10, s11, s12, s13⟩ := setMapdm_same d1 d2 hx
  rw [hx] at hset
  refine ⟨_, hset, by simp only [s1, k1], by simp only [s2, k2], by simp only [s3, k3], ?_, ?_, ?_, ?_, ?_⟩
  · exact ⟨by simp only [s7]; exact dk1.len, by simp only [s8, s1]; exact dk1.s0,
      by simp only [s9]; exact dk1.s1, by simp only [s10]; exact dk1.dict⟩
  · exact ⟨by simp only [s4, k4], by simp only [s5, k5], by simp only [s6, k6], by simp only [s13, s6]⟩
  · intro h
    obtain ⟨b1, b2, b3, b4, b5, b6, b7, b8, b9, b10, b11⟩ := a2 h
    exact ⟨b1, b2, b3, b4, b5, b6, b7, b8, b9, b10, b11⟩
  · intro h
    obtain ⟨b1, b2, b3, b4, b5, b6, b7, b8, b9⟩ := a3 h
    exact ⟨b1, b2, b3, b4, b5, b6, b7, b8, b9⟩
  · intro h
    obtain ⟨b1, b2⟩ := a4 h
    exact ⟨b1, b2⟩

end Verif
