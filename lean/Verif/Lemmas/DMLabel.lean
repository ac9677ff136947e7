import Verif.Lemmas.DMMap

/-! Labels of density matrix elements for 'Lin', 'charge' and 'sz' indexing. -/

namespace Verif

/-! ### Pairs -/

theorem combs2_mem {l : List Nat} {p : Nat × Nat} (h : p ∈ combs2 l) : p.1 ∈ l ∧ p.2 ∈ l := by
  induction l with
  | nil => simp [combs2] at h
  | cons a l ih =>
    simp only [combs2, List.mem_append, List.mem_map] at h
    rcases h with ⟨b, hb, rfl⟩ | h
    · simp [hb]
    · have := ih h; simp [this]

theorem combs2_ne {l : List Nat} (hn : l.Nodup) {p : Nat × Nat} (h : p ∈ combs2 l) :
    p.1 ≠ p.2 := by
  induction l with
  | nil => simp [combs2] at h
  | cons a l ih =>
    rw [List.nodup_cons] at hn
    simp only [combs2, List.mem_append, List.mem_map] at h
    rcases h with ⟨b, hb, rfl⟩ | h
    · simp only; rintro rfl; exact hn.1 hb
    · exact ih hn.2 h

theorem combs2_asymm {l : List Nat} (hn : l.Nodup) {b bp : Nat} (h : (b, bp) ∈ combs2 l) :
    (bp, b) ∉ combs2 l := by
  induction l with
  | nil => simp [combs2]
  | cons a l ih =>
    rw [List.nodup_cons] at hn
    simp only [combs2, List.mem_append, List.mem_map, Prod.mk.injEq] at h ⊢
    rintro (⟨x, hx, rfl, rfl⟩ | h2)
    · rcases h with ⟨y, hy, rfl, rfl⟩ | h
      · exact hn.1 hx
      · exact hn.1 (combs2_mem h).2
    · rcases h with ⟨y, hy, rfl, rfl⟩ | h
      · exact hn.1 (combs2_mem h2).2
      · exact ih hn.2 h h2

theorem combs2_nodup {l : List Nat} (hn : l.Nodup) : (combs2 l).Nodup := by
  induction l with
  | nil => simp [combs2]
  | cons a l ih =>
    rw [List.nodup_cons] at hn
    rw [combs2, List.nodup_append]
    refine ⟨hn.2.map (fun x y h => by simpa using h), ih hn.2, ?_⟩
    rintro _ hx p hp rfl
    simp only [List.mem_map] at hx
    obtain ⟨y, hy, rfl⟩ := hx
    exact hn.1 (combs2_mem hp).1

theorem combs2_complete {l : List Nat} {b bp : Nat} (hb : b ∈ l) (hbp : bp ∈ l) (hne : b ≠ bp) :
    (b, bp) ∈ combs2 l ∨ (bp, b) ∈ combs2 l := by
  induction l with
  | nil => simp at hb
  | cons a l ih =>
    simp only [combs2, List.mem_append, List.mem_map, Prod.mk.injEq]
    simp only [List.mem_cons] at hb hbp
    rcases hb with rfl | hb
    · rcases hbp with rfl | hbp
      · exact absurd rfl hne
      · exact Or.inl (Or.inl ⟨bp, hbp, rfl, rfl⟩)
    · rcases hbp with rfl | hbp
      · exact Or.inr (Or.inl ⟨b, hb, rfl, rfl⟩)
      · rcases ih hb hbp with h | h
        · exact Or.inl (Or.inr h)
        · exact Or.inr (Or.inr h)

theorem combs2_length (l : List Nat) : 2 * (combs2 l).length + l.length = l.length ^ 2 := by
  induction l with
  | nil => rfl
  | cons a l ih =>
    simp only [combs2, List.length_append, List.length_map, List.length_cons]
    have : (l.length + 1) ^ 2 = l.length ^ 2 + 2 * l.length + 1 := by ring
    rw [this]; omega

theorem perms2_mem {l : List Nat} (hn : l.Nodup) {b bp : Nat} :
    (b, bp) ∈ perms2 l ↔ b ∈ l ∧ bp ∈ l ∧ b ≠ bp := by
  unfold perms2
  simp only [List.mem_flatMap, List.mem_filterMap]
  constructor
  · rintro ⟨⟨x, i⟩, hx, ⟨y, j⟩, hy, h⟩
    split at h
    · cases h
    · rename_i hij
      simp only [Option.some.injEq, Prod.mk.injEq] at h hij
      obtain ⟨rfl, rfl⟩ := h
      have h1 := List.mem_zipIdx_iff_getElem?.1 hx
      have h2 := List.mem_zipIdx_iff_getElem?.1 hy
      simp only at h1 h2
      refine ⟨List.mem_of_getElem? h1, List.mem_of_getElem? h2, ?_⟩
      rintro rfl
      obtain ⟨a1, a2⟩ := List.getElem?_eq_some_iff.1 h1
      obtain ⟨b1, b2⟩ := List.getElem?_eq_some_iff.1 h2
      exact hij ((hn.getElem_inj_iff (hi := a1) (hj := b1)).1 (by rw [a2, b2]))
  · rintro ⟨h1, h2, hne⟩
    obtain ⟨i, hi, e1⟩ := List.getElem_of_mem h1
    obtain ⟨j, hj, e2⟩ := List.getElem_of_mem h2
    refine ⟨(b, i), List.mem_zipIdx_iff_getElem?.2 (by simp [hi, e1]), (bp, j),
      List.mem_zipIdx_iff_getElem?.2 (by simp [hj, e2]), ?_⟩
    rw [if_neg]
    simp only
    rintro rfl
    exact hne (by rw [← e1, ← e2])

theorem zipIdx_nodup' {α : Type} (l : List α) : l.zipIdx.Nodup := by
  have : (l.zipIdx.map Prod.snd).Nodup := by
    simp only [List.zipIdx_map_snd]; exact List.nodup_range'
  exact List.Nodup.of_map _ this

theorem perms2_nodup {l : List Nat} (hn : l.Nodup) : (perms2 l).Nodup := by
  unfold perms2
  rw [List.nodup_flatMap]
  have hzi : ∀ p ∈ l.zipIdx, ∀ p' ∈ l.zipIdx, p.1 = p'.1 → p = p' := by
    rintro ⟨x, i⟩ hx ⟨y, j⟩ hy h
    have h1 := List.mem_zipIdx_iff_getElem?.1 hx
    have h2 := List.mem_zipIdx_iff_getElem?.1 hy
    simp only at h1 h2 h
    subst h
    obtain ⟨a1, a2⟩ := List.getElem?_eq_some_iff.1 h1
    obtain ⟨b1, b2⟩ := List.getElem?_eq_some_iff.1 h2
    rw [(hn.getElem_inj_iff (hi := a1) (hj := b1)).1 (by rw [a2, b2])]
  constructor
  · intro p hp
    have hz := zipIdx_nodup' l
    generalize hL : l.zipIdx = L at hz hzi
    clear hL hp
    induction L with
    | nil => simp
    | cons a L ih =>
      rw [List.nodup_cons] at hz
      have ih' := ih hz.2 (fun p hp p' hp' => hzi p (by simp [hp]) p' (by simp [hp']))
      rw [List.filterMap_cons]
      split
      · exact ih'
      · rename_i y hy
        rw [List.nodup_cons]
        refine ⟨?_, ih'⟩
        intro hmem
        obtain ⟨a', ha', he⟩ := List.mem_filterMap.1 hmem
        split at hy
        · cases hy
        · split at he
          · cases he
          · rw [← hy] at he
            simp only [Option.some.injEq, Prod.mk.injEq, true_and] at he
            have := hzi a' (by simp [ha']) a (by simp) he
            subst this
            exact hz.1 ha'
  · refine List.Pairwise.imp_of_mem ?_ (zipIdx_nodup' l)
    intro p p' hp hp' hne
    intro x hx hx'
    obtain ⟨q, _, hq⟩ := List.mem_filterMap.1 hx
    obtain ⟨q', _, hq'⟩ := List.mem_filterMap.1 hx'
    split at hq
    · cases hq
    · split at hq'
      · cases hq'
      · simp only [Option.some.injEq] at hq hq'
        rw [← hq] at hq'
        simp only [Prod.mk.injEq] at hq'
        exact hne (hzi p hp p' hp' hq'.1.symm)

theorem perms2_length {l : List Nat} (hn : l.Nodup) :
    (perms2 l).length + l.length = l.length ^ 2 := by
  have : (perms2 l).Perm (combs2 l ++ (combs2 l).map fun p => (p.2, p.1)) := by
    rw [List.perm_ext_iff_of_nodup (perms2_nodup hn)]
    · rintro ⟨b, bp⟩
      rw [perms2_mem hn]
      simp only [List.mem_append, List.mem_map, Prod.mk.injEq]
      constructor
      · rintro ⟨h1, h2, h3⟩
        rcases combs2_complete h1 h2 h3 with h | h
        · exact Or.inl h
        · exact Or.inr ⟨_, h, rfl, rfl⟩
      · rintro (h | ⟨⟨x, y⟩, h, rfl, rfl⟩)
        · exact ⟨(combs2_mem h).1, (combs2_mem h).2, combs2_ne hn h⟩
        · exact ⟨(combs2_mem h).2, (combs2_mem h).1, (combs2_ne hn h).symm⟩
    · rw [List.nodup_append]
      refine ⟨combs2_nodup hn, (combs2_nodup hn).map ?_, ?_⟩
      · rintro ⟨a, b⟩ ⟨c, d⟩ h; simp at h ⊢; exact ⟨h.2, h.1⟩
      · rintro ⟨a, b⟩ h1 p h2 rfl
        simp only [List.mem_map, Prod.mk.injEq] at h2
        obtain ⟨⟨x, y⟩, h, rfl, rfl⟩ := h2
        exact combs2_asymm hn h h1
  rw [this.length_eq, List.length_append, List.length_map]
  have := combs2_length l
  omega

/-! ### Lists of elements in the order of the loops -/

/-- The states in the order of the loops. -/
def diagItems (S : List (List Nat)) (m : Nat) : List (Nat × Nat) :=
  (List.range m).flatMap fun c => (rowOf S c).map fun b => (c, b)

/-- The pairs in the order of the loops. -/
def pairItems (f : List Nat → List (Nat × Nat)) (S : List (List Nat)) (m : Nat) :
    List (Nat × (Nat × Nat)) :=
  (List.range m).flatMap fun c => (f (rowOf S c)).map fun p => (c, p)

theorem diagItems_length (S : List (List Nat)) (m : Nat) :
    (diagItems S m).length = pre (rowLen S) m := by
  induction m with
  | zero => rfl
  | succ m ih =>
    unfold diagItems at *
    rw [List.range_succ, List.flatMap_append, List.length_append, ih, pre_succ]
    simp [rowLen]

theorem diagItems_get (S : List (List Nat)) (m c b : Nat) (hc : c < m) (hb : b ∈ rowOf S c) :
    (diagItems S m)[posP S c b]? = some (c, b) := by
  induction m with
  | zero => omega
  | succ m ih =>
    have hstep : diagItems S (m + 1) = diagItems S m ++ (rowOf S m).map fun b => (m, b) := by
      unfold diagItems
      rw [List.range_succ, List.flatMap_append]
      simp
    rw [hstep]
    by_cases h : c < m
    · rw [List.getElem?_append_left (by rw [diagItems_length]; exact posP_lt h hb)]
      exact ih h
    · have : c = m := by omega
      subst this
      rw [List.getElem?_append_right (by rw [diagItems_length]; unfold posP; omega),
        diagItems_length]
      unfold posP
      rw [Nat.add_sub_cancel_left, List.getElem?_map]
      have : (rowOf S c).idxOf b < (rowOf S c).length := idx_lt hb
      rw [List.getElem?_eq_getElem this, List.getElem_idxOf]
      rfl

theorem mem_diagItems {S : List (List Nat)} {m c b : Nat} :
    (c, b) ∈ diagItems S m ↔ c < m ∧ b ∈ rowOf S c := by
  unfold diagItems
  simp only [List.mem_flatMap, List.mem_range, List.mem_map, Prod.mk.injEq]
  constructor
  · rintro ⟨c', h, b', hb, rfl, rfl⟩; exact ⟨h, hb⟩
  · rintro ⟨h, hb⟩; exact ⟨c, h, b, hb, rfl, rfl⟩

theorem mem_pairItems {f : List Nat → List (Nat × Nat)} {S : List (List Nat)} {m c : Nat}
    {p : Nat × Nat} : (c, p) ∈ pairItems f S m ↔ c < m ∧ p ∈ f (rowOf S c) := by
  unfold pairItems
  simp only [List.mem_flatMap, List.mem_range, List.mem_map, Prod.mk.injEq]
  constructor
  · rintro ⟨c', h, b', hb, rfl, rfl⟩; exact ⟨h, hb⟩
  · rintro ⟨h, hb⟩; exact ⟨c, h, p, hb, rfl, rfl⟩

theorem diagItems_nodup {S : List (List Nat)} {m : Nat} (hn : ∀ c, c < m → (rowOf S c).Nodup) :
    (diagItems S m).Nodup := by
  unfold diagItems
  rw [List.nodup_flatMap]
  constructor
  · intro c hc
    exact (hn c (by simpa using hc)).map (fun x y h => by simpa using h)
  · refine List.Pairwise.imp ?_ List.nodup_range
    intro c c' hne x hx hx'
    simp only [List.mem_map] at hx hx'
    obtain ⟨_, _, rfl⟩ := hx
    obtain ⟨_, _, h⟩ := hx'
    simp only [Prod.mk.injEq] at h
    exact hne h.1.symm

theorem pairItems_nodup {f : List Nat → List (Nat × Nat)} {S : List (List Nat)} {m : Nat}
    (hn : ∀ c, c < m → (f (rowOf S c)).Nodup) : (pairItems f S m).Nodup := by
  unfold pairItems
  rw [List.nodup_flatMap]
  constructor
  · intro c hc
    exact (hn c (by simpa using hc)).map (fun x y h => by simpa using h)
  · refine List.Pairwise.imp ?_ List.nodup_range
    intro c c' hne x hx hx'
    simp only [List.mem_map] at hx hx'
    obtain ⟨_, _, rfl⟩ := hx
    obtain ⟨_, _, h⟩ := hx'
    simp only [Prod.mk.injEq] at h
    exact hne h.1.symm

/-- The diagonal group of a state. -/
def gDiag (x : Nat × Nat) : Option (List Wr) := some [⟨x.1, x.2, x.2, true, true⟩]

/-- The group of an off-diagonal pair in `StateIndexingDM`. -/
def gPair (incl : Nat → Nat → Bool) (x : Nat × (Nat × Nat)) : Option (List Wr) :=
  if incl x.2.1 x.2.2 then
    some [⟨x.1, x.2.2, x.2.1, false, false⟩, ⟨x.1, x.2.1, x.2.2, true, true⟩]
  else none

/-- The group of an off-diagonal pair in `StateIndexingDMc`. -/
def gPairC (incl : Nat → Nat → Bool) (x : Nat × (Nat × Nat)) : Option (List Wr) :=
  if incl x.2.1 x.2.2 then some [⟨x.1, x.2.1, x.2.2, true, true⟩] else none

/-- Which off-diagonal elements are included: all ('Lin', 'charge'), or those with equal spin
projection `z` ('sz'). -/
def inclOf (ix : Indexing) (z : Nat → Int) (b bp : Nat) : Bool :=
  if ix = .sz then decide (z b = z bp) else true

/-- What the proofs need to know about an object before `set_mapdm`. -/
structure MapReady (m N : Nat) (S : List (List Nat)) (z : Nat → Int) (d : DM) : Prop where
  ncharge : d.si.ncharge = m
  dict : DictOk m N S d
  good : GoodStates m N S
  rows : ∀ c, c < m → pyGet d.statesdm (c : Int) = .ok (rowOf S c)
  npauli : d.npauli_ = pre (rowLen S) m
  ndm0 : d.ndm0_ = pre (fun c => rowLen S c ^ 2) m
  noSsq : d.si.indexing ≠ .ssq
  qz : d.si.indexing = .sz → ∀ c, c < m → ∀ b ∈ rowOf S c, d.si.qnSz b = .ok (z b)

section
variable {m N : Nat} {S : List (List Nat)} {z : Nat → Int} {d : DM}

theorem foldlM_congr_mem {σ α : Type} {f g : σ → α → Py σ} (xs : List α) (s : σ)
    (h : ∀ a ∈ xs, ∀ s, f s a = g s a) : xs.foldlM f s = xs.foldlM g s := by
  induction xs generalizing s with
  | nil => rfl
  | cons a xs ih =>
    rw [List.foldlM_cons, List.foldlM_cons, h a (by simp)]
    congr 1
    funext s'
    exact ih s' (fun a ha => h a (by simp [ha]))

theorem MapReady.diagLoop (h : MapReady m N S z d) (m0 : MapSt) (k : Nat) :
    (List.range m).foldlM (fun st charge => do
      let l ← pyGet d.statesdm (charge : Nat)
      l.foldlM (d.diagStep charge) st) (m0, k)
    = (labelled ((diagItems S m).filterMap gDiag) k).foldlM d.wr m0 >>= fun m' =>
      .ok (m', k + ((diagItems S m).filterMap gDiag).length) := by
  rw [foldlM_congr_mem (g := fun st charge => (rowOf S charge).foldlM (d.diagStep charge) st),
    foldlM_flatMap' (fun c => d.diagStep c) (rowOf S)]
  · apply loop_groups d _ gDiag
    rintro ⟨c, b⟩ _ st
    simp only [gDiag, DM.diagStep, h.noSsq, if_false, List.map_cons, List.map_nil,
      List.foldlM_cons, List.foldlM_nil]
    unfold DM.wr
    simp
  · intro c hc s
    rw [h.rows c (by simpa using hc)]
    rfl

theorem MapReady.offLoop_dm (h : MapReady m N S z d) (hk : d.kind = .dm) (m0 : MapSt) (k : Nat) :
    d.offLoop (m0, k) = (labelled ((pairItems combs2 S m).filterMap
        (gPair (inclOf d.si.indexing z))) k).foldlM d.wr m0 >>= fun m' =>
      .ok (m', k + ((pairItems combs2 S m).filterMap (gPair (inclOf d.si.indexing z))).length) := by
  unfold DM.offLoop
  rw [hk, h.ncharge]
  simp only
  rw [foldlM_congr_mem
    (g := fun st charge => (combs2 (rowOf S charge)).foldlM (d.offStepDM charge) st),
    foldlM_flatMap' (fun c => d.offStepDM c) (fun c => combs2 (rowOf S c))]
  · apply loop_groups d _ (gPair (inclOf d.si.indexing z))
    rintro ⟨c, b, bp⟩ hx st
    obtain ⟨hc, hp⟩ := mem_pairItems.1 (show (c, (b, bp)) ∈ pairItems combs2 S m from hx)
    obtain ⟨hb, hbp⟩ := combs2_mem hp
    simp only at hb hbp
    have hno := h.noSsq
    unfold DM.offStepDM gPair inclOf
    cases hix : d.si.indexing with
    | sz =>
      simp only [h.qz hix c hc b hb, h.qz hix c hc bp hbp, py_bind_ok, if_true, decide_eq_true_eq]
      by_cases hz : z b = z bp
      · simp [hz, DM.wr]
      · simp [hz]
    | ssq => exact absurd hix hno
    | Lin => simp [DM.wr]
    | charge => simp [DM.wr]
  · intro c hc s
    rw [h.rows c (by simpa using hc)]
    rfl

theorem MapReady.offLoop_dmc (h : MapReady m N S z d) (hk : d.kind = .dmc) (m0 : MapSt) (k : Nat) :
    d.offLoop (m0, k) = (labelled ((pairItems perms2 S m).filterMap
        (gPairC (inclOf d.si.indexing z))) k).foldlM d.wr m0 >>= fun m' =>
      .ok (m', k + ((pairItems perms2 S m).filterMap (gPairC (inclOf d.si.indexing z))).length) := by
  unfold DM.offLoop
  rw [hk, h.ncharge]
  simp only
  rw [foldlM_congr_mem
    (g := fun st charge => (perms2 (rowOf S charge)).foldlM (d.offStepDMc charge) st),
    foldlM_flatMap' (fun c => d.offStepDMc c) (fun c => perms2 (rowOf S c))]
  · apply loop_groups d _ (gPairC (inclOf d.si.indexing z))
    rintro ⟨c, b, bp⟩ hx st
    obtain ⟨hc, hp⟩ := mem_pairItems.1 (show (c, (b, bp)) ∈ pairItems perms2 S m from hx)
    obtain ⟨hb, hbp, _⟩ := (perms2_mem (h.good.nodup c hc)).1 hp
    have hno := h.noSsq
    unfold DM.offStepDMc gPairC inclOf
    cases hix : d.si.indexing with
    | sz =>
      simp only [h.qz hix c hc b hb, h.qz hix c hc bp hbp, py_bind_ok, if_true, decide_eq_true_eq]
      by_cases hz : z b = z bp
      · simp [hz, DM.wr]
      · simp [hz]
    | ssq => exact absurd hix hno
    | Lin => simp [DM.wr]
    | charge => simp [DM.wr]
  · intro c hc s
    rw [h.rows c (by simpa using hc)]
    rfl


end

/-! ### `StateIndexingDM` -/

/-- The labels of `StateIndexingDM`. -/
structure LabDM (m : Nat) (S : List (List Nat)) (incl : Nat → Nat → Bool) (d : DM) : Prop where
  npauli : d.npauli = pre (rowLen S) m
  le : d.npauli ≤ d.ndm0
  ndm0r : d.ndm0r = d.npauli + 2 * (d.ndm0 - d.npauli)
  diag : ∀ c b, c < m → b ∈ rowOf S c →
    d.getIndDm0 b b (c : Int) = .ok (posP S c b : Int) ∧ d.getBoolDm0 b b (c : Int) = .ok true ∧
    d.getConjDm0 b b (c : Int) = .ok true ∧ d.mp.ind.get? (posP S c b) = some (b, b)
  off : ∀ c b bp, c < m → b ∈ rowOf S c → bp ∈ rowOf S c → b ≠ bp → incl b bp = true →
    ∃ (k : Nat) (x : Bool), d.npauli ≤ k ∧ k < d.ndm0 ∧
      d.getIndDm0 b bp (c : Int) = .ok (k : Int) ∧ d.getIndDm0 bp b (c : Int) = .ok (k : Int) ∧
      d.getBoolDm0 b bp (c : Int) = .ok x ∧ d.getBoolDm0 bp b (c : Int) = .ok (!x) ∧
      d.getConjDm0 b bp (c : Int) = .ok x ∧ d.getConjDm0 bp b (c : Int) = .ok (!x) ∧
      d.mp.ind.get? k = some (if x then (b, bp) else (bp, b))
  excl : ∀ c b bp, c < m → b ∈ rowOf S c → bp ∈ rowOf S c → b ≠ bp → incl b bp = false →
    d.getIndDm0 b bp (c : Int) = .ok (-1) ∧ d.getBoolDm0 b bp (c : Int) = .ok false ∧
    d.getConjDm0 b bp (c : Int) = .ok false
  inj : ∀ c b bp c' b' bp', c < m → b ∈ rowOf S c → bp ∈ rowOf S c → b ≠ bp → incl b bp = true →
    c' < m → b' ∈ rowOf S c' → bp' ∈ rowOf S c' → b' ≠ bp' → incl b' bp' = true →
    d.getIndDm0 b bp (c : Int) = d.getIndDm0 b' bp' (c' : Int) →
    c = c' ∧ ((b = b' ∧ bp = bp') ∨ (b = bp' ∧ bp = b'))
  surj : ∀ k, d.npauli ≤ k → k < d.ndm0 → ∃ c b bp, c < m ∧ b ∈ rowOf S c ∧ bp ∈ rowOf S c ∧
    b ≠ bp ∧ incl b bp = true ∧ d.getIndDm0 b bp (c : Int) = .ok (k : Int) ∧
    d.getBoolDm0 b bp (c : Int) = .ok true
  indlt : ∀ k v, d.mp.ind.get? k = some v → k < d.ndm0
  full : (∀ b bp, incl b bp = true) → d.ndm0r = pre (fun c => rowLen S c ^ 2) m
  ord : ∀ c b bp, c < m → (b, bp) ∈ combs2 (rowOf S c) → incl b bp = true →
    d.getBoolDm0 b bp (c : Int) = .ok true

theorem filterMap_getElem?_of_all_some {α β : Type} (f : α → β) (l : List α) (i : Nat) :
    (l.filterMap fun a => some (f a))[i]? = l[i]?.map f := by
  simp

theorem gDiag_eq (S : List (List Nat)) (m : Nat) : (diagItems S m).filterMap gDiag
    = (diagItems S m).map fun x => [⟨x.1, x.2, x.2, true, true⟩] := by
  unfold gDiag
  rw [List.filterMap_eq_map']

theorem mem_filterMap_gPair {incl : Nat → Nat → Bool} {l : List (Nat × (Nat × Nat))}
    {g : List Wr} : g ∈ l.filterMap (gPair incl) ↔ ∃ c b bp, (c, (b, bp)) ∈ l ∧
      incl b bp = true ∧ g = [⟨c, bp, b, false, false⟩, ⟨c, b, bp, true, true⟩] := by
  simp only [List.mem_filterMap, gPair]
  constructor
  · rintro ⟨⟨c, b, bp⟩, h, e⟩
    split at e
    · rename_i hi
      simp only [Option.some.injEq] at e
      exact ⟨c, b, bp, h, hi, e.symm⟩
    · cases e
  · rintro ⟨c, b, bp, h, hi, rfl⟩
    exact ⟨(c, (b, bp)), h, by simp [hi]⟩

theorem mem_filterMap_gPairC {incl : Nat → Nat → Bool} {l : List (Nat × (Nat × Nat))}
    {g : List Wr} : g ∈ l.filterMap (gPairC incl) ↔ ∃ c b bp, (c, (b, bp)) ∈ l ∧
      incl b bp = true ∧ g = [⟨c, b, bp, true, true⟩] := by
  simp only [List.mem_filterMap, gPairC]
  constructor
  · rintro ⟨⟨c, b, bp⟩, h, e⟩
    split at e
    · rename_i hi
      simp only [Option.some.injEq] at e
      exact ⟨c, b, bp, h, hi, e.symm⟩
    · cases e
  · rintro ⟨c, b, bp, h, hi, rfl⟩
    exact ⟨(c, (b, bp)), h, by simp [hi]⟩

/-- Triple addressed by a write. -/
def Wr.key (w : Wr) : Nat × Nat × Nat := (w.ch, w.b, w.bp)

theorem flatten_gPair_nodup {incl : Nat → Nat → Bool} (l : List (Nat × (Nat × Nat)))
    (hn : l.Nodup) (hne : ∀ c b bp, (c, (b, bp)) ∈ l → b ≠ bp ∧ (c, (bp, b)) ∉ l) :
    ((l.filterMap (gPair incl)).flatten.map Wr.key).Nodup := by
  induction l with
  | nil => simp
  | cons x l ih =>
    obtain ⟨c, b, bp⟩ := x
    rw [List.nodup_cons] at hn
    have ih' := ih hn.2 (fun c b bp h => by
      have := hne c b bp (by simp [h])
      exact ⟨this.1, fun h2 => this.2 (by simp [h2])⟩)
    rw [List.filterMap_cons]
    unfold gPair
    by_cases hi : incl b bp = true
    · simp only [hi, if_true, List.flatten_cons, List.map_append, List.map_cons, List.map_nil]
      rw [List.nodup_append]
      obtain ⟨h1, h2⟩ := hne c b bp (by simp)
      refine ⟨by simp [Wr.key]; intro h; exact absurd h.symm h1, ih', ?_⟩
      intro k hk k' hk' e
      subst e
      simp only [List.mem_map, List.mem_flatten] at hk'
      obtain ⟨w, ⟨g, hg, hw⟩, rfl⟩ := hk'
      obtain ⟨c', x, y, hmem, _, rfl⟩ := mem_filterMap_gPair.1 hg
      simp only [List.mem_cons, List.not_mem_nil, or_false] at hw hk
      have h3 : (c, (b, bp)) ∉ l := hn.1
      have h4 : (c, (bp, b)) ∉ l := fun h => h2 (by simp [h])
      have key : c' = c ∧ ((x = b ∧ y = bp) ∨ (x = bp ∧ y = b)) := by
        rcases hw with rfl | rfl <;> rcases hk with hk | hk <;>
          simp only [Wr.key, Prod.mk.injEq] at hk <;> tauto
      obtain ⟨rfl, ⟨rfl, rfl⟩ | ⟨rfl, rfl⟩⟩ := key
      · exact h3 hmem
      · exact h4 hmem
    · simp only [hi, Bool.false_eq_true, if_false]
      exact ih'

theorem flatten_gPairC_nodup {incl : Nat → Nat → Bool} (l : List (Nat × (Nat × Nat)))
    (hn : l.Nodup) : ((l.filterMap (gPairC incl)).flatten.map Wr.key).Nodup := by
  induction l with
  | nil => simp
  | cons x l ih =>
    obtain ⟨c, b, bp⟩ := x
    rw [List.nodup_cons] at hn
    have ih' := ih hn.2
    rw [List.filterMap_cons]
    unfold gPairC
    by_cases hi : incl b bp = true
    · simp only [hi, if_true, List.flatten_cons, List.map_append, List.map_cons, List.map_nil]
      rw [List.nodup_append]
      refine ⟨by simp, ih', ?_⟩
      intro k hk k' hk' e
      subst e
      simp only [List.mem_map, List.mem_flatten] at hk'
      obtain ⟨w, ⟨g, hg, hw⟩, rfl⟩ := hk'
      obtain ⟨c', x, y, hmem, _, rfl⟩ := mem_filterMap_gPairC.1 hg
      simp only [List.mem_cons, List.not_mem_nil, or_false] at hw hk
      subst hw
      simp only [Wr.key, Prod.mk.injEq] at hk
      obtain ⟨rfl, rfl, rfl⟩ := hk
      exact hn.1 hmem
    · simp only [hi, Bool.false_eq_true, if_false]
      exact ih'

theorem flatten_gDiag_nodup {S : List (List Nat)} {m : Nat}
    (hn : ∀ c, c < m → (rowOf S c).Nodup) :
    (((diagItems S m).filterMap gDiag).flatten.map Wr.key).Nodup := by
  rw [gDiag_eq]
  have : (((diagItems S m).map fun x => [(⟨x.1, x.2, x.2, true, true⟩ : Wr)]).flatten.map Wr.key)
      = (diagItems S m).map fun x => (x.1, x.2, x.2) := by
    induction diagItems S m with
    | nil => rfl
    | cons a l ih => simp [ih, Wr.key]
  rw [this]
  apply (diagItems_nodup hn).map
  rintro ⟨a, b⟩ ⟨c, d⟩ h
  simp at h ⊢
  exact h

/-- Valid element. -/
def ValidW (m : Nat) (S : List (List Nat)) (w : Wr) : Prop :=
  w.ch < m ∧ w.b ∈ rowOf S w.ch ∧ w.bp ∈ rowOf S w.ch

theorem key_nodup_pos {m : Nat} {S : List (List Nat)} {ws : List Wr} (hv : ∀ w ∈ ws, ValidW m S w)
    (hk : (ws.map Wr.key).Nodup) : (ws.map fun w => pos0 S w.ch w.b w.bp).Nodup := by
  induction ws with
  | nil => simp
  | cons w ws ih =>
    simp only [List.map_cons, List.nodup_cons, List.mem_map, not_exists, not_and] at hk ⊢
    refine ⟨?_, ih (fun w hw => hv w (by simp [hw])) hk.2⟩
    intro w' hw' e
    obtain ⟨_, a2, a3⟩ := hv w (by simp)
    obtain ⟨_, b2, b3⟩ := hv w' (by simp [hw'])
    obtain ⟨h1, h2, h3⟩ := pos0_inj b2 b3 a2 a3 e
    exact hk.1 w' hw' (by simp [Wr.key, h1, h2, h3])

section
variable {m N : Nat} {S : List (List Nat)} {z : Nat → Int} {d : DM}

/-- Running the labelled writes of a list of groups in the two matrix classes. -/
theorem MapReady.run (h : MapReady m N S z d) (hk : d.kind ≠ .pauli) (gs : List (List Wr))
    (hv : ∀ g ∈ gs, ∀ w ∈ g, ValidW m S w) (hkey : (gs.flatten.map Wr.key).Nodup)
    (hdq : ∀ g ∈ gs, (g.filter fun w => w.dq).length ≤ 1) :
    ∃ st, (labelled gs 0).foldlM d.wr (MapSt.mk (List.replicate d.ndm0_ (-1))
        (List.replicate d.ndm0_ false) (List.replicate d.ndm0_ false) []) = .ok st ∧
      WrOk d.kind d.ndm0_ (fun w => pos0 S w.ch w.b w.bp) (labelled gs 0) st := by
  have hv' : ∀ w ∈ gs.flatten, ValidW m S w := by
    intro w hw
    obtain ⟨g, hg, hw⟩ := List.mem_flatten.1 hw
    exact hv g hg w hw
  apply writes_spec
  · rintro ⟨i, w⟩ hx
    have hw : w ∈ gs.flatten := by
      rw [← labelled_map_snd gs 0]
      exact List.mem_map_of_mem hx
    obtain ⟨h1, h2, h3⟩ := hv' w hw
    refine ⟨h.dict.raw h1 h2 h3 hk, ?_⟩
    rw [h.ndm0]
    exact pos0_lt h1 h2 h3
  · have := key_nodup_pos hv' hkey
    rw [← labelled_map_snd gs 0, List.map_map] at this
    exact this
  · exact labelled_dq_nodup gs 0 hdq

theorem getIndDm0_of {d : DM} {st : MapSt} {r b bp : Nat} {c : Int} {v : Int} (hst : d.mp = st)
    (hr : d.rawInd0 b bp c = .ok r) (hv : st.map[r]? = some v) : d.getIndDm0 b bp c = .ok v := by
  unfold DM.getIndDm0
  rw [hr, py_bind_ok, hst]
  exact pyGet_of_getElem? hv

theorem getBoolDm0_of {d : DM} {st : MapSt} {r b bp : Nat} {c : Int} {v : Bool} (hst : d.mp = st)
    (hr : d.rawInd0 b bp c = .ok r) (hv : st.bool[r]? = some v) : d.getBoolDm0 b bp c = .ok v := by
  unfold DM.getBoolDm0
  rw [hr, py_bind_ok, hst]
  exact pyGet_of_getElem? hv

theorem getConjDm0_of {d : DM} {st : MapSt} {r b bp : Nat} {c : Int} {v : Bool} (hst : d.mp = st)
    (hr : d.rawInd0 b bp c = .ok r) (hv : st.conj[r]? = some v) : d.getConjDm0 b bp c = .ok v := by
  unfold DM.getConjDm0
  rw [hr, py_bind_ok, hst]
  exact pyGet_of_getElem? hv

/-- What `set_mapdm` leaves alone. -/
def SameDict (d d' : DM) : Prop :=
  d'.kind = d.kind ∧ d'.si = d.si ∧ d'.statesdm = d.statesdm ∧ d'.npauli_ = d.npauli_ ∧
  d'.ndm0_ = d.ndm0_ ∧ d'.ndm1_ = d.ndm1_ ∧ d'.lenlst = d.lenlst ∧ d'.shiftlst0 = d.shiftlst0 ∧
  d'.shiftlst1 = d.shiftlst1 ∧ d'.dictdm = d.dictdm ∧ d'.ndm0Tot = d.ndm0Tot ∧
  d'.ndm1Tot = d.ndm1Tot ∧ d'.ndm1 = d.ndm1_

theorem SameDict.raw {d d' : DM} (h : SameDict d d') (b bp : Nat) (c : Int) :
    d'.rawInd0 b bp c = d.rawInd0 b bp c := by
  obtain ⟨h1, h2, h3, h4, h5, h6, h7, h8, h9, h10, _⟩ := h
  unfold DM.rawInd0
  rw [h1, h7, h8, h10]

theorem inclOf_symm (ix : Indexing) (z : Nat → Int) (b bp : Nat) :
    inclOf ix z b bp = inclOf ix z bp b := by
  unfold inclOf
  split
  · simp only [decide_eq_decide]; exact eq_comm
  · rfl

theorem setMapdm_dm (h : MapReady m N S z d) (hk : d.kind = .dm) :
    ∃ d', d.setMapdm = .ok d' ∧ SameDict d d' ∧ LabDM m S (inclOf d.si.indexing z) d' := by
  have hk' : d.kind ≠ .pauli := by rw [hk]; simp
  set incl := inclOf d.si.indexing z with hincl
  have hsym : ∀ b bp, incl b bp = incl bp b := inclOf_symm _ _
  set G1 := (diagItems S m).filterMap gDiag with hG1
  set G2 := (pairItems combs2 S m).filterMap (gPair incl) with hG2
  have hG1l : G1.length = pre (rowLen S) m := by
    rw [hG1, gDiag_eq, List.length_map, diagItems_length]
  have hnd := h.good.nodup
  have memG1 : ∀ g, g ∈ G1 ↔ ∃ c b, c < m ∧ b ∈ rowOf S c ∧ g = [⟨c, b, b, true, true⟩] := by
    intro g
    rw [hG1, gDiag_eq, List.mem_map]
    constructor
    · rintro ⟨⟨c, b⟩, h1, rfl⟩
      have := mem_diagItems.1 h1
      exact ⟨c, b, this.1, this.2, rfl⟩
    · rintro ⟨c, b, h1, h2, rfl⟩
      exact ⟨(c, b), mem_diagItems.2 ⟨h1, h2⟩, rfl⟩
  have memG2 : ∀ g, g ∈ G2 ↔ ∃ c b bp, c < m ∧ (b, bp) ∈ combs2 (rowOf S c) ∧ incl b bp = true ∧
      g = [⟨c, bp, b, false, false⟩, ⟨c, b, bp, true, true⟩] := by
    intro g
    rw [hG2, mem_filterMap_gPair]
    constructor
    · rintro ⟨c, b, bp, h1, h2, h3⟩
      have := mem_pairItems.1 h1
      exact ⟨c, b, bp, this.1, this.2, h2, h3⟩
    · rintro ⟨c, b, bp, h1, h2, h3, h4⟩
      exact ⟨c, b, bp, mem_pairItems.2 ⟨h1, h2⟩, h3, h4⟩
  have hv : ∀ g ∈ G1 ++ G2, ∀ w ∈ g, ValidW m S w := by
    intro g hg w hw
    rcases List.mem_append.1 hg with hg | hg
    · obtain ⟨c, b, h1, h2, rfl⟩ := (memG1 g).1 hg
      simp only [List.mem_singleton] at hw
      subst hw
      exact ⟨h1, h2, h2⟩
    · obtain ⟨c, b, bp, h1, h2, _, rfl⟩ := (memG2 g).1 hg
      have := combs2_mem h2
      simp only [List.mem_cons, List.not_mem_nil, or_false] at hw
      rcases hw with rfl | rfl
      · exact ⟨h1, this.2, this.1⟩
      · exact ⟨h1, this.1, this.2⟩
  have hkey : ((G1 ++ G2).flatten.map Wr.key).Nodup := by
    rw [List.flatten_append, List.map_append, List.nodup_append]
    refine ⟨flatten_gDiag_nodup hnd, flatten_gPair_nodup _ ?_ ?_, ?_⟩
    · exact pairItems_nodup (fun c hc => combs2_nodup (hnd c hc))
    · intro c b bp hmem
      obtain ⟨h1, h2⟩ := mem_pairItems.1 hmem
      refine ⟨combs2_ne (hnd c h1) h2, ?_⟩
      intro h3
      exact combs2_asymm (hnd c h1) h2 (mem_pairItems.1 h3).2
    · intro k hk1 k' hk2 e
      subst e
      simp only [List.mem_map, List.mem_flatten] at hk1 hk2
      obtain ⟨w, ⟨g, hg, hw⟩, rfl⟩ := hk1
      obtain ⟨w', ⟨g', hg', hw'⟩, e⟩ := hk2
      obtain ⟨c, b, h1, h2, rfl⟩ := (memG1 g).1 hg
      obtain ⟨c', x, y, h1', h2', _, rfl⟩ := (memG2 g').1 hg'
      have hne := combs2_ne (hnd c' h1') h2'
      simp only [List.mem_cons, List.not_mem_nil, or_false] at hw hw'
      subst hw
      rcases hw' with rfl | rfl
      · simp only [Wr.key, Prod.mk.injEq] at e
        exact hne (by simp only; omega)
      · simp only [Wr.key, Prod.mk.injEq] at e
        exact hne (by simp only; omega)
  have hdq : ∀ g ∈ G1 ++ G2, (g.filter fun w => w.dq).length ≤ 1 := by
    intro g hg
    rcases List.mem_append.1 hg with hg | hg
    · obtain ⟨c, b, h1, h2, rfl⟩ := (memG1 g).1 hg
      simp
    · obtain ⟨c, b, bp, h1, h2, _, rfl⟩ := (memG2 g).1 hg
      simp
  obtain ⟨st, hrun, hok⟩ := h.run hk' (G1 ++ G2) hv hkey hdq
  rw [labelled_append, Nat.zero_add, List.foldlM_append] at hrun
  obtain ⟨st1, hrun1⟩ : ∃ st1, (labelled G1 0).foldlM d.wr (MapSt.mk (List.replicate d.ndm0_ (-1))
        (List.replicate d.ndm0_ false) (List.replicate d.ndm0_ false) []) = .ok st1 := by
    cases hx : (labelled G1 0).foldlM d.wr (MapSt.mk (List.replicate d.ndm0_ (-1))
        (List.replicate d.ndm0_ false) (List.replicate d.ndm0_ false) []) with
    | ok st1 => exact ⟨st1, rfl⟩
    | error e => rw [hx] at hrun; cases hrun
  rw [hrun1, py_bind_ok] at hrun
  have hset : d.setMapdm = .ok { d with
      mp := st, npauli := G1.length, ndm0 := G1.length + G2.length,
      ndm0r := G1.length + 2 * (G1.length + G2.length - G1.length), ndm1 := d.ndm1_ } := by
    unfold DM.setMapdm
    simp only [hk', if_false, h.ncharge]
    rw [h.diagLoop, ← hG1, hrun1]
    simp only [py_bind_ok, Nat.zero_add]
    rw [h.offLoop_dm hk, ← hincl, ← hG2, hrun]
    rfl
  refine ⟨_, hset, ⟨rfl, rfl, rfl, rfl, rfl, rfl, rfl, rfl, rfl, rfl, rfl, rfl, rfl⟩, ?_⟩
  generalize hd' : ({ d with
      mp := st, npauli := G1.length, ndm0 := G1.length + G2.length,
      ndm0r := G1.length + 2 * (G1.length + G2.length - G1.length), ndm1 := d.ndm1_ } : DM) = d'
  have hsame : SameDict d d' := by
    subst hd'; exact ⟨rfl, rfl, rfl, rfl, rfl, rfl, rfl, rfl, rfl, rfl, rfl, rfl, rfl⟩
  have hmp : d'.mp = st := by subst hd'; rfl
  have hnp : d'.npauli = G1.length := by subst hd'; rfl
  have hn0 : d'.ndm0 = G1.length + G2.length := by subst hd'; rfl
  have hn0r : d'.ndm0r = G1.length + 2 * (G1.length + G2.length - G1.length) := by subst hd'; rfl
  clear hd'
  have raw : ∀ c b bp, c < m → b ∈ rowOf S c → bp ∈ rowOf S c →
      d'.rawInd0 b bp (c : Int) = .ok (pos0 S c b bp) := by
    intro c b bp h1 h2 h3
    rw [hsame.raw]
    exact h.dict.raw h1 h2 h3 hk'
  -- a write with its label determines the three answers
  have hit : ∀ (i : Nat) (g : List Wr) (w : Wr), (G1 ++ G2)[i]? = some g → w ∈ g →
      d'.getIndDm0 w.b w.bp (w.ch : Int) = .ok (i : Int) ∧
      d'.getBoolDm0 w.b w.bp (w.ch : Int) = .ok w.dq ∧
      d'.getConjDm0 w.b w.bp (w.ch : Int) = .ok w.cq := by
    intro i g w hg hw
    obtain ⟨a1, a2, a3⟩ := hv g (List.mem_of_getElem? hg) w hw
    have hm : (i, w) ∈ labelled (G1 ++ G2) 0 := mem_labelled.2 ⟨by omega, g, by simpa using hg, hw⟩
    obtain ⟨b1, b2, b3⟩ := hok.hit _ hm
    have hr := raw _ _ _ a1 a2 a3
    exact ⟨getIndDm0_of hmp hr b1, getBoolDm0_of hmp hr b2, getConjDm0_of hmp hr (b3 hk)⟩
  have hind : ∀ (i : Nat) (g : List Wr) (w : Wr), (G1 ++ G2)[i]? = some g → w ∈ g → w.dq = true →
      d'.mp.ind.get? i = some (w.b, w.bp) := by
    intro i g w hg hw hdq
    rw [hmp, hok.ind hk']
    exact ⟨(i, w), mem_labelled.2 ⟨by omega, g, by simpa using hg, hw⟩, rfl, hdq, rfl⟩
  -- included pairs
  have hpair : ∀ c b bp, c < m → (b, bp) ∈ combs2 (rowOf S c) → incl b bp = true →
      ∃ k : Nat, d'.npauli ≤ k ∧ k < d'.ndm0 ∧ (G1 ++ G2)[k]? =
        some [⟨c, bp, b, false, false⟩, ⟨c, b, bp, true, true⟩] := by
    intro c b bp h1 h2 h3
    obtain ⟨j, hj, e⟩ := List.getElem_of_mem ((memG2 _).2 ⟨c, b, bp, h1, h2, h3, rfl⟩)
    refine ⟨G1.length + j, by omega, by omega, ?_⟩
    rw [List.getElem?_append_right (by omega), Nat.add_sub_cancel_left,
      List.getElem?_eq_getElem hj, e]
  have hoff : ∀ c b bp, c < m → b ∈ rowOf S c → bp ∈ rowOf S c → b ≠ bp → incl b bp = true →
      ∃ (k : Nat) (x : Bool), d'.npauli ≤ k ∧ k < d'.ndm0 ∧
      (G1 ++ G2)[k]? = some (if x then [⟨c, bp, b, false, false⟩, ⟨c, b, bp, true, true⟩]
        else [⟨c, b, bp, false, false⟩, ⟨c, bp, b, true, true⟩]) := by
    intro c b bp h1 h2 h3 h4 h5
    rcases combs2_complete h2 h3 h4 with hc | hc
    · obtain ⟨k, k1, k2, k3⟩ := hpair c b bp h1 hc h5
      exact ⟨k, true, k1, k2, by simpa using k3⟩
    · obtain ⟨k, k1, k2, k3⟩ := hpair c bp b h1 hc (by rw [hsym]; exact h5)
      exact ⟨k, false, k1, k2, by simpa using k3⟩
  constructor
  · rw [hnp, hG1l]
  · omega
  · omega
  · intro c b h1 h2
    have hg : (G1 ++ G2)[posP S c b]? = some [⟨c, b, b, true, true⟩] := by
      rw [List.getElem?_append_left (by rw [hG1l]; exact posP_lt h1 h2), hG1, gDiag_eq,
        List.getElem?_map, diagItems_get S m c b h1 h2]
      rfl
    obtain ⟨a1, a2, a3⟩ := hit _ _ ⟨c, b, b, true, true⟩ hg (by simp)
    exact ⟨a1, a2, a3, hind _ _ ⟨c, b, b, true, true⟩ hg (by simp) rfl⟩
  · intro c b bp h1 h2 h3 h4 h5
    obtain ⟨k, x, k1, k2, k3⟩ := hoff c b bp h1 h2 h3 h4 h5
    refine ⟨k, x, k1, k2, ?_⟩
    cases x with
    | true =>
      simp only [if_true] at k3
      obtain ⟨a1, a2, a3⟩ := hit _ _ ⟨c, b, bp, true, true⟩ k3 (by simp)
      obtain ⟨b1, b2, b3⟩ := hit _ _ ⟨c, bp, b, false, false⟩ k3 (by simp)
      exact ⟨a1, b1, a2, b2, a3, b3, hind _ _ ⟨c, b, bp, true, true⟩ k3 (by simp) rfl⟩
    | false =>
      simp only [Bool.false_eq_true, if_false] at k3
      obtain ⟨a1, a2, a3⟩ := hit _ _ ⟨c, b, bp, false, false⟩ k3 (by simp)
      obtain ⟨b1, b2, b3⟩ := hit _ _ ⟨c, bp, b, true, true⟩ k3 (by simp)
      exact ⟨a1, b1, a2, b2, a3, b3, hind _ _ ⟨c, bp, b, true, true⟩ k3 (by simp) rfl⟩
  · intro c b bp h1 h2 h3 h4 h5
    have hr := raw _ _ _ h1 h2 h3
    obtain ⟨b1, b2, b3⟩ := hok.miss (pos0 S c b bp) (by rw [h.ndm0]; exact pos0_lt h1 h2 h3) (by
      rintro ⟨i, w⟩ hx e
      obtain ⟨_, g, hg, hw⟩ := mem_labelled.1 hx
      have hgm := List.mem_of_getElem? hg
      obtain ⟨v1, v2, v3⟩ := hv g hgm w hw
      obtain ⟨rfl, e2, e3⟩ := pos0_inj v2 v3 h2 h3 e
      rcases List.mem_append.1 hgm with hg1 | hg2
      · obtain ⟨c, b', _, _, rfl⟩ := (memG1 g).1 hg1
        simp only [List.mem_singleton] at hw
        subst hw
        exact h4 (by rw [← e2, ← e3])
      · obtain ⟨c, x, y, _, _, hin, rfl⟩ := (memG2 g).1 hg2
        simp only [List.mem_cons, List.not_mem_nil, or_false] at hw
        rcases hw with rfl | rfl
        · simp only at e2 e3
          rw [hsym, ← e2, ← e3, hin] at h5; cases h5
        · simp only at e2 e3
          rw [← e2, ← e3, hin] at h5; cases h5)
    exact ⟨getIndDm0_of hmp hr b1, getBoolDm0_of hmp hr b2, getConjDm0_of hmp hr (b3 hk)⟩
  · intro c b bp c' b' bp' h1 h2 h3 h4 h5 h1' h2' h3' h4' h5' he
    obtain ⟨k, x, k1, k2, k3⟩ := hoff c b bp h1 h2 h3 h4 h5
    obtain ⟨k', x', k1', k2', k3'⟩ := hoff c' b' bp' h1' h2' h3' h4' h5'
    have e1 : d'.getIndDm0 b bp (c : Int) = .ok (k : Int) := by
      cases x with
      | true => exact (hit _ _ ⟨c, b, bp, true, true⟩ k3 (by simp)).1
      | false => exact (hit _ _ ⟨c, b, bp, false, false⟩ k3 (by simp)).1
    have e2 : d'.getIndDm0 b' bp' (c' : Int) = .ok (k' : Int) := by
      cases x' with
      | true => exact (hit _ _ ⟨c', b', bp', true, true⟩ k3' (by simp)).1
      | false => exact (hit _ _ ⟨c', b', bp', false, false⟩ k3' (by simp)).1
    rw [e1, e2] at he
    simp only [Except.ok.injEq] at he
    have he : k = k' := by omega
    subst he
    rw [k3] at k3'
    cases x <;> cases x' <;> simp at k3' <;> omega
  · intro k hk1 hk2
    have hlt : k - G1.length < G2.length := by omega
    obtain ⟨c, b, bp, h1, h2, h3, e⟩ := (memG2 _).1 (List.getElem_mem hlt)
    have hg : (G1 ++ G2)[k]? = some [⟨c, bp, b, false, false⟩, ⟨c, b, bp, true, true⟩] := by
      rw [List.getElem?_append_right (by omega), List.getElem?_eq_getElem hlt, e]
    have hm := combs2_mem h2
    obtain ⟨a1, a2, _⟩ := hit _ _ ⟨c, b, bp, true, true⟩ hg (by simp)
    exact ⟨c, b, bp, h1, hm.1, hm.2, combs2_ne (hnd c h1) h2, h3, a1, a2⟩
  · intro k v hkv
    rw [hmp, hok.ind hk'] at hkv
    obtain ⟨⟨i, w⟩, hx, rfl, _, _⟩ := hkv
    obtain ⟨_, g, hg, hw⟩ := mem_labelled.1 hx
    obtain ⟨h1, _⟩ := List.getElem?_eq_some_iff.1 hg
    simp only [List.length_append] at h1
    simp only
    omega
  · intro hall
    have hl2 : G2.length = (pairItems combs2 S m).length := by
      rw [hG2]
      have : (gPair incl) = fun x : Nat × (Nat × Nat) =>
          some [⟨x.1, x.2.2, x.2.1, false, false⟩, ⟨x.1, x.2.1, x.2.2, true, true⟩] := by
        funext x; simp [gPair, hall]
      rw [this, List.filterMap_eq_map', List.length_map]
    have hl3 : ∀ m, pre (rowLen S) m + 2 * (pairItems combs2 S m).length
        = pre (fun c => rowLen S c ^ 2) m := by
      intro m
      induction m with
      | zero => simp [pairItems]
      | succ m ih =>
        have : (pairItems combs2 S (m + 1)).length
            = (pairItems combs2 S m).length + (combs2 (rowOf S m)).length := by
          unfold pairItems
          rw [List.range_succ, List.flatMap_append]
          simp
        rw [this, pre_succ, pre_succ, ← ih]
        have := combs2_length (rowOf S m)
        simp only [rowLen] at *
        omega
    rw [hn0r, ← hl3 m, hl2, hG1l]
    omega
  · intro c b bp h1 h2 h3
    obtain ⟨k, _, _, k3⟩ := hpair c b bp h1 h2 h3
    exact (hit _ _ ⟨c, b, bp, true, true⟩ k3 (by simp)).2.1

end

end Verif
