import Verif.Lemmas.DMLabel

/-! Labels of density matrix elements for 'ssq' indexing: the members of a spin multiplet share a
label. -/

namespace Verif

/-- `z` is a spin projection (times two) of a multiplet of total spin (times two) `q`. -/
def Proj (q z : Int) : Prop := -q ≤ z ∧ z ≤ q ∧ (z + q) % 2 = 0

theorem mem_pyRange_two {a b z : Int} :
    z ∈ pyRange a b 2 ↔ a ≤ z ∧ z < b ∧ (z - a) % 2 = 0 := by
  unfold pyRange
  simp only [List.mem_map, List.mem_range]
  constructor
  · rintro ⟨k, hk, rfl⟩; omega
  · rintro ⟨h1, h2, h3⟩
    exact ⟨((z - a) / 2).toNat, by omega, by omega⟩

theorem pyRange_two_nodup (a b : Int) : (pyRange a b 2).Nodup := by
  unfold pyRange
  exact List.nodup_range.map (fun x y h => by omega)

/-- The projections met by the loops of `set_mapdm` for a multiplet of lowest projection `z`. -/
def projs (z q : Int) : List Int := z :: pyRange (z + 2) (q + 1) 2

theorem mem_projs {z q x : Int} (hq : 0 ≤ q) (h : q = -z) : x ∈ projs z q ↔ Proj q x := by
  unfold projs Proj
  rw [List.mem_cons, mem_pyRange_two]
  omega

theorem projs_nodup (z q : Int) : (projs z q).Nodup := by
  unfold projs
  rw [List.nodup_cons]
  refine ⟨?_, pyRange_two_nodup _ _⟩
  rw [mem_pyRange_two]
  omega

/-- What the proofs need to know about an object before `set_mapdm`: quantum numbers of the
considered states, and that the considered states form complete multiplets. -/
structure MultReady (m N : Nat) (S : List (List Nat)) (Z Q A : Nat → Int)
    (M : Nat → Int → Int → Int → Nat) (d : DM) : Prop where
  ncharge : d.si.ncharge = m
  dict : DictOk m N S d
  good : GoodStates m N S
  rows : ∀ c, c < m → pyGet d.statesdm (c : Int) = .ok (rowOf S c)
  ndm0 : d.ndm0_ = pre (fun c => rowLen S c ^ 2) m
  ix : d.si.indexing = .ssq
  qn : ∀ c, c < m → ∀ b ∈ rowOf S c, d.si.qn4 b = .ok ((c : Int), Z b, Q b, A b)
  rng : ∀ c, c < m → ∀ b ∈ rowOf S c, Proj (Q b) (Z b)
  get : ∀ c, c < m → ∀ b ∈ rowOf S c, ∀ z, Proj (Q b) z →
    d.si.qnInd.get [(c : Int), z, Q b, A b] = .ok (M c z (Q b) (A b)) ∧
    M c z (Q b) (A b) ∈ rowOf S c ∧ Z (M c z (Q b) (A b)) = z ∧ Q (M c z (Q b) (A b)) = Q b ∧
    A (M c z (Q b) (A b)) = A b
  inj : ∀ c, c < m → ∀ b ∈ rowOf S c, ∀ b' ∈ rowOf S c, Z b = Z b' → Q b = Q b' → A b = A b' →
    b = b'

/-- The diagonal group of a multiplet, written when its lowest state is met. -/
def gDiagS (Z Q A : Nat → Int) (M : Nat → Int → Int → Int → Nat) (x : Nat × Nat) :
    Option (List Wr) :=
  if Q x.2 = -Z x.2 then
    some ((projs (Z x.2) (Q x.2)).map fun z =>
      ⟨x.1, M x.1 z (Q x.2) (A x.2), M x.1 z (Q x.2) (A x.2), decide (z = Z x.2), true⟩)
  else none

/-- The group of a pair of multiplets. -/
def gPairS (Z Q A : Nat → Int) (M : Nat → Int → Int → Int → Nat) (x : Nat × (Nat × Nat)) :
    Option (List Wr) :=
  if (Z x.2.1 = Z x.2.2 ∧ Q x.2.1 = Q x.2.2) ∧ Q x.2.1 = -Z x.2.1 then
    some ((projs (Z x.2.1) (Q x.2.1)).flatMap fun z =>
      [⟨x.1, M x.1 z (Q x.2.2) (A x.2.2), M x.1 z (Q x.2.1) (A x.2.1), false, false⟩,
       ⟨x.1, M x.1 z (Q x.2.1) (A x.2.1), M x.1 z (Q x.2.2) (A x.2.2), decide (z = Z x.2.1), true⟩])
  else none

section
variable {m N : Nat} {S : List (List Nat)} {Z Q A : Nat → Int} {M : Nat → Int → Int → Int → Nat}
  {d : DM}

theorem MultReady.self (h : MultReady m N S Z Q A M d) {c b : Nat} (hc : c < m)
    (hb : b ∈ rowOf S c) : M c (Z b) (Q b) (A b) = b := by
  obtain ⟨_, g2, g3, g4, g5⟩ := h.get c hc b hb (Z b) (h.rng c hc b hb)
  exact h.inj c hc _ g2 b hb g3 g4 g5

theorem MultReady.nonneg (h : MultReady m N S Z Q A M d) {c b : Nat} (hc : c < m)
    (hb : b ∈ rowOf S c) : 0 ≤ Q b := by
  have := h.rng c hc b hb
  unfold Proj at this
  omega

theorem MultReady.diagLoop (h : MultReady m N S Z Q A M d) (m0 : MapSt) (k : Nat) :
    (List.range m).foldlM (fun st charge => do
      let l ← pyGet d.statesdm (charge : Nat)
      l.foldlM (d.diagStep charge) st) (m0, k)
    = (labelled ((diagItems S m).filterMap (gDiagS Z Q A M)) k).foldlM d.wr m0 >>= fun m' =>
      .ok (m', k + ((diagItems S m).filterMap (gDiagS Z Q A M)).length) := by
  rw [foldlM_congr_mem (g := fun st charge => (rowOf S charge).foldlM (d.diagStep charge) st),
    foldlM_flatMap' (fun c => d.diagStep c) (rowOf S)]
  · apply loop_groups d _ (gDiagS Z Q A M)
    rintro ⟨c, b⟩ hx st
    obtain ⟨hc, hb⟩ := mem_diagItems.1 (show (c, b) ∈ diagItems S m from hx)
    simp only [gDiagS, DM.diagStep, h.ix, if_true, h.qn c hc b hb, py_bind_ok]
    by_cases hl : Q b = -Z b
    · rw [if_pos hl, if_pos hl]
      simp only [projs, List.map_cons, List.foldlM_cons, List.map_map, List.foldlM_map, h.self hc hb]
      have e0 : d.wr st.1 (st.2, ⟨c, b, b, decide True, true⟩)
          = d.addElem st.1 st.2 b b c true true := by simp [DM.wr]
      rw [e0]
      cases d.addElem st.1 st.2 b b c true true with
      | error e => rfl
      | ok m1 =>
        simp only [py_bind_ok]
        rw [foldlM_congr_mem (g := fun x y => d.wr x (st.2,
          ⟨c, M c y (Q b) (A b), M c y (Q b) (A b), decide (y = Z b), true⟩))]
        · rfl
        · intro z hz s
          rw [mem_pyRange_two] at hz
          rw [(h.get c hc b hb z ⟨by omega, by omega, by omega⟩).1]
          have : decide (z = Z b) = false := by simp; omega
          simp [DM.wr, this]
    · rw [if_neg hl, if_neg hl]; rfl
  · intro c hc s
    rw [h.rows c (by simpa using hc)]
    rfl

theorem foldlM_flatMap_two {σ α β : Type} (f : σ → β → Py σ) (g : α → β × β) (xs : List α) (s : σ) :
    (xs.flatMap fun a => [(g a).1, (g a).2]).foldlM f s
      = xs.foldlM (fun s a => f s (g a).1 >>= fun s' => f s' (g a).2) s := by
  induction xs generalizing s with
  | nil => rfl
  | cons a xs ih =>
    rw [List.flatMap_cons, List.foldlM_append, List.foldlM_cons]
    simp only [List.foldlM_cons, List.foldlM_nil]
    cases f s (g a).1 with
    | error e => rfl
    | ok s1 =>
      simp only [py_bind_ok]
      cases f s1 (g a).2 with
      | error e => rfl
      | ok s2 => simp only [py_bind_ok, py_pure]; exact ih s2

theorem MultReady.offLoop_dm (h : MultReady m N S Z Q A M d) (hk : d.kind = .dm) (m0 : MapSt)
    (k : Nat) :
    d.offLoop (m0, k) = (labelled ((pairItems combs2 S m).filterMap
        (gPairS Z Q A M)) k).foldlM d.wr m0 >>= fun m' =>
      .ok (m', k + ((pairItems combs2 S m).filterMap (gPairS Z Q A M)).length) := by
  unfold DM.offLoop
  rw [hk, h.ncharge]
  simp only
  rw [foldlM_congr_mem
    (g := fun st charge => (combs2 (rowOf S charge)).foldlM (d.offStepDM charge) st),
    foldlM_flatMap' (fun c => d.offStepDM c) (fun c => combs2 (rowOf S c))]
  · apply loop_groups d _ (gPairS Z Q A M)
    rintro ⟨c, b, bp⟩ hx st
    obtain ⟨hc, hp⟩ := mem_pairItems.1 (show (c, (b, bp)) ∈ pairItems combs2 S m from hx)
    obtain ⟨hb, hbp⟩ := combs2_mem hp
    simp only at hb hbp
    simp only [gPairS, DM.offStepDM, h.ix, h.qn c hc b hb, h.qn c hc bp hbp, py_bind_ok,
      Prod.mk.injEq]
    by_cases he : Z b = Z bp ∧ Q b = Q bp
    · by_cases hl : Q b = -Z b
      · rw [if_pos he, if_pos hl, if_pos ⟨he, hl⟩]
        simp only [projs, List.map_flatMap, List.flatMap_cons, List.map_cons, List.map_nil,
          List.cons_append, List.nil_append, List.foldlM_cons]
        have s1 : M c (Z b) (Q bp) (A bp) = bp := by rw [he.1]; exact h.self hc hbp
        rw [h.self hc hb, s1]
        have e0 : d.wr st.1 (st.2, ⟨c, bp, b, false, false⟩)
          = d.addElem st.1 st.2 bp b c false false := by simp [DM.wr]
        rw [e0]
        cases d.addElem st.1 st.2 bp b c false false with
        | error e => rfl
        | ok m1 =>
          simp only [py_bind_ok]
          have e1 : d.wr m1 (st.2, ⟨c, b, bp, decide True, true⟩)
            = d.addElem m1 st.2 b bp c true true := by simp [DM.wr]
          rw [e1]
          cases d.addElem m1 st.2 b bp c true true with
          | error e => rfl
          | ok m2 =>
            simp only [py_bind_ok]
            rw [foldlM_flatMap_two d.wr (fun z => ((st.2,
              ⟨c, M c z (Q bp) (A bp), M c z (Q b) (A b), false, false⟩), (st.2,
              ⟨c, M c z (Q b) (A b), M c z (Q bp) (A bp), decide (z = Z b), true⟩)))]
            congr 1
            apply foldlM_congr_mem
            intro z hz s
            rw [mem_pyRange_two] at hz
            have g1 := (h.get c hc b hb z ⟨by omega, by omega, by omega⟩).1
            have g2 := (h.get c hc bp hbp z ⟨by omega, by omega, by omega⟩).1
            have : decide (z = Z b) = false := by simp; omega
            simp only [g1, g2, py_bind_ok, DM.wr, this]
      · rw [if_pos he, if_neg hl, if_neg (fun hh => hl hh.2)]; rfl
    · rw [if_neg he, if_neg (fun hh => he hh.1)]; rfl
  · intro c hc s
    rw [h.rows c (by simpa using hc)]
    rfl

/-- Keys of groups of writes. -/
theorem flatten_key_nodup {α : Type} (xs : List α) (hn : xs.Nodup) (grp : α → Option (List Wr))
    (h1 : ∀ x ∈ xs, ∀ g, grp x = some g → (g.map Wr.key).Nodup)
    (h2 : ∀ x ∈ xs, ∀ y ∈ xs, x ≠ y → ∀ g g', grp x = some g → grp y = some g' →
      ∀ w ∈ g, ∀ w' ∈ g', w.key ≠ w'.key) :
    ((xs.filterMap grp).flatten.map Wr.key).Nodup := by
  induction xs with
  | nil => simp
  | cons x xs ih =>
    rw [List.nodup_cons] at hn
    have ih' := ih hn.2 (fun x hx => h1 x (by simp [hx]))
      (fun x hx y hy => h2 x (by simp [hx]) y (by simp [hy]))
    cases hg : grp x with
    | none => rw [List.filterMap_cons_none hg]; exact ih'
    | some g =>
      rw [List.filterMap_cons_some hg, List.flatten_cons, List.map_append, List.nodup_append]
      refine ⟨h1 x (by simp) g hg, ih', ?_⟩
      intro k hk k' hk' e
      simp only [List.mem_map, List.mem_flatten, List.mem_filterMap] at hk hk'
      obtain ⟨w, hw, rfl⟩ := hk
      obtain ⟨w', ⟨g', ⟨y, hy, hg'⟩, hw'⟩, rfl⟩ := hk'
      exact h2 x (by simp) y (by simp [hy]) (by rintro rfl; exact hn.1 hy) g g' hg hg' w hw w' hw' e

/-- Running the labelled writes of a list of groups. -/
theorem run_groups (hd : DictOk m N S d) (h0 : d.ndm0_ = pre (fun c => rowLen S c ^ 2) m)
    (hk : d.kind ≠ .pauli) (gs : List (List Wr))
    (hv : ∀ g ∈ gs, ∀ w ∈ g, ValidW m S w) (hkey : (gs.flatten.map Wr.key).Nodup)
    (hdq : ∀ g ∈ gs, (g.filter fun w => w.dq).length ≤ 1) :
    ∃ st, (labelled gs 0).foldlM d.wr (MapSt.mk (List.replicate d.ndm0_ (-1))
        (List.replicate d.ndm0_ false) (List.replicate d.ndm0_ false) []) = .ok st ∧
      WrOk d.kind d.ndm0_ (fun w => pos0 S w.ch w.b w.bp) (labelled gs 0) st := by
  have hv' : ∀ w ∈ gs.flatten, ValidW m S w := by
    intro w hw
    obtain ⟨g, hg, hw⟩ := List.mem_flatten.1 hw
    exact hv g hg w hw
  apply writes_spec
  · rintro ⟨i, w⟩ hx
    have hw : w ∈ gs.flatten := by
      rw [← labelled_map_snd gs 0]
      exact List.mem_map_of_mem hx
    obtain ⟨h1, h2, h3⟩ := hv' w hw
    refine ⟨hd.raw h1 h2 h3 hk, ?_⟩
    rw [h0]
    exact pos0_lt h1 h2 h3
  · have := key_nodup_pos hv' hkey
    rw [← labelled_map_snd gs 0, List.map_map] at this
    exact this
  · exact labelled_dq_nodup gs 0 hdq

/-- The labels of `StateIndexingDM` in 'ssq' indexing. -/
structure LabS (m : Nat) (S : List (List Nat)) (Z Q A : Nat → Int) (d : DM) : Prop where
  le : d.npauli ≤ d.ndm0
  ndm0r : d.ndm0r = d.npauli + 2 * (d.ndm0 - d.npauli)
  diag : ∀ c b, c < m → b ∈ rowOf S c → ∃ k : Nat, k < d.npauli ∧
    d.getIndDm0 b b (c : Int) = .ok (k : Int) ∧
    d.getBoolDm0 b b (c : Int) = .ok (decide (Z b = -Q b)) ∧ d.getConjDm0 b b (c : Int) = .ok true
  diag_iff : ∀ c b c' b', c < m → b ∈ rowOf S c → c' < m → b' ∈ rowOf S c' →
    (d.getIndDm0 b b (c : Int) = d.getIndDm0 b' b' (c' : Int) ↔ c = c' ∧ Q b = Q b' ∧ A b = A b')
  off : ∀ c b bp, c < m → b ∈ rowOf S c → bp ∈ rowOf S c → b ≠ bp → Z b = Z bp → Q b = Q bp →
    ∃ (k : Nat) (x : Bool), d.npauli ≤ k ∧ k < d.ndm0 ∧
      d.getIndDm0 b bp (c : Int) = .ok (k : Int) ∧ d.getIndDm0 bp b (c : Int) = .ok (k : Int) ∧
      d.getConjDm0 b bp (c : Int) = .ok x ∧ d.getConjDm0 bp b (c : Int) = .ok (!x) ∧
      d.getBoolDm0 b bp (c : Int) = .ok (x && decide (Z b = -Q b)) ∧
      d.getBoolDm0 bp b (c : Int) = .ok (!x && decide (Z b = -Q b))
  excl : ∀ c b bp, c < m → b ∈ rowOf S c → bp ∈ rowOf S c → b ≠ bp → ¬ (Z b = Z bp ∧ Q b = Q bp) →
    d.getIndDm0 b bp (c : Int) = .ok (-1) ∧ d.getBoolDm0 b bp (c : Int) = .ok false ∧
    d.getConjDm0 b bp (c : Int) = .ok false
  off_iff : ∀ c b bp c' b' bp', c < m → b ∈ rowOf S c → bp ∈ rowOf S c → b ≠ bp → Z b = Z bp →
    Q b = Q bp → c' < m → b' ∈ rowOf S c' → bp' ∈ rowOf S c' → b' ≠ bp' → Z b' = Z bp' →
    Q b' = Q bp' →
    (d.getIndDm0 b bp (c : Int) = d.getIndDm0 b' bp' (c' : Int) ↔
      c = c' ∧ Q b = Q b' ∧ ((A b = A b' ∧ A bp = A bp') ∨ (A b = A bp' ∧ A bp = A b')))
  off_conj : ∀ c b bp b' bp', c < m → b ∈ rowOf S c → bp ∈ rowOf S c → b ≠ bp → Z b = Z bp →
    Q b = Q bp → b' ∈ rowOf S c → bp' ∈ rowOf S c → Z b' = Z bp' → Q b = Q b' → Q b = Q bp' →
    A b = A b' → A bp = A bp' → d.getConjDm0 b bp (c : Int) = d.getConjDm0 b' bp' (c : Int)
  surjD : ∀ k, k < d.npauli → ∃ c b, c < m ∧ b ∈ rowOf S c ∧ Z b = -Q b ∧
    d.getIndDm0 b b (c : Int) = .ok (k : Int)
  surjO : ∀ k, d.npauli ≤ k → k < d.ndm0 → ∃ c b bp, c < m ∧ (b, bp) ∈ combs2 (rowOf S c) ∧
    Z b = -Q b ∧ Z b = Z bp ∧ Q b = Q bp ∧ d.getIndDm0 b bp (c : Int) = .ok (k : Int)
  ord : ∀ c b bp, c < m → (b, bp) ∈ combs2 (rowOf S c) → Z b = -Q b → Z b = Z bp → Q b = Q bp →
    d.getConjDm0 b bp (c : Int) = .ok true

theorem setMapdm_ssq (h : MultReady m N S Z Q A M d) (hk : d.kind = .dm) :
    ∃ d', d.setMapdm = .ok d' ∧ SameDict d d' ∧ LabS m S Z Q A d' := by
  have hk' : d.kind ≠ .pauli := by rw [hk]; simp
  set G1 := (diagItems S m).filterMap (gDiagS Z Q A M) with hG1
  set G2 := (pairItems combs2 S m).filterMap (gPairS Z Q A M) with hG2
  have hnd := h.good.nodup
  have gget := fun {c b} (hc : c < m) (hb : b ∈ rowOf S c) {z} (hz : Proj (Q b) z) =>
    (h.get c hc b hb z hz).2
  -- members of the groups
  have dgrp : ∀ {c b g}, c < m → b ∈ rowOf S c → gDiagS Z Q A M (c, b) = some g →
      Z b = -Q b ∧ ∀ w, w ∈ g ↔ ∃ z, Proj (Q b) z ∧
        w = ⟨c, M c z (Q b) (A b), M c z (Q b) (A b), decide (z = -Q b), true⟩ := by
    intro c b g hc hb hg
    unfold gDiagS at hg
    simp only at hg
    split at hg
    · rename_i hl
      simp only [Option.some.injEq] at hg
      subst hg
      refine ⟨by omega, fun w => ?_⟩
      simp only [List.mem_map, mem_projs (h.nonneg hc hb) hl]
      have e : Z b = -Q b := by omega
      rw [e]
      constructor
      · rintro ⟨z, h1, rfl⟩; exact ⟨z, h1, rfl⟩
      · rintro ⟨z, h1, rfl⟩; exact ⟨z, h1, rfl⟩
    · cases hg
  have pgrp : ∀ {c b bp g}, c < m → b ∈ rowOf S c → bp ∈ rowOf S c →
      gPairS Z Q A M (c, (b, bp)) = some g →
      Z b = -Q b ∧ Z b = Z bp ∧ Q b = Q bp ∧ ∀ w, w ∈ g ↔ ∃ z, Proj (Q b) z ∧
        (w = ⟨c, M c z (Q bp) (A bp), M c z (Q b) (A b), false, false⟩ ∨
         w = ⟨c, M c z (Q b) (A b), M c z (Q bp) (A bp), decide (z = -Q b), true⟩) := by
    intro c b bp g hc hb hbp hg
    unfold gPairS at hg
    simp only at hg
    split at hg
    · rename_i hl
      simp only [Option.some.injEq] at hg
      subst hg
      refine ⟨by omega, hl.1.1, hl.1.2, fun w => ?_⟩
      simp only [List.mem_flatMap, mem_projs (h.nonneg hc hb) hl.2, List.mem_cons,
        List.not_mem_nil, or_false]
      have e : Z b = -Q b := by omega
      rw [e]
    · cases hg
  have dex : ∀ {c b}, c < m → b ∈ rowOf S c → Z b = -Q b → ∃ g, gDiagS Z Q A M (c, b) = some g := by
    intro c b hc hb hl
    unfold gDiagS
    rw [if_pos (by simp only; omega)]
    exact ⟨_, rfl⟩
  have pex : ∀ {c b bp}, Z b = -Q b → Z b = Z bp → Q b = Q bp →
      ∃ g, gPairS Z Q A M (c, (b, bp)) = some g := by
    intro c b bp hl h1 h2
    unfold gPairS
    rw [if_pos ⟨⟨h1, h2⟩, by simp only; omega⟩]
    exact ⟨_, rfl⟩
  have memG1 : ∀ g, g ∈ G1 ↔ ∃ c b, c < m ∧ b ∈ rowOf S c ∧ gDiagS Z Q A M (c, b) = some g := by
    intro g
    rw [hG1, List.mem_filterMap]
    constructor
    · rintro ⟨⟨c, b⟩, h1, h2⟩
      have := mem_diagItems.1 h1
      exact ⟨c, b, this.1, this.2, h2⟩
    · rintro ⟨c, b, h1, h2, h3⟩
      exact ⟨(c, b), mem_diagItems.2 ⟨h1, h2⟩, h3⟩
  have memG2 : ∀ g, g ∈ G2 ↔ ∃ c b bp, c < m ∧ (b, bp) ∈ combs2 (rowOf S c) ∧
      gPairS Z Q A M (c, (b, bp)) = some g := by
    intro g
    rw [hG2, List.mem_filterMap]
    constructor
    · rintro ⟨⟨c, b, bp⟩, h1, h2⟩
      have := mem_pairItems.1 h1
      exact ⟨c, b, bp, this.1, this.2, h2⟩
    · rintro ⟨c, b, bp, h1, h2, h3⟩
      exact ⟨(c, (b, bp)), mem_pairItems.2 ⟨h1, h2⟩, h3⟩
  have hv : ∀ g ∈ G1 ++ G2, ∀ w ∈ g, ValidW m S w := by
    intro g hg w hw
    rcases List.mem_append.1 hg with hg | hg
    · obtain ⟨c, b, h1, h2, h3⟩ := (memG1 g).1 hg
      obtain ⟨z, hz, rfl⟩ := ((dgrp h1 h2 h3).2 w).1 hw
      exact ⟨h1, (gget h1 h2 hz).1, (gget h1 h2 hz).1⟩
    · obtain ⟨c, b, bp, h1, h2, h3⟩ := (memG2 g).1 hg
      have hm := combs2_mem h2
      obtain ⟨_, _, hq, hg⟩ := pgrp h1 hm.1 hm.2 h3
      obtain ⟨z, hz, rfl | rfl⟩ := (hg w).1 hw
      · exact ⟨h1, (gget h1 hm.2 (hq ▸ hz)).1, (gget h1 hm.1 hz).1⟩
      · exact ⟨h1, (gget h1 hm.1 hz).1, (gget h1 hm.2 (hq ▸ hz)).1⟩
  -- a write determines the multiplets
  have dqn : ∀ {c b g w}, c < m → b ∈ rowOf S c → gDiagS Z Q A M (c, b) = some g → w ∈ g →
      w.ch = c ∧ Q w.b = Q b ∧ A w.b = A b ∧ w.bp = w.b ∧ w.dq = decide (Z w.b = -Q b) ∧
      w.cq = true := by
    intro c b g w hc hb hg hw
    obtain ⟨z, hz, rfl⟩ := ((dgrp hc hb hg).2 w).1 hw
    obtain ⟨_, g3, g4, g5⟩ := gget hc hb hz
    exact ⟨rfl, g4, g5, rfl, by simp only [g3], rfl⟩
  have pqn : ∀ {c b bp g w}, c < m → b ∈ rowOf S c → bp ∈ rowOf S c →
      gPairS Z Q A M (c, (b, bp)) = some g → w ∈ g →
      w.ch = c ∧ Q w.b = Q b ∧ Q w.bp = Q b ∧ Z w.b = Z w.bp ∧
      ((A w.b = A bp ∧ A w.bp = A b ∧ w.dq = false ∧ w.cq = false) ∨
       (A w.b = A b ∧ A w.bp = A bp ∧ w.dq = decide (Z w.b = -Q b) ∧ w.cq = true)) := by
    intro c b bp g w hc hb hbp hg hw
    obtain ⟨_, _, hq, hg⟩ := pgrp hc hb hbp hg
    obtain ⟨z, hz, rfl | rfl⟩ := (hg w).1 hw
    · obtain ⟨_, g3, g4, g5⟩ := gget hc hb hz
      obtain ⟨_, k3, k4, k5⟩ := gget hc hbp (hq ▸ hz)
      exact ⟨rfl, by simp only; rw [k4, hq], g4, by simp only; rw [k3, g3], Or.inl ⟨k5, g5, rfl, rfl⟩⟩
    · obtain ⟨_, g3, g4, g5⟩ := gget hc hb hz
      obtain ⟨_, k3, k4, k5⟩ := gget hc hbp (hq ▸ hz)
      exact ⟨rfl, g4, by simp only; rw [k4, hq], by simp only; rw [k3, g3],
        Or.inr ⟨g5, k5, by simp only [g3], rfl⟩⟩
  have hAne : ∀ {c b bp}, c < m → (b, bp) ∈ combs2 (rowOf S c) → Z b = Z bp → Q b = Q bp →
      A b ≠ A bp := by
    intro c b bp hc hp h1 h2 h3
    have hm := combs2_mem hp
    exact combs2_ne (hnd c hc) hp (h.inj c hc b hm.1 bp hm.2 h1 h2 h3)
  -- keys
  have hkey1 : (G1.flatten.map Wr.key).Nodup := by
    apply flatten_key_nodup _ (diagItems_nodup hnd)
    · rintro ⟨c, b⟩ hx g hg
      obtain ⟨hc, hb⟩ := mem_diagItems.1 hx
      have hmem := (dgrp hc hb hg)
      have hl : Q b = -Z b := by omega
      unfold gDiagS at hg
      rw [if_pos hl] at hg
      simp only [Option.some.injEq] at hg
      rw [← hg, List.map_map]
      refine List.Nodup.map_on ?_ (projs_nodup _ _)
      intro z hz z' hz' e
      rw [mem_projs (h.nonneg hc hb) hl] at hz hz'
      simp only [Function.comp, Wr.key, Prod.mk.injEq] at e
      have := congrArg Z e.2.1
      rwa [(gget hc hb hz).2.1, (gget hc hb hz').2.1] at this
    · rintro ⟨c, b⟩ hx ⟨c', b'⟩ hx' hne g g' hg hg' w hw w' hw' e
      obtain ⟨hc, hb⟩ := mem_diagItems.1 hx
      obtain ⟨hc', hb'⟩ := mem_diagItems.1 hx'
      obtain ⟨a1, a2, a3, _⟩ := dqn hc hb hg hw
      obtain ⟨b1, b2, b3, _⟩ := dqn hc' hb' hg' hw'
      simp only [Wr.key, Prod.mk.injEq] at e
      have l1 := (dgrp hc hb hg).1
      have l2 := (dgrp hc' hb' hg').1
      have ec : c = c' := by rw [← a1, ← b1, e.1]
      subst ec
      rw [e.2.1] at a2 a3
      apply hne
      rw [h.inj c hc b hb b' hb' (by omega) (by omega) (by omega)]
  have hkey2 : (G2.flatten.map Wr.key).Nodup := by
    apply flatten_key_nodup _ (pairItems_nodup fun c hc => combs2_nodup (hnd c hc))
    · rintro ⟨c, b, bp⟩ hx g hg
      obtain ⟨hc, hp⟩ := mem_pairItems.1 hx
      have hm := combs2_mem hp
      simp only at hm
      obtain ⟨hl0, hz0, hq0, _⟩ := pgrp hc hm.1 hm.2 hg
      have hA := hAne hc hp hz0 hq0
      have hl : Q b = -Z b := by omega
      unfold gPairS at hg
      rw [if_pos ⟨⟨hz0, hq0⟩, hl⟩] at hg
      simp only [Option.some.injEq] at hg
      rw [← hg, List.map_flatMap, List.nodup_flatMap]
      constructor
      · intro z hz
        rw [mem_projs (h.nonneg hc hm.1) hl] at hz
        obtain ⟨_, g3, g4, g5⟩ := gget hc hm.1 hz
        obtain ⟨_, k3, k4, k5⟩ := gget hc hm.2 (hq0 ▸ hz)
        simp only [List.map_cons, List.map_nil, Wr.key, List.nodup_cons, List.mem_singleton,
          Prod.mk.injEq, true_and, List.not_mem_nil, not_false_eq_true, List.nodup_nil, and_true]
        rintro ⟨e, _⟩
        have := congrArg A e
        rw [g5, k5] at this
        exact hA this.symm
      · refine List.Pairwise.imp_of_mem ?_ (projs_nodup _ _)
        intro z z' hz hz' hne k hk1 hk2
        rw [mem_projs (h.nonneg hc hm.1) hl] at hz hz'
        obtain ⟨_, g3, g4, g5⟩ := gget hc hm.1 hz
        obtain ⟨_, k3, k4, k5⟩ := gget hc hm.2 (hq0 ▸ hz)
        obtain ⟨_, g3', g4', g5'⟩ := gget hc hm.1 hz'
        obtain ⟨_, k3', k4', k5'⟩ := gget hc hm.2 (hq0 ▸ hz')
        simp only [List.map_cons, List.map_nil, Wr.key, List.mem_cons, List.not_mem_nil,
          or_false] at hk1 hk2
        apply hne
        rcases hk1 with rfl | rfl <;> rcases hk2 with e | e <;> simp only [Prod.mk.injEq] at e
        · have := congrArg Z e.2.1; rw [k3, k3'] at this; exact this
        · have := congrArg Z e.2.1; rw [k3, g3'] at this; exact this
        · have := congrArg Z e.2.1; rw [g3, k3'] at this; exact this
        · have := congrArg Z e.2.1; rw [g3, g3'] at this; exact this
    · rintro ⟨c, b, bp⟩ hx ⟨c', b', bp'⟩ hx' hne g g' hg hg' w hw w' hw' e
      obtain ⟨hc, hp⟩ := mem_pairItems.1 hx
      obtain ⟨hc', hp'⟩ := mem_pairItems.1 hx'
      have hm := combs2_mem hp
      have hm' := combs2_mem hp'
      simp only at hm hm'
      obtain ⟨l1, l2, l3, _⟩ := pgrp hc hm.1 hm.2 hg
      obtain ⟨l1', l2', l3', _⟩ := pgrp hc' hm'.1 hm'.2 hg'
      obtain ⟨a1, a2, a3, _, a4⟩ := pqn hc hm.1 hm.2 hg hw
      obtain ⟨b1, b2, b3, _, b4⟩ := pqn hc' hm'.1 hm'.2 hg' hw'
      simp only [Wr.key, Prod.mk.injEq] at e
      have ec : c = c' := by rw [← a1, ← b1, e.1]
      subst ec
      rw [e.2.1] at a2
      rw [e.2.1, e.2.2] at a4
      have hQ : Q b = Q b' := by omega
      have key : (b = b' ∧ bp = bp') ∨ (b = bp' ∧ bp = b') := by
        rcases a4 with ⟨p1, p2, _⟩ | ⟨p1, p2, _⟩ <;> rcases b4 with ⟨r1, r2, _⟩ | ⟨r1, r2, _⟩
        · exact Or.inl ⟨h.inj c hc _ hm.1 _ hm'.1 (by omega) (by omega) (by omega),
            h.inj c hc _ hm.2 _ hm'.2 (by omega) (by omega) (by omega)⟩
        · exact Or.inr ⟨h.inj c hc _ hm.1 _ hm'.2 (by omega) (by omega) (by omega),
            h.inj c hc _ hm.2 _ hm'.1 (by omega) (by omega) (by omega)⟩
        · exact Or.inr ⟨h.inj c hc _ hm.1 _ hm'.2 (by omega) (by omega) (by omega),
            h.inj c hc _ hm.2 _ hm'.1 (by omega) (by omega) (by omega)⟩
        · exact Or.inl ⟨h.inj c hc _ hm.1 _ hm'.1 (by omega) (by omega) (by omega),
            h.inj c hc _ hm.2 _ hm'.2 (by omega) (by omega) (by omega)⟩
      rcases key with ⟨rfl, rfl⟩ | ⟨rfl, rfl⟩
      · exact hne rfl
      · exact combs2_asymm (hnd c hc) hp hp'
  have hkey : ((G1 ++ G2).flatten.map Wr.key).Nodup := by
    rw [List.flatten_append, List.map_append, List.nodup_append]
    refine ⟨hkey1, hkey2, ?_⟩
    intro k hk1 k' hk2 e
    subst e
    simp only [List.mem_map, List.mem_flatten] at hk1 hk2
    obtain ⟨w, ⟨g, hg, hw⟩, rfl⟩ := hk1
    obtain ⟨w', ⟨g', hg', hw'⟩, e⟩ := hk2
    obtain ⟨c, b, h1, h2, h3⟩ := (memG1 g).1 hg
    obtain ⟨c', x, y, h1', h2', h3'⟩ := (memG2 g').1 hg'
    have hm := combs2_mem h2'
    obtain ⟨_, _, _, a4, _⟩ := dqn h1 h2 h3 hw
    obtain ⟨_, l2, l3, _⟩ := pgrp h1' hm.1 hm.2 h3'
    obtain ⟨_, _, _, _, b4⟩ := pqn h1' hm.1 hm.2 h3' hw'
    have hA := hAne h1' h2' l2 l3
    simp only [Wr.key, Prod.mk.injEq] at e
    have e2 : w'.bp = w'.b := by rw [e.2.1, e.2.2, a4]
    rw [e2] at b4
    rcases b4 with ⟨p1, p2, _⟩ | ⟨p1, p2, _⟩
    · exact hA (by simp only at p1 p2 ⊢; omega)
    · exact hA (by simp only at p1 p2 ⊢; omega)
  have hdq : ∀ g ∈ G1 ++ G2, (g.filter fun w => w.dq).length ≤ 1 := by
    intro g hg
    have hgn : (g.map Wr.key).Nodup := by
      refine List.Nodup.sublist ?_ hkey
      exact (List.sublist_flatten_of_mem hg).map _
    have hgn' : (g.filter fun w => w.dq).Nodup := (List.Nodup.of_map _ hgn).filter _
    have huniq : ∀ w ∈ g, w.dq = true → ∀ w' ∈ g, w'.dq = true → w = w' := by
      intro w hw hd w' hw' hd'
      rcases List.mem_append.1 hg with hg | hg
      · obtain ⟨c, b, h1, h2, h3⟩ := (memG1 g).1 hg
        obtain ⟨z, hz, rfl⟩ := ((dgrp h1 h2 h3).2 w).1 hw
        obtain ⟨z', hz', rfl⟩ := ((dgrp h1 h2 h3).2 w').1 hw'
        simp only [decide_eq_true_eq] at hd hd'
        rw [hd, hd']
      · obtain ⟨c, b, bp, h1, h2, h3⟩ := (memG2 g).1 hg
        have hm := combs2_mem h2
        obtain ⟨_, _, hq, hg⟩ := pgrp h1 hm.1 hm.2 h3
        obtain ⟨z, hz, rfl | rfl⟩ := (hg w).1 hw
        · cases hd
        · obtain ⟨z', hz', rfl | rfl⟩ := (hg w').1 hw'
          · cases hd'
          · simp only [decide_eq_true_eq] at hd hd'
            rw [hd, hd']
    rcases hf : g.filter (fun w => w.dq) with _ | ⟨a, _ | ⟨a', l⟩⟩
    · rw [hf]; simp
    · rw [hf]; simp
    · exfalso
      rw [hf] at hgn'
      have h1 : a ∈ g.filter fun w => w.dq := by rw [hf]; simp
      have h2 : a' ∈ g.filter fun w => w.dq := by rw [hf]; simp
      rw [List.mem_filter] at h1 h2
      have := huniq a h1.1 h1.2 a' h2.1 h2.2
      rw [List.nodup_cons] at hgn'
      exact hgn'.1 (by rw [this]; simp)
  obtain ⟨st, hrun, hok⟩ := run_groups h.dict h.ndm0 hk' (G1 ++ G2) hv hkey hdq
  rw [labelled_append, Nat.zero_add, List.foldlM_append] at hrun
  obtain ⟨st1, hrun1⟩ : ∃ st1, (labelled G1 0).foldlM d.wr (MapSt.mk (List.replicate d.ndm0_ (-1))
        (List.replicate d.ndm0_ false) (List.replicate d.ndm0_ false) []) = .ok st1 := by
    cases hx : (labelled G1 0).foldlM d.wr (MapSt.mk (List.replicate d.ndm0_ (-1))
        (List.replicate d.ndm0_ false) (List.replicate d.ndm0_ false) []) with
    | ok st1 => exact ⟨st1, rfl⟩
    | error e => rw [hx] at hrun; cases hrun
  rw [hrun1, py_bind_ok] at hrun
  have hset : d.setMapdm = .ok { d with
      mp := st, npauli := G1.length, ndm0 := G1.length + G2.length,
      ndm0r := G1.length + 2 * (G1.length + G2.length - G1.length), ndm1 := d.ndm1_ } := by
    unfold DM.setMapdm
    simp only [hk', if_false, h.ncharge]
    rw [h.diagLoop, ← hG1, hrun1]
    simp only [py_bind_ok, Nat.zero_add]
    rw [h.offLoop_dm hk, ← hG2, hrun]
    rfl
  refine ⟨_, hset, ⟨rfl, rfl, rfl, rfl, rfl, rfl, rfl, rfl, rfl, rfl, rfl, rfl, rfl⟩, ?_⟩
  generalize hd' : ({ d with
      mp := st, npauli := G1.length, ndm0 := G1.length + G2.length,
      ndm0r := G1.length + 2 * (G1.length + G2.length - G1.length), ndm1 := d.ndm1_ } : DM) = d'
  have hsame : SameDict d d' := by
    subst hd'; exact ⟨rfl, rfl, rfl, rfl, rfl, rfl, rfl, rfl, rfl, rfl, rfl, rfl, rfl⟩
  have hmp : d'.mp = st := by subst hd'; rfl
  have hnp : d'.npauli = G1.length := by subst hd'; rfl
  have hn0 : d'.ndm0 = G1.length + G2.length := by subst hd'; rfl
  have hn0r : d'.ndm0r = G1.length + 2 * (G1.length + G2.length - G1.length) := by subst hd'; rfl
  clear hd'
  have raw : ∀ c b bp, c < m → b ∈ rowOf S c → bp ∈ rowOf S c →
      d'.rawInd0 b bp (c : Int) = .ok (pos0 S c b bp) := by
    intro c b bp h1 h2 h3
    rw [hsame.raw]
    exact h.dict.raw h1 h2 h3 hk'
  -- a write with its label determines the three answers
  have hit : ∀ (i : Nat) (g : List Wr) (w : Wr), (G1 ++ G2)[i]? = some g → w ∈ g →
      d'.getIndDm0 w.b w.bp (w.ch : Int) = .ok (i : Int) ∧
      d'.getBoolDm0 w.b w.bp (w.ch : Int) = .ok w.dq ∧
      d'.getConjDm0 w.b w.bp (w.ch : Int) = .ok w.cq := by
    intro i g w hg hw
    obtain ⟨a1, a2, a3⟩ := hv g (List.mem_of_getElem? hg) w hw
    have hm : (i, w) ∈ labelled (G1 ++ G2) 0 := mem_labelled.2 ⟨by omega, g, by simpa using hg, hw⟩
    obtain ⟨b1, b2, b3⟩ := hok.hit _ hm
    have hr := raw _ _ _ a1 a2 a3
    exact ⟨getIndDm0_of hmp hr b1, getBoolDm0_of hmp hr b2, getConjDm0_of hmp hr (b3 hk)⟩
  -- lowest state of the multiplet of a state
  have low : ∀ {c b}, c < m → b ∈ rowOf S c → ∃ b0, b0 ∈ rowOf S c ∧ Z b0 = -Q b ∧ Q b0 = Q b ∧
      A b0 = A b := by
    intro c b hc hb
    have hp : Proj (Q b) (-Q b) := ⟨by omega, by have := h.nonneg hc hb; omega, by omega⟩
    obtain ⟨g2, g3, g4, g5⟩ := gget hc hb hp
    exact ⟨_, g2, g3, g4, g5⟩
  have hdiag : ∀ {c b}, c < m → b ∈ rowOf S c → ∃ (b0 i : Nat) (g : List Wr), b0 ∈ rowOf S c ∧
      Z b0 = -Q b ∧ Q b0 = Q b ∧ A b0 = A b ∧ i < G1.length ∧ (G1 ++ G2)[i]? = some g ∧
      gDiagS Z Q A M (c, b0) = some g ∧ (⟨c, b, b, decide (Z b = -Q b), true⟩ : Wr) ∈ g := by
    intro c b hc hb
    obtain ⟨b0, m0, e1, e2, e3⟩ := low hc hb
    obtain ⟨g, hg⟩ := dex hc m0 (by rw [e1, e2])
    obtain ⟨i, hi, e⟩ := List.getElem_of_mem ((memG1 g).2 ⟨c, b0, hc, m0, hg⟩)
    refine ⟨b0, i, g, m0, e1, e2, e3, hi, ?_, hg, ?_⟩
    · rw [List.getElem?_append_left hi, List.getElem?_eq_getElem hi, e]
    · rw [(dgrp hc m0 hg).2]
      refine ⟨Z b, by rw [e2]; exact h.rng c hc b hb, ?_⟩
      rw [e2, e3, h.self hc hb]
  have hpair : ∀ {c b bp}, c < m → b ∈ rowOf S c → bp ∈ rowOf S c → b ≠ bp → Z b = Z bp →
      Q b = Q bp → ∃ (b0 bp0 i : Nat) (g : List Wr) (x : Bool), (b0, bp0) ∈ combs2 (rowOf S c) ∧
      Z b0 = -Q b0 ∧ Z b0 = Z bp0 ∧ Q b0 = Q b ∧ Q b0 = Q bp0 ∧
      (if x then A b0 = A b ∧ A bp0 = A bp else A b0 = A bp ∧ A bp0 = A b) ∧
      G1.length ≤ i ∧ i < G1.length + G2.length ∧ (G1 ++ G2)[i]? = some g ∧
      gPairS Z Q A M (c, (b0, bp0)) = some g ∧
      (⟨c, b, bp, x && decide (Z b = -Q b), x⟩ : Wr) ∈ g ∧
      (⟨c, bp, b, !x && decide (Z b = -Q b), !x⟩ : Wr) ∈ g := by
    intro c b bp hc hb hbp hne hz hq
    obtain ⟨b0, m0, e1, e2, e3⟩ := low hc hb
    obtain ⟨bp0, mp0, f1, f2, f3⟩ := low hc hbp
    have hne0 : b0 ≠ bp0 := by
      rintro rfl
      exact hne (h.inj c hc b hb bp hbp hz hq (by rw [← e3, ← f3]))
    have fin : ∀ {x y}, (x, y) ∈ combs2 (rowOf S c) → Z x = -Q x → Z x = Z y → Q x = Q y →
        ∃ (i : Nat) (g : List Wr), G1.length ≤ i ∧ i < G1.length + G2.length ∧
          (G1 ++ G2)[i]? = some g ∧ gPairS Z Q A M (c, (x, y)) = some g := by
      intro x y hxy h1 h2 h3
      obtain ⟨g, hg⟩ := pex (c := c) h1 h2 h3
      obtain ⟨i, hi, e⟩ := List.getElem_of_mem ((memG2 g).2 ⟨c, x, y, hc, hxy, hg⟩)
      refine ⟨G1.length + i, g, by omega, by omega, ?_, hg⟩
      rw [List.getElem?_append_right (by omega), Nat.add_sub_cancel_left,
        List.getElem?_eq_getElem hi, e]
    rcases combs2_complete m0 mp0 hne0 with hcb | hcb
    · obtain ⟨i, g, i1, i2, i3, hg⟩ := fin hcb (by omega) (by omega) (by omega)
      refine ⟨b0, bp0, i, g, true, hcb, by omega, by omega, e2, by omega, by simp [e3, f3], i1, i2, i3, hg, ?_, ?_⟩
      · rw [(pgrp hc m0 mp0 hg).2.2.2]
        refine ⟨Z b, by rw [e2]; exact h.rng c hc b hb, Or.inr ?_⟩
        rw [e2, e3, f2, f3, h.self hc hb, hz, h.self hc hbp]
        simp
      · rw [(pgrp hc m0 mp0 hg).2.2.2]
        refine ⟨Z b, by rw [e2]; exact h.rng c hc b hb, Or.inl ?_⟩
        rw [e2, e3, f2, f3, h.self hc hb, hz, h.self hc hbp]
        simp
    · obtain ⟨i, g, i1, i2, i3, hg⟩ := fin hcb (by omega) (by omega) (by omega)
      refine ⟨bp0, b0, i, g, false, hcb, by omega, by omega, by omega, by omega, by simp [e3, f3], i1, i2, i3, hg, ?_, ?_⟩
      · rw [(pgrp hc mp0 m0 hg).2.2.2]
        refine ⟨Z b, by rw [f2, ← hq]; exact h.rng c hc b hb, Or.inl ?_⟩
        rw [e2, e3, f2, f3, h.self hc hb, hz, h.self hc hbp]
        simp
      · rw [(pgrp hc mp0 m0 hg).2.2.2]
        refine ⟨Z b, by rw [f2, ← hq]; exact h.rng c hc b hb, Or.inr ?_⟩
        rw [e2, e3, f2, f3, h.self hc hb, hz, h.self hc hbp]
        simp [hq]
  constructor
  · omega
  · omega
  · intro c b hc hb
    obtain ⟨b0, i, g, _, _, _, _, i1, i2, _, i3⟩ := hdiag hc hb
    obtain ⟨a1, a2, a3⟩ := hit _ _ _ i2 i3
    exact ⟨i, by omega, a1, a2, a3⟩
  · intro c b c' b' hc hb hc' hb'
    obtain ⟨b0, i, g, m0, e1, e2, e3, i1, i2, i4, i3⟩ := hdiag hc hb
    obtain ⟨b0', i', g', m0', e1', e2', e3', i1', i2', i4', i3'⟩ := hdiag hc' hb'
    rw [(hit _ _ _ i2 i3).1, (hit _ _ _ i2' i3').1]
    simp only [Except.ok.injEq, Nat.cast_inj]
    constructor
    · rintro rfl
      rw [i2] at i2'
      simp only [Option.some.injEq] at i2'
      subst i2'
      obtain ⟨a1, a2, a3, _⟩ := dqn hc m0 i4 i3'
      simp only at a1 a2 a3
      exact ⟨a1.symm, by omega, by omega⟩
    · rintro ⟨rfl, h2, h3⟩
      have : b0 = b0' := h.inj c hc b0 m0 b0' m0' (by omega) (by omega) (by omega)
      subst this
      rw [i4] at i4'
      simp only [Option.some.injEq] at i4'
      subst i4'
      have h1 : (i, (⟨c, b, b, decide (Z b = -Q b), true⟩ : Wr)) ∈ labelled (G1 ++ G2) 0 :=
        mem_labelled.2 ⟨by omega, g, by simpa using i2, i3⟩
      have h2 : (i', (⟨c, b, b, decide (Z b = -Q b), true⟩ : Wr)) ∈ labelled (G1 ++ G2) 0 :=
        mem_labelled.2 ⟨by omega, g, by simpa using i2', i3⟩
      have r1 := (hok.hit _ h1).1
      have r2 := (hok.hit _ h2).1
      simp only at r1 r2
      rw [r1] at r2
      simpa using r2
  · intro c b bp hc hb hbp hne hz hq
    obtain ⟨b0, bp0, i, g, x, _, _, _, _, _, _, i1, i2, i3, _, i4, i5⟩ := hpair hc hb hbp hne hz hq
    obtain ⟨a1, a2, a3⟩ := hit _ _ _ i3 i4
    obtain ⟨b1, b2, b3⟩ := hit _ _ _ i3 i5
    exact ⟨i, x, by omega, by omega, a1, b1, a3, b3, a2, b2⟩
  · intro c b bp h1 h2 h3 h4 h5
    have hr := raw _ _ _ h1 h2 h3
    obtain ⟨b1, b2, b3⟩ := hok.miss (pos0 S c b bp) (by rw [h.ndm0]; exact pos0_lt h1 h2 h3) (by
      rintro ⟨i, w⟩ hx e
      obtain ⟨_, g, hg, hw⟩ := mem_labelled.1 hx
      have hgm := List.mem_of_getElem? hg
      obtain ⟨v1, v2, v3⟩ := hv g hgm w hw
      obtain ⟨rfl, e2, e3⟩ := pos0_inj v2 v3 h2 h3 e
      rcases List.mem_append.1 hgm with hg1 | hg2
      · obtain ⟨c, b', k1, k2, k3⟩ := (memG1 g).1 hg1
        obtain ⟨_, _, _, a4, _⟩ := dqn k1 k2 k3 hw
        exact h4 (by rw [← e2, ← e3, a4])
      · obtain ⟨c, x, y, k1, k2, k3⟩ := (memG2 g).1 hg2
        have hm := combs2_mem k2
        obtain ⟨_, a2, a3, a4, _⟩ := pqn k1 hm.1 hm.2 k3 hw
        exact h5 ⟨by rw [← e2, ← e3, a4], by rw [← e2, ← e3, a2, a3]⟩)
    exact ⟨getIndDm0_of hmp hr b1, getBoolDm0_of hmp hr b2, getConjDm0_of hmp hr (b3 hk)⟩
  · intro c b bp c' b' bp' h1 h2 h3 h4 h5 h6 h1' h2' h3' h4' h5' h6'
    obtain ⟨b0, bp0, i, g, x, m1, m2, m3, m4, m5, m6, i1, i2, i3, i6, i4, i5⟩ :=
      hpair h1 h2 h3 h4 h5 h6
    obtain ⟨b0', bp0', i', g', x', m1', m2', m3', m4', m5', m6', i1', i2', i3', i6', i4', i5'⟩ :=
      hpair h1' h2' h3' h4' h5' h6'
    have hm := combs2_mem m1
    have hm' := combs2_mem m1'
    simp only at hm hm'
    rw [(hit _ _ _ i3 i4).1, (hit _ _ _ i3' i4').1]
    simp only [Except.ok.injEq, Nat.cast_inj]
    constructor
    · rintro rfl
      rw [i3] at i3'
      simp only [Option.some.injEq] at i3'
      subst i3'
      obtain ⟨a1, a2, a3, _, a4⟩ := pqn h1 hm.1 hm.2 i6 i4'
      simp only at a1 a2 a3 a4
      refine ⟨a1.symm, by omega, ?_⟩
      cases x with
      | true =>
        simp only [if_true] at m6
        rcases a4 with ⟨p1, p2, _⟩ | ⟨p1, p2, _⟩
        · exact Or.inr ⟨by omega, by omega⟩
        · exact Or.inl ⟨by omega, by omega⟩
      | false =>
        simp only [Bool.false_eq_true, if_false] at m6
        rcases a4 with ⟨p1, p2, _⟩ | ⟨p1, p2, _⟩
        · exact Or.inl ⟨by omega, by omega⟩
        · exact Or.inr ⟨by omega, by omega⟩
    · rintro ⟨rfl, hQ, hA⟩
      have key : (b0 = b0' ∧ bp0 = bp0') ∨ (b0 = bp0' ∧ bp0 = b0') := by
        cases x <;> cases x' <;> simp only [if_true, Bool.false_eq_true, if_false] at m6 m6' <;>
          rcases hA with ⟨p1, p2⟩ | ⟨p1, p2⟩ <;>
          first
          | exact Or.inl ⟨h.inj c h1 _ hm.1 _ hm'.1 (by omega) (by omega) (by omega),
              h.inj c h1 _ hm.2 _ hm'.2 (by omega) (by omega) (by omega)⟩
          | exact Or.inr ⟨h.inj c h1 _ hm.1 _ hm'.2 (by omega) (by omega) (by omega),
              h.inj c h1 _ hm.2 _ hm'.1 (by omega) (by omega) (by omega)⟩
      have key : b0 = b0' ∧ bp0 = bp0' := by
        rcases key with hh | ⟨rfl, rfl⟩
        · exact hh
        · exact absurd m1' (combs2_asymm (hnd c h1) m1)
      obtain ⟨rfl, rfl⟩ := key
      rw [i6] at i6'
      simp only [Option.some.injEq] at i6'
      subst i6'
      have h1 : (i, (⟨c, b, bp, x && decide (Z b = -Q b), x⟩ : Wr)) ∈ labelled (G1 ++ G2) 0 :=
        mem_labelled.2 ⟨by omega, g, by simpa using i3, i4⟩
      have h2 : (i', (⟨c, b, bp, x && decide (Z b = -Q b), x⟩ : Wr)) ∈ labelled (G1 ++ G2) 0 :=
        mem_labelled.2 ⟨by omega, g, by simpa using i3', i4⟩
      have r1 := (hok.hit _ h1).1
      have r2 := (hok.hit _ h2).1
      simp only at r1 r2
      rw [r1] at r2
      simpa using r2
  · intro c b bp b' bp' h1 h2 h3 h4 h5 h6 h2' h3' h5' h7 h8 h9 h10
    have hAb : A b ≠ A bp := fun e => h4 (h.inj c h1 b h2 bp h3 h5 h6 e)
    have h4' : b' ≠ bp' := by
      rintro rfl
      exact hAb (by omega)
    obtain ⟨b0, bp0, i, g, x, m1, m2, m3, m4, m5, m6, i1, i2, i3, i6, i4, i5⟩ :=
      hpair h1 h2 h3 h4 h5 h6
    obtain ⟨b0', bp0', i', g', x', m1', m2', m3', m4', m5', m6', i1', i2', i3', i6', i4', i5'⟩ :=
      hpair h1 h2' h3' h4' h5' (by omega)
    have hm := combs2_mem m1
    have hm' := combs2_mem m1'
    simp only at hm hm'
    rw [(hit _ _ _ i3 i4).2.2, (hit _ _ _ i3' i4').2.2]
    simp only
    have hxx : x = x' := by
      cases x <;> cases x' <;> simp only [if_true, Bool.false_eq_true, if_false] at m6 m6' <;>
        first
        | rfl
        | (exfalso
           have e1 : b0 = bp0' := h.inj c h1 _ hm.1 _ hm'.2 (by omega) (by omega) (by omega)
           have e2 : bp0 = b0' := h.inj c h1 _ hm.2 _ hm'.1 (by omega) (by omega) (by omega)
           rw [e1, e2] at m1
           exact combs2_asymm (hnd c h1) m1 m1')
    rw [hxx]
  · intro k hk
    have hlt : k < G1.length := by omega
    obtain ⟨c, b, h1, h2, h3⟩ := (memG1 _).1 (List.getElem_mem hlt)
    have hl := (dgrp h1 h2 h3).1
    refine ⟨c, b, h1, h2, hl, ?_⟩
    refine (hit k _ ⟨c, b, b, true, true⟩ (by rw [List.getElem?_append_left hlt, List.getElem?_eq_getElem hlt]) ?_).1
    rw [(dgrp h1 h2 h3).2]
    refine ⟨Z b, h.rng c h1 b h2, ?_⟩
    rw [h.self h1 h2]
    simp [hl]
  · intro k hk1 hk2
    have hlt : k - G1.length < G2.length := by omega
    obtain ⟨c, b, bp, h1, h2, h3⟩ := (memG2 _).1 (List.getElem_mem hlt)
    have hm := combs2_mem h2
    simp only at hm
    obtain ⟨l1, l2, l3, l4⟩ := pgrp h1 hm.1 hm.2 h3
    refine ⟨c, b, bp, h1, h2, l1, l2, l3, ?_⟩
    refine (hit k _ ⟨c, b, bp, true, true⟩ (by rw [List.getElem?_append_right (by omega), List.getElem?_eq_getElem hlt]) ?_).1
    rw [l4]
    refine ⟨Z b, h.rng c h1 b hm.1, Or.inr ?_⟩
    rw [h.self h1 hm.1, l2, h.self h1 hm.2, ← l2]
    simp [l1]
  · intro c b bp h1 h2 h3 h4 h5
    have hm := combs2_mem h2
    simp only at hm
    have hne := combs2_ne (hnd c h1) h2
    obtain ⟨b0, bp0, i, g, x, m1, m2, m3, m4, m5, m6, i1, i2, i3, i6, i4, i5⟩ :=
      hpair h1 hm.1 hm.2 hne h4 h5
    rw [(hit _ _ _ i3 i4).2.2]
    have hm0 := combs2_mem m1
    simp only at hm0
    cases x with
    | true => rfl
    | false =>
      exfalso
      simp only [Bool.false_eq_true, if_false] at m6
      have e1 : b0 = bp := h.inj c h1 _ hm0.1 _ hm.2 (by omega) (by omega) (by omega)
      have e2 : bp0 = b := h.inj c h1 _ hm0.2 _ hm.1 (by omega) (by omega) (by omega)
      rw [e1, e2] at m1
      exact combs2_asymm (hnd c h1) m1 h2

end

end Verif
