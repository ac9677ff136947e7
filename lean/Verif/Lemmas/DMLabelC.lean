import Verif.Lemmas.DMLabel

/-! Labels of `StateIndexingDMc` and `StateIndexingPauli`. -/

namespace Verif

/-- The labels of `StateIndexingDMc`. -/
structure LabDMc (m : Nat) (S : List (List Nat)) (incl : Nat → Nat → Bool) (d : DM) : Prop where
  npauli : d.npauli = pre (rowLen S) m
  le : d.npauli ≤ d.ndm0
  diag : ∀ c b, c < m → b ∈ rowOf S c →
    d.getIndDm0 b b (c : Int) = .ok (posP S c b : Int) ∧ d.getBoolDm0 b b (c : Int) = .ok true ∧
    d.mp.ind.get? (posP S c b) = some (b, b)
  off : ∀ c b bp, c < m → b ∈ rowOf S c → bp ∈ rowOf S c → b ≠ bp → incl b bp = true →
    ∃ k : Nat, d.npauli ≤ k ∧ k < d.ndm0 ∧ d.getIndDm0 b bp (c : Int) = .ok (k : Int) ∧
      d.getBoolDm0 b bp (c : Int) = .ok true ∧ d.mp.ind.get? k = some (b, bp)
  excl : ∀ c b bp, c < m → b ∈ rowOf S c → bp ∈ rowOf S c → b ≠ bp → incl b bp = false →
    d.getIndDm0 b bp (c : Int) = .ok (-1) ∧ d.getBoolDm0 b bp (c : Int) = .ok false
  inj : ∀ c b bp c' b' bp', c < m → b ∈ rowOf S c → bp ∈ rowOf S c → b ≠ bp → incl b bp = true →
    c' < m → b' ∈ rowOf S c' → bp' ∈ rowOf S c' → b' ≠ bp' → incl b' bp' = true →
    d.getIndDm0 b bp (c : Int) = d.getIndDm0 b' bp' (c' : Int) → c = c' ∧ b = b' ∧ bp = bp'
  surj : ∀ k, d.npauli ≤ k → k < d.ndm0 → ∃ c b bp, c < m ∧ b ∈ rowOf S c ∧ bp ∈ rowOf S c ∧
    b ≠ bp ∧ incl b bp = true ∧ d.getIndDm0 b bp (c : Int) = .ok (k : Int)
  indlt : ∀ k v, d.mp.ind.get? k = some v → k < d.ndm0
  full : (∀ b bp, incl b bp = true) → d.ndm0 = pre (fun c => rowLen S c ^ 2) m

/-- The labels of `StateIndexingPauli`. -/
structure LabP (m : Nat) (S : List (List Nat)) (d : DM) : Prop where
  npauli : d.npauli = pre (rowLen S) m
  diag : ∀ c b bp, c < m → b ∈ rowOf S c →
    d.getIndDm0 b bp (c : Int) = .ok (posP S c b : Int) ∧ d.getBoolDm0 b bp (c : Int) = .ok true

section
variable {m N : Nat} {S : List (List Nat)} {z : Nat → Int} {d : DM}

theorem memG1 (S : List (List Nat)) (m : Nat) (g : List Wr) :
    g ∈ (diagItems S m).filterMap gDiag ↔
      ∃ c b, c < m ∧ b ∈ rowOf S c ∧ g = [⟨c, b, b, true, true⟩] := by
  rw [gDiag_eq, List.mem_map]
  constructor
  · rintro ⟨⟨c, b⟩, h1, rfl⟩
    have := mem_diagItems.1 h1
    exact ⟨c, b, this.1, this.2, rfl⟩
  · rintro ⟨c, b, h1, h2, rfl⟩
    exact ⟨(c, b), mem_diagItems.2 ⟨h1, h2⟩, rfl⟩

theorem setMapdm_dmc (h : MapReady m N S z d) (hk : d.kind = .dmc) :
    ∃ d', d.setMapdm = .ok d' ∧ SameDict d d' ∧ LabDMc m S (inclOf d.si.indexing z) d' := by
  have hk' : d.kind ≠ .pauli := by rw [hk]; simp
  set incl := inclOf d.si.indexing z with hincl
  set G1 := (diagItems S m).filterMap gDiag with hG1
  set G2 := (pairItems perms2 S m).filterMap (gPairC incl) with hG2
  have hG1l : G1.length = pre (rowLen S) m := by
    rw [hG1, gDiag_eq, List.length_map, diagItems_length]
  have hnd := h.good.nodup
  have memG1 : ∀ g, g ∈ G1 ↔ ∃ c b, c < m ∧ b ∈ rowOf S c ∧ g = [⟨c, b, b, true, true⟩] :=
    memG1 S m
  have memG2 : ∀ g, g ∈ G2 ↔ ∃ c b bp, c < m ∧ (b, bp) ∈ perms2 (rowOf S c) ∧ incl b bp = true ∧
      g = [⟨c, b, bp, true, true⟩] := by
    intro g
    rw [hG2, mem_filterMap_gPairC]
    constructor
    · rintro ⟨c, b, bp, h1, h2, h3⟩
      have := mem_pairItems.1 h1
      exact ⟨c, b, bp, this.1, this.2, h2, h3⟩
    · rintro ⟨c, b, bp, h1, h2, h3, h4⟩
      exact ⟨c, b, bp, mem_pairItems.2 ⟨h1, h2⟩, h3, h4⟩
  have hv : ∀ g ∈ G1 ++ G2, ∀ w ∈ g, ValidW m S w := by
    intro g hg w hw
    rcases List.mem_append.1 hg with hg | hg
    · obtain ⟨c, b, h1, h2, rfl⟩ := (memG1 g).1 hg
      simp only [List.mem_singleton] at hw
      subst hw
      exact ⟨h1, h2, h2⟩
    · obtain ⟨c, b, bp, h1, h2, _, rfl⟩ := (memG2 g).1 hg
      have := (perms2_mem (hnd c h1)).1 h2
      simp only [List.mem_singleton] at hw
      subst hw
      exact ⟨h1, this.1, this.2.1⟩
  have hkey : ((G1 ++ G2).flatten.map Wr.key).Nodup := by
    rw [List.flatten_append, List.map_append, List.nodup_append]
    refine ⟨flatten_gDiag_nodup hnd, flatten_gPairC_nodup _ ?_, ?_⟩
    · exact pairItems_nodup (fun c hc => perms2_nodup (hnd c hc))
    · intro k hk1 k' hk2 e
      subst e
      simp only [List.mem_map, List.mem_flatten] at hk1 hk2
      obtain ⟨w, ⟨g, hg, hw⟩, rfl⟩ := hk1
      obtain ⟨w', ⟨g', hg', hw'⟩, e⟩ := hk2
      obtain ⟨c, b, h1, h2, rfl⟩ := (memG1 g).1 hg
      obtain ⟨c', x, y, h1', h2', _, rfl⟩ := (memG2 g').1 hg'
      have hne := ((perms2_mem (hnd c' h1')).1 h2').2.2
      simp only [List.mem_singleton] at hw hw'
      subst hw
      subst hw'
      simp only [Wr.key, Prod.mk.injEq] at e
      exact hne (by omega)
  have hdq : ∀ g ∈ G1 ++ G2, (g.filter fun w => w.dq).length ≤ 1 := by
    intro g hg
    rcases List.mem_append.1 hg with hg | hg
    · obtain ⟨c, b, h1, h2, rfl⟩ := (memG1 g).1 hg
      simp
    · obtain ⟨c, b, bp, h1, h2, _, rfl⟩ := (memG2 g).1 hg
      simp
  obtain ⟨st, hrun, hok⟩ := h.run hk' (G1 ++ G2) hv hkey hdq
  rw [labelled_append, Nat.zero_add, List.foldlM_append] at hrun
  obtain ⟨st1, hrun1⟩ : ∃ st1, (labelled G1 0).foldlM d.wr (MapSt.mk (List.replicate d.ndm0_ (-1))
        (List.replicate d.ndm0_ false) (List.replicate d.ndm0_ false) []) = .ok st1 := by
    cases hx : (labelled G1 0).foldlM d.wr (MapSt.mk (List.replicate d.ndm0_ (-1))
        (List.replicate d.ndm0_ false) (List.replicate d.ndm0_ false) []) with
    | ok st1 => exact ⟨st1, rfl⟩
    | error e => rw [hx] at hrun; cases hrun
  rw [hrun1, py_bind_ok] at hrun
  have hset : d.setMapdm = .ok { d with
      mp := st, npauli := G1.length, ndm0 := G1.length + G2.length,
      ndm0r := G1.length + 2 * (G1.length + G2.length - G1.length), ndm1 := d.ndm1_ } := by
    unfold DM.setMapdm
    simp only [hk', if_false, h.ncharge]
    rw [h.diagLoop, ← hG1, hrun1]
    simp only [py_bind_ok, Nat.zero_add]
    rw [h.offLoop_dmc hk, ← hincl, ← hG2, hrun]
    rfl
  refine ⟨_, hset, ⟨rfl, rfl, rfl, rfl, rfl, rfl, rfl, rfl, rfl, rfl, rfl, rfl, rfl⟩, ?_⟩
  generalize hd' : ({ d with
      mp := st, npauli := G1.length, ndm0 := G1.length + G2.length,
      ndm0r := G1.length + 2 * (G1.length + G2.length - G1.length), ndm1 := d.ndm1_ } : DM) = d'
  have hsame : SameDict d d' := by
    subst hd'; exact ⟨rfl, rfl, rfl, rfl, rfl, rfl, rfl, rfl, rfl, rfl, rfl, rfl, rfl⟩
  have hmp : d'.mp = st := by subst hd'; rfl
  have hnp : d'.npauli = G1.length := by subst hd'; rfl
  have hn0 : d'.ndm0 = G1.length + G2.length := by subst hd'; rfl
  clear hd'
  have raw : ∀ c b bp, c < m → b ∈ rowOf S c → bp ∈ rowOf S c →
      d'.rawInd0 b bp (c : Int) = .ok (pos0 S c b bp) := by
    intro c b bp h1 h2 h3
    rw [hsame.raw]
    exact h.dict.raw h1 h2 h3 hk'
  have hit : ∀ (i : Nat) (g : List Wr) (w : Wr), (G1 ++ G2)[i]? = some g → w ∈ g →
      d'.getIndDm0 w.b w.bp (w.ch : Int) = .ok (i : Int) ∧
      d'.getBoolDm0 w.b w.bp (w.ch : Int) = .ok w.dq := by
    intro i g w hg hw
    obtain ⟨a1, a2, a3⟩ := hv g (List.mem_of_getElem? hg) w hw
    have hm : (i, w) ∈ labelled (G1 ++ G2) 0 := mem_labelled.2 ⟨by omega, g, by simpa using hg, hw⟩
    obtain ⟨b1, b2, b3⟩ := hok.hit _ hm
    have hr := raw _ _ _ a1 a2 a3
    exact ⟨getIndDm0_of hmp hr b1, getBoolDm0_of hmp hr b2⟩
  have hind : ∀ (i : Nat) (g : List Wr) (w : Wr), (G1 ++ G2)[i]? = some g → w ∈ g →
      w.dq = true → d'.mp.ind.get? i = some (w.b, w.bp) := by
    intro i g w hg hw hdq
    rw [hmp, hok.ind hk']
    exact ⟨(i, w), mem_labelled.2 ⟨by omega, g, by simpa using hg, hw⟩, rfl, hdq, rfl⟩
  have hoff : ∀ c b bp, c < m → b ∈ rowOf S c → bp ∈ rowOf S c → b ≠ bp → incl b bp = true →
      ∃ k : Nat, d'.npauli ≤ k ∧ k < d'.ndm0 ∧ (G1 ++ G2)[k]? = some [⟨c, b, bp, true, true⟩] := by
    intro c b bp h1 h2 h3 h4 h5
    obtain ⟨j, hj, e⟩ := List.getElem_of_mem ((memG2 _).2 ⟨c, b, bp, h1,
      (perms2_mem (hnd c h1)).2 ⟨h2, h3, h4⟩, h5, rfl⟩)
    refine ⟨G1.length + j, by omega, by omega, ?_⟩
    rw [List.getElem?_append_right (by omega), Nat.add_sub_cancel_left,
      List.getElem?_eq_getElem hj, e]
  constructor
  · rw [hnp, hG1l]
  · omega
  · intro c b h1 h2
    have hg : (G1 ++ G2)[posP S c b]? = some [⟨c, b, b, true, true⟩] := by
      rw [List.getElem?_append_left (by rw [hG1l]; exact posP_lt h1 h2), hG1, gDiag_eq,
        List.getElem?_map, diagItems_get S m c b h1 h2]
      rfl
    obtain ⟨a1, a2⟩ := hit _ _ ⟨c, b, b, true, true⟩ hg (by simp)
    exact ⟨a1, a2, hind _ _ ⟨c, b, b, true, true⟩ hg (by simp) rfl⟩
  · intro c b bp h1 h2 h3 h4 h5
    obtain ⟨k, k1, k2, k3⟩ := hoff c b bp h1 h2 h3 h4 h5
    obtain ⟨a1, a2⟩ := hit _ _ ⟨c, b, bp, true, true⟩ k3 (by simp)
    exact ⟨k, k1, k2, a1, a2, hind _ _ ⟨c, b, bp, true, true⟩ k3 (by simp) rfl⟩
  · intro c b bp h1 h2 h3 h4 h5
    have hr := raw _ _ _ h1 h2 h3
    obtain ⟨b1, b2, b3⟩ := hok.miss (pos0 S c b bp) (by rw [h.ndm0]; exact pos0_lt h1 h2 h3) (by
      rintro ⟨i, w⟩ hx e
      obtain ⟨_, g, hg, hw⟩ := mem_labelled.1 hx
      have hgm := List.mem_of_getElem? hg
      obtain ⟨v1, v2, v3⟩ := hv g hgm w hw
      obtain ⟨rfl, e2, e3⟩ := pos0_inj v2 v3 h2 h3 e
      rcases List.mem_append.1 hgm with hg1 | hg2
      · obtain ⟨c, b', _, _, rfl⟩ := (memG1 g).1 hg1
        simp only [List.mem_singleton] at hw
        subst hw
        exact h4 (by rw [← e2, ← e3])
      · obtain ⟨c, x, y, _, _, hin, rfl⟩ := (memG2 g).1 hg2
        simp only [List.mem_singleton] at hw
        subst hw
        simp only at e2 e3
        rw [← e2, ← e3, hin] at h5; cases h5)
    exact ⟨getIndDm0_of hmp hr b1, getBoolDm0_of hmp hr b2⟩
  · intro c b bp c' b' bp' h1 h2 h3 h4 h5 h1' h2' h3' h4' h5' he
    obtain ⟨k, k1, k2, k3⟩ := hoff c b bp h1 h2 h3 h4 h5
    obtain ⟨k', k1', k2', k3'⟩ := hoff c' b' bp' h1' h2' h3' h4' h5'
    rw [(hit _ _ ⟨c, b, bp, true, true⟩ k3 (by simp)).1,
      (hit _ _ ⟨c', b', bp', true, true⟩ k3' (by simp)).1] at he
    simp only [Except.ok.injEq] at he
    have he : k = k' := by omega
    subst he
    rw [k3] at k3'
    simp at k3'
    omega
  · intro k hk1 hk2
    have hlt : k - G1.length < G2.length := by omega
    obtain ⟨c, b, bp, h1, h2, h3, e⟩ := (memG2 _).1 (List.getElem_mem hlt)
    have hg : (G1 ++ G2)[k]? = some [⟨c, b, bp, true, true⟩] := by
      rw [List.getElem?_append_right (by omega), List.getElem?_eq_getElem hlt, e]
    have hm := (perms2_mem (hnd c h1)).1 h2
    obtain ⟨a1, a2⟩ := hit _ _ ⟨c, b, bp, true, true⟩ hg (by simp)
    exact ⟨c, b, bp, h1, hm.1, hm.2.1, hm.2.2, h3, a1⟩
  · intro k v hkv
    rw [hmp, hok.ind hk'] at hkv
    obtain ⟨⟨i, w⟩, hx, rfl, _, _⟩ := hkv
    obtain ⟨_, g, hg, hw⟩ := mem_labelled.1 hx
    obtain ⟨h1, _⟩ := List.getElem?_eq_some_iff.1 hg
    simp only [List.length_append] at h1
    simp only
    omega
  · intro hall
    have hl2 : G2.length = (pairItems perms2 S m).length := by
      rw [hG2]
      have : (gPairC incl) = fun x : Nat × (Nat × Nat) =>
          some [⟨x.1, x.2.1, x.2.2, true, true⟩] := by
        funext x; simp [gPairC, hall]
      rw [this, List.filterMap_eq_map', List.length_map]
    have hl3 : ∀ t, t ≤ m → pre (rowLen S) t + (pairItems perms2 S t).length
        = pre (fun c => rowLen S c ^ 2) t := by
      intro t ht
      induction t with
      | zero => simp [pairItems]
      | succ t ih =>
        have : (pairItems perms2 S (t + 1)).length
            = (pairItems perms2 S t).length + (perms2 (rowOf S t)).length := by
          unfold pairItems
          rw [List.range_succ, List.flatMap_append]
          simp
        rw [this, pre_succ, pre_succ, ← ih (by omega)]
        have := perms2_length (hnd t (by omega))
        simp only [rowLen] at *
        omega
    rw [hn0, ← hl3 m (le_refl _), hl2, hG1l]

theorem setMapdm_pauli (h : MapReady m N S z d) (hk : d.kind = .pauli) :
    ∃ d', d.setMapdm = .ok d' ∧ SameDict d d' ∧ LabP m S d' := by
  set G1 := (diagItems S m).filterMap gDiag with hG1
  have hG1l : G1.length = pre (rowLen S) m := by
    rw [hG1, gDiag_eq, List.length_map, diagItems_length]
  have hnd := h.good.nodup
  have memG1 : ∀ g, g ∈ G1 ↔ ∃ c b, c < m ∧ b ∈ rowOf S c ∧ g = [⟨c, b, b, true, true⟩] :=
    memG1 S m
  have hv' : ∀ w ∈ G1.flatten, ValidW m S w ∧ w.bp = w.b := by
    intro w hw
    obtain ⟨g, hg, hw⟩ := List.mem_flatten.1 hw
    obtain ⟨c, b, h1, h2, rfl⟩ := (memG1 g).1 hg
    simp only [List.mem_singleton] at hw
    subst hw
    exact ⟨⟨h1, h2, h2⟩, rfl⟩
  have hkey : (G1.flatten.map Wr.key).Nodup := flatten_gDiag_nodup hnd
  obtain ⟨st, hrun, hok⟩ := writes_spec d d.npauli_ (fun w => posP S w.ch w.b) (labelled G1 0)
    (by
      rintro ⟨i, w⟩ hx
      have hw : w ∈ G1.flatten := by
        rw [← labelled_map_snd G1 0]
        exact List.mem_map_of_mem hx
      obtain ⟨⟨h1, h2, h3⟩, _⟩ := hv' w hw
      refine ⟨h.dict.rawP _ h1 h2 hk, ?_⟩
      rw [h.npauli]
      exact posP_lt h1 h2)
    (by
      have h2 : (G1.flatten.map fun w => posP S w.ch w.b).Nodup := by
        apply (List.nodup_map_iff_inj_on (List.Nodup.of_map _ hkey)).2
        intro x hx y hy e
        obtain ⟨⟨_, x2, _⟩, x4⟩ := hv' x hx
        obtain ⟨⟨_, y2, _⟩, y4⟩ := hv' y hy
        obtain ⟨e1, e2⟩ := posP_inj x2 y2 e
        exact List.inj_on_of_nodup_map hkey hx hy (by simp [Wr.key, e1, e2, x4, y4])
      rw [← labelled_map_snd G1 0, List.map_map] at h2
      exact h2)
    (labelled_dq_nodup G1 0 (by
      intro g hg
      obtain ⟨c, b, h1, h2, rfl⟩ := (memG1 g).1 hg
      simp))
  have hset : d.setMapdm = .ok { d with
      mp := st, npauli := G1.length, ndm0 := G1.length,
      ndm0r := G1.length + 2 * (G1.length - G1.length), ndm1 := d.ndm1_ } := by
    unfold DM.setMapdm DM.offLoop
    simp only [hk, if_true, h.ncharge]
    rw [h.diagLoop, ← hG1, hrun]
    simp only [py_bind_ok, Nat.zero_add]
    rfl
  refine ⟨_, hset, ⟨rfl, rfl, rfl, rfl, rfl, rfl, rfl, rfl, rfl, rfl, rfl, rfl, rfl⟩, hG1l, ?_⟩
  intro c b bp h1 h2
  generalize hd' : ({ d with
      mp := st, npauli := G1.length, ndm0 := G1.length,
      ndm0r := G1.length + 2 * (G1.length - G1.length), ndm1 := d.ndm1_ } : DM) = d'
  have hsame : SameDict d d' := by
    subst hd'; exact ⟨rfl, rfl, rfl, rfl, rfl, rfl, rfl, rfl, rfl, rfl, rfl, rfl, rfl⟩
  have hmp : d'.mp = st := by subst hd'; rfl
  have hg : G1[posP S c b]? = some [⟨c, b, b, true, true⟩] := by
    rw [hG1, gDiag_eq, List.getElem?_map, diagItems_get S m c b h1 h2]
    rfl
  have hm : (posP S c b, (⟨c, b, b, true, true⟩ : Wr)) ∈ labelled G1 0 :=
    mem_labelled.2 ⟨by omega, _, by simpa using hg, by simp⟩
  obtain ⟨b1, b2, b3⟩ := hok.hit _ hm
  have hr : d'.rawInd0 b bp (c : Int) = .ok (posP S c b) := by
    rw [hsame.raw]; exact h.dict.rawP _ h1 h2 hk
  exact ⟨getIndDm0_of hmp hr b1, getBoolDm0_of hmp hr b2⟩

end

end Verif
