import Verif.Lemmas.DMLabelS
import Verif.Props.DM

/-! C74: with 'ssq' indexing the members of a spin multiplet share one label. -/

namespace Verif
open Spec

/-- Twice the spin projection that `ind_qn` lists for the state `b`. -/
def SI.spinZ (si : SI) (b : Nat) : Int := ((si.indQn.get? b).getD []).getD 1 0

/-- Twice the total spin that `ind_qn` lists for the state `b`. -/
def SI.spinS (si : SI) (b : Nat) : Int := ((si.indQn.get? b).getD []).getD 2 0

/-- The number that `ind_qn` lists for the state `b` among those of equal charge and spin. -/
def SI.multNo (si : SI) (b : Nat) : Int := ((si.indQn.get? b).getD []).getD 3 0

/-- The considered states form complete multiplets: a state of charge `c` in the list number `c`,
and with each state those with the other projections of the spin. -/
def Complete (n : Nat) (si : SI) (S : List (List Nat)) : Prop :=
  ∀ c b, Considered n S c b → si.indQn.get? b = some [(c : Int), si.spinZ b, si.spinS b, si.multNo b] ∧
    ∀ z, Proj (si.spinS b) z → ∃ b', Considered n S c b' ∧
      si.indQn.get? b' = some [(c : Int), z, si.spinS b, si.multNo b]

/-! ### The quantum numbers of 'ssq' -/

theorem ssqM_depth (n c k q k' q' : Nat) (h : ssqE n c k - q = ssqE n c k' - q')
    : ssqM n c k q = ssqM n c k' q' := by
  unfold ssqM
  unfold ssqE at h
  have h1 : q < min k (szW n c - k) ↔ q' < min k' (szW n c - k') := by omega
  rw [h]
  by_cases h2 : q < min k (szW n c - k)
  · rw [if_pos h2, if_pos (h1.1 h2)]
  · rw [if_neg h2, if_neg (fun hh => h2 (h1.2 hh))]

theorem SIInv.ssq_key {n : Nat} {si : SI} (h : SIInv n si) (hix : si.indexing = .ssq) {b : Nat}
    {key : QN} (hb : si.indQn.get? b = some key) : ∃ c k q α : Nat, c ≤ n ∧ k ≤ szW n c ∧
      q ≤ ssqE n c k ∧ key = [(c : Int), -(szW n c : Int) + 2 * (k : Int),
        ((szW n c - 2 * ssqE n c k : Nat) : Int) + 2 * (q : Int), (α : Int)] ∧
      (ssqCell n c k q)[α]? = some b := by
  obtain ⟨_, _, hok⟩ := h.qn_ssq hix
  obtain ⟨B, hB, α, rfl, hα⟩ := (hok.bwd _ _).1 hb
  unfold ssqBlocks at hB
  obtain ⟨c, hc, hB⟩ := List.mem_flatMap.1 hB
  obtain ⟨k, hk, hB⟩ := List.mem_flatMap.1 hB
  obtain ⟨q, hq, rfl⟩ := List.mem_map.1 hB
  simp only [List.mem_range] at hc hk hq
  exact ⟨c, k, q, α, by omega, by omega, by omega, rfl, hα⟩

theorem SIInv.ssq_get {n : Nat} {si : SI} (h : SIInv n si) (hix : si.indexing = .ssq)
    {c k q α b : Nat} (hc : c ≤ n) (hk : k ≤ szW n c) (hq : q ≤ ssqE n c k)
    (hα : (ssqCell n c k q)[α]? = some b) :
    si.indQn.get? b = some [(c : Int), -(szW n c : Int) + 2 * (k : Int),
        ((szW n c - 2 * ssqE n c k : Nat) : Int) + 2 * (q : Int), (α : Int)] ∧
    ∃ hb : b < si.i.length, charge n si.i[b] = c := by
  obtain ⟨_, hsz, hok⟩ := h.qn_ssq hix
  have hn := (h.sz (Or.inr hix)).1
  refine ⟨(hok.bwd _ _).2 ⟨([(c : Int), -(szW n c : Int) + 2 * (k : Int),
        ((szW n c - 2 * ssqE n c k : Nat) : Int) + 2 * (q : Int)], ssqCell n c k q), ?_, α, rfl, hα⟩, ?_⟩
  · unfold ssqBlocks
    exact List.mem_flatMap.2 ⟨c, by simp; omega, List.mem_flatMap.2 ⟨k, by simp; omega,
      List.mem_map.2 ⟨q, by simp; omega, rfl⟩⟩⟩
  · obtain ⟨T, R, l, g1, g2, g3, _, _, g5⟩ := h.sz_row (Or.inr hix) c k hc hk
    rw [hsz] at g1
    simp only [Option.some.injEq] at g1
    subst g1
    rw [pyGet_map_range _ _ _ (by omega)] at g2
    simp only [Except.ok.injEq] at g2
    subst g2
    rw [pyGet_map_range _ _ _ (by omega)] at g3
    simp only [Except.ok.injEq] at g3
    subst g3
    obtain ⟨hb, h1, _⟩ := (g5 b).1 (by
      rw [← ssqCell_flatten n c k hn hc hk]
      exact List.mem_flatten.2 ⟨_, List.mem_map.2 ⟨q, by simp; omega, rfl⟩, List.mem_of_getElem? hα⟩)
    exact ⟨hb, h1⟩

/-- Quantum numbers of a state of charge `c` and the other members of its multiplet. -/
theorem SIInv.ssq_mult {n : Nat} {si : SI} (h : SIInv n si) (hix : si.indexing = .ssq) {c b : Nat}
    (hc : c ≤ n) (hb : b ∈ rowOf si.chargelst c) :
    si.indQn.get? b = some [(c : Int), si.spinZ b, si.spinS b, si.multNo b] ∧
    Proj (si.spinS b) (si.spinZ b) ∧
    ∀ z, Proj (si.spinS b) z → ∃ b', b' ∈ rowOf si.chargelst c ∧
      si.indQn.get? b' = some [(c : Int), z, si.spinS b, si.multNo b] := by
  obtain ⟨hb1, hch⟩ := ((h.rowOf_mem hc).2 b).1 hb
  obtain ⟨key, hkey⟩ := ((dictsOk_of_inv h).domain b).2 (by rw [← h.ilen]; exact hb1)
  obtain ⟨c', k, q, α, g1, g2, g3, rfl, g5⟩ := h.ssq_key hix hkey
  obtain ⟨_, _, e⟩ := h.ssq_get hix g1 g2 g3 g5
  rw [hch] at e
  subst e
  have e1 : si.spinZ b = -(szW n c : Int) + 2 * (k : Int) := by simp [SI.spinZ, hkey]
  have e2 : si.spinS b = ((szW n c - 2 * ssqE n c k : Nat) : Int) + 2 * (q : Int) := by
    simp [SI.spinS, hkey]
  have e3 : si.multNo b = (α : Int) := by simp [SI.multNo, hkey]
  have hE : ssqE n c k = min k (szW n c - k) := rfl
  rw [e1, e2, e3]
  refine ⟨hkey, ?_, ?_⟩
  · unfold Proj; omega
  · intro z hz
    unfold Proj at hz
    set k' := ((z + szW n c) / 2).toNat with hk'
    have hE' : ssqE n c k' = min k' (szW n c - k') := rfl
    have hz' : z = -(szW n c : Int) + 2 * (k' : Int) := by omega
    set q' := ssqE n c k' - (ssqE n c k - q) with hq'
    have hM := ssqM_depth n c k q k' q' (by omega)
    have hα : α < ssqM n c k q := by
      have := (List.getElem?_eq_some_iff.1 g5).1
      simpa [ssqCell] using this
    obtain ⟨b', hb'⟩ : ∃ b', (ssqCell n c k' q')[α]? = some b' := by
      have : α < (ssqCell n c k' q').length := by simp [ssqCell]; omega
      exact ⟨_, List.getElem?_eq_getElem this⟩
    obtain ⟨f1, f2⟩ := h.ssq_get hix g1 (by omega) (by omega) hb'
    refine ⟨b', ((h.rowOf_mem hc).2 b').2 f2, ?_⟩
    have e5 : ((szW n c - 2 * ssqE n c k' : Nat) : Int) + 2 * (q' : Int)
        = ((szW n c - 2 * ssqE n c k : Nat) : Int) + 2 * (q : Int) := by omega
    rw [f1, hz', e5]

/-! ### `set_statesdm` -/

theorem SI.spin_of {si : SI} {b : Nat} {c z q a : Int} (h : si.indQn.get? b = some [c, z, q, a]) :
    si.spinZ b = z ∧ si.spinS b = q ∧ si.multNo b = a := by
  simp [SI.spinZ, SI.spinS, SI.multNo, h]

/-- `set_statesdm` with 'ssq' indexing and complete multiplets. -/
theorem setStatesdm_ssq {n : Nat} {d : DM} {S : List (List Nat)} (hsi : SIX n 0 d.si)
    (hk : d.kind = .dm) (hix : d.si.indexing = .ssq) (hsh : DMShape (n + 1) (2 ^ n) d)
    (hS : Legal d.si S) (hc : Complete n d.si S) :
    ∃ d', d.setStatesdm S = .ok d' ∧ d'.si = { d.si with statesChanged := true } ∧
      LabS (n + 1) S d.si.spinZ d.si.spinS d.si.multNo d' := by
  have hg := hS.good hsi
  have hcount : countStates d.si.ncharge (if d.kind = .dm then S else S ++ [[]])
      = .ok (pre (rowLen S) (n + 1), pre (fun c => rowLen S c ^ 2) (n + 1),
        pre (fun c => rowLen S c * rowLen S (c + 1)) (n + 1 - 1)) := by
    rw [hsh.ncharge, if_pos hk]
    exact countStates_eq _ _ hg.len
  have hset : d.setStatesdm S = (do
      let d1 ← (d.counted S (n + 1)).setDictdm
      let d2 ← d1.setMapdm
      pure { d2 with si := { d2.si with statesChanged := true } }) := by
    unfold DM.setStatesdm
    simp only [hcount, py_bind_ok]
    rfl
  obtain ⟨d1, e1, sh1, dk1, so1⟩ := setDictdm_spec (n + 1) (2 ^ n) S
    (d.counted S (n + 1))
    ⟨hsh.ncharge, hsh.pos, hsh.len, hsh.s0, hsh.s00, hsh.s1, hsh.s10, hsh.dict⟩ hg
    (fun c hc => rfl)
  rw [e1] at hset
  simp only [py_bind_ok] at hset
  obtain ⟨k1, k2, k3, k4, k5, k6, k7, k8⟩ := so1
  simp only [DM.counted] at k1 k2 k3 k4 k5 k6 k7 k8
  have hrows : ∀ c, c < n + 1 → pyGet d1.statesdm (c : Int) = .ok (rowOf S c) := by
    intro c hc
    have hl := hg.len
    rw [k3, pyGet_nat _ (by simp; omega), List.getElem_append_left (by omega)]
    simp [rowOf, show c < S.length by omega]
  obtain ⟨s, hs, es⟩ := hsi
  have q1 : d.si.qnInd = s.qnInd := by rw [es]
  have q2 : d.si.indQn = s.indQn := by rw [es]
  have q3 : s.indexing = .ssq := by rw [es] at hix; exact hix
  have hinv : ∀ key k, d.si.qnInd.get? key = some k ↔ d.si.indQn.get? k = some key := by
    intro key k
    rw [q1, q2]
    exact (dictsOk_of_inv hs).inverse key k
  have hready : MultReady (n + 1) (2 ^ n) S d.si.spinZ d.si.spinS d.si.multNo
      (fun c z q a => (d.si.qnInd.get? [(c : Int), z, q, a]).getD 0) d1 := by
    refine ⟨sh1.ncharge, dk1, hg, hrows, k5, by rw [k2]; exact hix, ?_, ?_, ?_, ?_⟩
    · intro c hcm b hb
      obtain ⟨h1, _⟩ := hc c b ⟨by omega, hb⟩
      rw [k2]
      unfold SI.qn4
      simp only [Dict.get, h1, py_bind_ok]
      rfl
    · intro c hcm b hb
      obtain ⟨h1, _⟩ := hc c b ⟨by omega, hb⟩
      rw [q2] at h1
      obtain ⟨c', k, q, α, g1, g2, g3, g4, g5⟩ := hs.ssq_key q3 h1
      simp only [List.cons.injEq] at g4
      have hE : ssqE n c' k = min k (szW n c' - k) := rfl
      unfold Proj
      omega
    · intro c hcm b hb z hz
      obtain ⟨_, h2⟩ := hc c b ⟨by omega, hb⟩
      obtain ⟨b', h3, h4⟩ := h2 z hz
      have h5 := (hinv _ _).2 h4
      rw [k2]
      simp only [Dict.get, h5, Option.getD_some]
      obtain ⟨f1, f2, f3⟩ := SI.spin_of h4
      exact ⟨trivial, h3.2, f1, f2, f3⟩
    · intro c hcm b hb b' hb' z1 z2 z3
      obtain ⟨h1, _⟩ := hc c b ⟨by omega, hb⟩
      obtain ⟨h2, _⟩ := hc c b' ⟨by omega, hb'⟩
      rw [z1, z2, z3] at h1
      have f1 := (hinv _ _).2 h1
      have f2 := (hinv _ _).2 h2
      rw [f1] at f2
      simpa using f2
  obtain ⟨d2, a1, a2, a3⟩ := setMapdm_ssq hready (by rw [k1, hk])
  rw [a1] at hset
  refine ⟨_, hset, ?_, ?_⟩
  · obtain ⟨s1, s2, _⟩ := a2
    simp only [s2, k2]
  · obtain ⟨b1, b2, b3, b4, b5, b6, b7, b8, b9, b10, b11⟩ := a3
    exact ⟨b1, b2, b3, b4, b5, b6, b7, b8, b9, b10, b11⟩

theorem SIX.complete {n : Nat} {si : SI} (h : SIX n 0 si) (hix : si.indexing = .ssq) :
    Complete n si si.chargelst := by
  obtain ⟨s, hs, e⟩ := h
  have q3 : s.indexing = .ssq := by rw [e] at hix; exact hix
  have e1 : si.chargelst = s.chargelst := by rw [e]; simp
  have e2 : si.indQn = s.indQn := by rw [e]
  have e3 : si.spinZ = s.spinZ := by funext b; unfold SI.spinZ; rw [e2]
  have e4 : si.spinS = s.spinS := by funext b; unfold SI.spinS; rw [e2]
  have e5 : si.multNo = s.multNo := by funext b; unfold SI.multNo; rw [e2]
  rintro c b ⟨h1, h2⟩
  rw [e1] at h2
  obtain ⟨g1, g2, g3⟩ := hs.ssq_mult q3 h1 h2
  rw [e2, e3, e4, e5]
  refine ⟨g1, fun z hz => ?_⟩
  obtain ⟨b', f1, f2⟩ := g3 z hz
  exact ⟨b', ⟨h1, by rw [e1]; exact f1⟩, f2⟩

theorem LabS.congr {m : Nat} {S : List (List Nat)} {Z Q A : Nat → Int} {d : DM}
    (h : LabS m S Z Q A d) {Z' Q' A' : Nat → Int} (h1 : Z = Z') (h2 : Q = Q') (h3 : A = A') :
    LabS m S Z' Q' A' d := by subst h1 h2 h3; exact h

theorem setStatesAll_ssq {n : Nat} {d : DM} (hsi : SIX n 0 d.si)
    (hk : d.kind = .dm) (hix : d.si.indexing = .ssq) (hsh : DMShape (n + 1) (2 ^ n) d) :
    ∃ d', d.setStatesAll = .ok d' ∧ d'.si = { d.si with statesChanged := true } ∧
      LabS (n + 1) d.si.chargelst d.si.spinZ d.si.spinS d.si.multNo d' := by
  obtain ⟨d', h1, h2, h3⟩ := setStatesdm_ssq hsi hk hix hsh hsi.legal (hsi.complete hix)
  refine ⟨d', ?_, h2, h3⟩
  unfold DM.setStatesAll
  rw [h1]
  simp only [py_bind_ok, if_pos hk, py_pure]

theorem Reach.labS {n : Nat} {ix : String} {d : DM} {S : List (List Nat)} (h : Reach .dm n ix d S)
    (hix : d.si.indexing = .ssq) (hc : Complete n d.si S) :
    LabS (n + 1) S d.si.spinZ d.si.spinS d.si.multNo d := by
  cases h with
  | @init si d h1 h2 =>
    obtain ⟨si', g1, hinv, hch, hr⟩ := init_inv n ix
    rw [h1] at g1
    simp only [Except.ok.injEq] at g1
    subst g1
    have hsix : SIX n 0 si := ⟨si, hinv, by simp⟩
    have hnm : si.nmany = 2 ^ n := by rw [hinv.nmany, hr]; simp
    have hix' : si.indexing = .ssq := by
      rw [hch, ← ((init_dm_inv .dm n ix).2 d h2).choose_spec.2.2.2.1]; exact hix
    unfold DM.init at h2
    rw [h1] at h2
    simp only [py_bind_ok] at h2
    obtain ⟨d', f1, f2, f3⟩ := setStatesAll_ssq (n := n) (d := DM.blank .dm si n) hsix rfl hix'
      ⟨hinv.ncharge, by omega, by simp [DM.blank, hinv.ncharge], by simp [DM.blank, hinv.ncharge],
        by simp [DM.blank], by simp [DM.blank, hinv.ncharge], by simp [DM.blank, hinv.ncharge],
        by simp [DM.blank, hnm]⟩
    have e : d = d' := by
      have := h2.symm.trans f1
      simpa using this
    subst e
    exact f3.congr (by rw [f2]; rfl) (by rw [f2]; rfl) (by rw [f2]; rfl)
  | @set d0 S0 _ _ r hl hs =>
    obtain ⟨hi, hk, hx⟩ := r.inv
    obtain ⟨k, h1, h2⟩ := hi.si
    have : k = 0 := h2 hk
    subst this
    have hx' : d0.si.indexing = .ssq := by
      have := ((setStatesdm_inv h1 h2 hi.shape hl hi.tot0 hi.tot1).2 _ hs).2.2
      rw [this] at hix; exact hix
    have hsi := ((setStatesdm_inv h1 h2 hi.shape hl hi.tot0 hi.tot1).2 _ hs).2.2
    obtain ⟨d', f1, f2, f3⟩ := setStatesdm_ssq h1 hk hx' hi.shape hl (by rw [hsi] at hc; exact hc)
    rw [hs] at f1
    simp only [Except.ok.injEq] at f1
    subst f1
    exact f3.congr (by rw [f2]; rfl) (by rw [f2]; rfl) (by rw [f2]; rfl)
  | @all d0 S0 _ r hs =>
    obtain ⟨hi, hk, hx⟩ := r.inv
    obtain ⟨k, h1, h2⟩ := hi.si
    have : k = 0 := h2 hk
    subst this
    have hx' : d0.si.indexing = .ssq := by
      obtain ⟨_, _, k', a3⟩ := (setStatesAll_inv h1 h2 hi.shape hi.tot0 hi.tot1).2 _ hs
      rw [a3] at hix; exact hix
    obtain ⟨d', f1, f2, f3⟩ := setStatesAll_ssq h1 hk hx' hi.shape
    rw [hs] at f1
    simp only [Except.ok.injEq] at f1
    subst f1
    exact f3.congr (by rw [f2]; rfl) (by rw [f2]; rfl) (by rw [f2]; rfl)
  | @remove d0 S0 inds si' _ r hl hin hs hr =>
    obtain ⟨hi, hk, hx⟩ := r.inv
    obtain ⟨k, h1, h2⟩ := hi.si
    have : k = 0 := h2 hk
    subst this
    have hx' : d0.si.indexing = .ssq := by
      have := (Reach.remove r hl hin hs hr).inv.2.2
      rw [hx, ← this]; exact hix
    have hsi' : si' = d0.si := by
      unfold SI.removeFockStates at hs
      rw [if_pos hx'] at hs
      simpa using hs.symm
    subst hsi'
    unfold DM.removeFockStates at hr
    rw [hs] at hr
    simp only [py_bind_ok] at hr
    obtain ⟨d', f1, f2, f3⟩ := setStatesAll_ssq h1 hk hx' hi.shape
    have e : d = d' := by
      have := hr.symm.trans f1
      simpa using this
    subst e
    exact f3.congr (by rw [f2]; rfl) (by rw [f2]; rfl) (by rw [f2]; rfl)

/-! ### C74 -/

/-- Members of one multiplet: equal charge, total spin and number. -/
def SameMult (si : SI) (c b c' b' : Nat) : Prop :=
  c = c' ∧ si.spinS b = si.spinS b' ∧ si.multNo b = si.multNo b'

/-- Labels of the density matrix elements with 'ssq' indexing. -/
structure MultLabels (n : Nat) (S : List (List Nat)) (d : DM) : Prop where
  /-- Populations: labels below `npauli`; the state of lowest projection is the one whose equation
  is kept. -/
  diag : ∀ c b, Considered n S c b → ∃ k : Nat, k < d.npauli ∧ d.getIndDm0 b b c = .ok (k : Int) ∧
    d.getBoolDm0 b b c = .ok (decide (d.si.spinZ b = -d.si.spinS b)) ∧
    d.getConjDm0 b b c = .ok true
  /-- Two populations share a label exactly when they belong to the same multiplet. -/
  diag_iff : ∀ c b c' b', Considered n S c b → Considered n S c' b' →
    (d.getIndDm0 b b c = d.getIndDm0 b' b' c' ↔ SameMult d.si c b c' b')
  /-- Every label of a population belongs to a multiplet, through its lowest state. -/
  diag_surj : ∀ k, k < d.npauli → ∃ c b, Considered n S c b ∧ d.si.spinZ b = -d.si.spinS b ∧
    d.getIndDm0 b b c = .ok (k : Int)
  /-- There are as many of them as considered states of projection 0 or 1/2. -/
  count : d.npauli = ((List.range (n + 1)).map fun c =>
    ((S[c]?.getD []).filter fun b => d.si.spinZ b = ((c % 2 : Nat) : Int)).length).sum
  /-- Coherences between states of equal spin and projection: one label for the element and its
  mirror image, which is marked as conjugated. -/
  off : ∀ c b bp, Considered n S c b → Considered n S c bp → b ≠ bp →
    d.si.spinZ b = d.si.spinZ bp → d.si.spinS b = d.si.spinS bp →
    ∃ (k : Nat) (x : Bool), d.npauli ≤ k ∧ k < d.ndm0 ∧
      d.getIndDm0 b bp c = .ok (k : Int) ∧ d.getIndDm0 bp b c = .ok (k : Int) ∧
      d.getConjDm0 b bp c = .ok x ∧ d.getConjDm0 bp b c = .ok (!x) ∧
      d.getBoolDm0 b bp c = .ok (x && decide (d.si.spinZ b = -d.si.spinS b)) ∧
      d.getBoolDm0 bp b c = .ok (!x && decide (d.si.spinZ b = -d.si.spinS b))
  /-- Two of them share a label exactly when they connect the same two multiplets. -/
  off_iff : ∀ c b bp c' b' bp', Considered n S c b → Considered n S c bp → b ≠ bp →
    d.si.spinZ b = d.si.spinZ bp → d.si.spinS b = d.si.spinS bp →
    Considered n S c' b' → Considered n S c' bp' → b' ≠ bp' →
    d.si.spinZ b' = d.si.spinZ bp' → d.si.spinS b' = d.si.spinS bp' →
    (d.getIndDm0 b bp c = d.getIndDm0 b' bp' c' ↔
      (SameMult d.si c b c' b' ∧ SameMult d.si c bp c' bp') ∨
      (SameMult d.si c b c' bp' ∧ SameMult d.si c bp c' b'))
  /-- Corresponding elements are conjugated alike. -/
  off_conj : ∀ c b bp b' bp', Considered n S c b → Considered n S c bp → b ≠ bp →
    d.si.spinZ b = d.si.spinZ bp → d.si.spinS b = d.si.spinS bp →
    Considered n S c b' → Considered n S c bp' → d.si.spinZ b' = d.si.spinZ bp' →
    SameMult d.si c b c b' → SameMult d.si c bp c bp' →
    d.getConjDm0 b bp c = d.getConjDm0 b' bp' c
  off_surj : ∀ k, d.npauli ≤ k → k < d.ndm0 → ∃ c b bp, Considered n S c b ∧
    Considered n S c bp ∧ b ≠ bp ∧ d.si.spinZ b = -d.si.spinS b ∧
    d.si.spinZ b = d.si.spinZ bp ∧ d.si.spinS b = d.si.spinS bp ∧
    d.getIndDm0 b bp c = .ok (k : Int)
  /-- All other coherences are excluded. -/
  excl : ∀ c b bp, Considered n S c b → Considered n S c bp → b ≠ bp →
    ¬ (d.si.spinZ b = d.si.spinZ bp ∧ d.si.spinS b = d.si.spinS bp) →
    d.getIndDm0 b bp c = .ok (-1) ∧ d.getBoolDm0 b bp c = .ok false
  ndm0r : d.ndm0r = d.npauli + 2 * (d.ndm0 - d.npauli)

theorem length_of_labels {α : Type} (L : List α) (f : α → Nat) (N : Nat) (hL : L.Nodup)
    (hlt : ∀ x ∈ L, f x < N) (hinj : ∀ x ∈ L, ∀ y ∈ L, f x = f y → x = y)
    (hsurj : ∀ k, k < N → ∃ x ∈ L, f x = k) : L.length = N := by
  have h1 : (L.map f).Nodup := List.Nodup.map_on hinj hL
  have h2 : (L.map f).Perm (List.range N) := by
    rw [List.perm_ext_iff_of_nodup h1 List.nodup_range]
    intro k
    rw [List.mem_map, List.mem_range]
    constructor
    · rintro ⟨x, hx, rfl⟩; exact hlt x hx
    · intro hk; exact hsurj k hk
  simpa using h2.length_eq

theorem MultLabels.of_labS {n : Nat} {d : DM} {S : List (List Nat)}
    (hg : ∀ c, c < n + 1 → (rowOf S c).Nodup) (hc : Complete n d.si S)
    (hpar : ∀ c b, Considered n S c b → (d.si.spinS b - c) % 2 = 0 ∧ 0 ≤ d.si.spinS b)
    (hid : ∀ b b' key, d.si.indQn.get? b = some key → d.si.indQn.get? b' = some key → b = b')
    (h : LabS (n + 1) S d.si.spinZ d.si.spinS d.si.multNo d) : MultLabels n S d := by
  have lt : ∀ {c b}, Considered n S c b → c < n + 1 := fun h => by have := h.1; omega
  constructor
  · intro c b h1; exact h.diag c b (lt h1) h1.2
  · intro c b c' b' h1 h2; exact h.diag_iff c b c' b' (lt h1) h1.2 (lt h2) h2.2
  · intro k hk
    obtain ⟨c, b, h1, h2, h3, h4⟩ := h.surjD k hk
    exact ⟨c, b, ⟨by omega, h2⟩, h3, h4⟩
  · set L := (List.range (n + 1)).flatMap fun c =>
      ((S[c]?.getD []).filter fun b => d.si.spinZ b = ((c % 2 : Nat) : Int)).map fun b => (c, b) with hL
    have hmem : ∀ c b, (c, b) ∈ L ↔ Considered n S c b ∧ d.si.spinZ b = ((c % 2 : Nat) : Int) := by
      intro c b
      rw [hL]
      simp only [List.mem_flatMap, List.mem_range, List.mem_map, List.mem_filter, Prod.mk.injEq,
        decide_eq_true_eq, Considered]
      constructor
      · rintro ⟨_, h1, _, ⟨h2, h3⟩, rfl, rfl⟩; exact ⟨⟨by omega, h2⟩, h3⟩
      · rintro ⟨⟨h1, h2⟩, h3⟩; exact ⟨c, by omega, b, ⟨h2, h3⟩, rfl, rfl⟩
    have hlen : L.length = ((List.range (n + 1)).map fun c =>
        ((S[c]?.getD []).filter fun b => d.si.spinZ b = ((c % 2 : Nat) : Int)).length).sum := by
      rw [hL, List.length_flatMap]
      simp
    rw [← hlen]
    symm
    have hlab : ∀ x : Nat × Nat, Considered n S x.1 x.2 → ∃ k : Nat, k < d.npauli ∧
        d.getIndDm0 x.2 x.2 (x.1 : Int) = .ok (k : Int) := by
      rintro ⟨c, b⟩ hx
      obtain ⟨k, h1, h2, _⟩ := h.diag c b (lt hx) hx.2
      exact ⟨k, h1, h2⟩
    let f : Nat × Nat → Nat := fun x =>
      match d.getIndDm0 x.2 x.2 (x.1 : Int) with | .ok k => k.toNat | .error _ => 0
    have hf : ∀ {x : Nat × Nat} {k : Nat}, d.getIndDm0 x.2 x.2 (x.1 : Int) = .ok (k : Int) → f x = k := by
      intro x k hk
      show (match d.getIndDm0 x.2 x.2 (x.1 : Int) with | .ok k => k.toNat | .error _ => 0) = k
      rw [hk]; rfl
    apply length_of_labels L f
    · rw [hL, List.nodup_flatMap]
      constructor
      · intro c hc
        apply List.Nodup.map (fun a b hab => by simpa using hab)
        exact (hg c (by simpa using hc)).filter _
      · refine List.Pairwise.imp ?_ List.nodup_range
        intro c1 c2 hne x hx hy
        simp only [List.mem_map] at hx hy
        obtain ⟨b, _, rfl⟩ := hx
        obtain ⟨b', _, e⟩ := hy
        simp only [Prod.mk.injEq] at e
        exact hne e.1.symm
    · rintro ⟨c, b⟩ hx
      obtain ⟨k, h1, h2⟩ := hlab (c, b) ((hmem c b).1 hx).1
      rw [hf h2]; exact h1
    · rintro ⟨c, b⟩ hx ⟨c', b'⟩ hy e
      obtain ⟨hx, hz⟩ := (hmem c b).1 hx
      obtain ⟨hy, hz'⟩ := (hmem c' b').1 hy
      obtain ⟨k, h1, h2⟩ := hlab (c, b) hx
      obtain ⟨k', h1', h2'⟩ := hlab (c', b') hy
      rw [hf h2, hf h2'] at e
      subst e
      obtain ⟨rfl, e2, e3⟩ := (h.diag_iff c b c' b' (lt hx) hx.2 (lt hy) hy.2).1 (h2.trans h2'.symm)
      have i1 := (hc c b hx).1
      have i2 := (hc c b' hy).1
      rw [hz, e2, e3] at i1
      rw [hz'] at i2
      rw [hid b b' _ i1 i2]
    · intro k hk
      obtain ⟨c, b, h1, h2, h3, h4⟩ := h.surjD k hk
      have hcb : Considered n S c b := ⟨by omega, h2⟩
      have hp := hpar c b hcb
      obtain ⟨b', hb', e⟩ := (hc c b hcb).2 ((c % 2 : Nat) : Int) (by unfold Proj; omega)
      obtain ⟨e1, e2, e3⟩ := SI.spin_of e
      refine ⟨(c, b'), (hmem c b').2 ⟨hb', e1⟩, hf ?_⟩
      rw [← h4]
      exact (h.diag_iff c b' c b h1 hb'.2 h1 h2).2 ⟨rfl, e2, e3⟩
  · intro c b bp h1 h2 h3 h4 h5; exact h.off c b bp (lt h1) h1.2 h2.2 h3 h4 h5
  · intro c b bp c' b' bp' h1 h2 h3 h4 h5 h1' h2' h3' h4' h5'
    rw [h.off_iff c b bp c' b' bp' (lt h1) h1.2 h2.2 h3 h4 h5 (lt h1') h1'.2 h2'.2 h3' h4' h5']
    unfold SameMult
    constructor
    · rintro ⟨rfl, e2, e3 | e3⟩
      · exact Or.inl ⟨⟨rfl, e2, e3.1⟩, rfl, by omega, e3.2⟩
      · exact Or.inr ⟨⟨rfl, by omega, e3.1⟩, rfl, by omega, e3.2⟩
    · rintro (⟨⟨rfl, e2, e3⟩, _, _, e4⟩ | ⟨⟨rfl, e2, e3⟩, _, _, e4⟩)
      · exact ⟨rfl, e2, Or.inl ⟨e3, e4⟩⟩
      · exact ⟨rfl, by omega, Or.inr ⟨e3, e4⟩⟩
  · intro c b bp b' bp' h1 h2 h3 h4 h5 h1' h2' h4' h6 h7
    exact h.off_conj c b bp b' bp' (lt h1) h1.2 h2.2 h3 h4 h5 h1'.2 h2'.2 h4' h6.2.1
      (by rw [h5]; exact h7.2.1) h6.2.2 h7.2.2
  · intro k h1 h2
    obtain ⟨c, b, bp, a1, a2, a3, a4, a5, a6⟩ := h.surjO k h1 h2
    have hm := combs2_mem a2
    exact ⟨c, b, bp, ⟨by omega, hm.1⟩, ⟨by omega, hm.2⟩, combs2_ne (hg c a1) a2, a3, a4, a5, a6⟩
  · intro c b bp h1 h2 h3 h4
    obtain ⟨a1, a2, _⟩ := h.excl c b bp (lt h1) h1.2 h2.2 h3 h4
    exact ⟨a1, a2⟩
  · exact h.ndm0r

/-- **C74**. Labels of `StateIndexingDM` with 'ssq' indexing after any history, if the considered
states form complete multiplets. -/
theorem c74_labels {n : Nat} {indexing : String} {d : DM} {S : List (List Nat)}
    (h : Reach .dm n indexing d S) (hix : d.si.indexing = .ssq) (hc : Complete n d.si S) :
    MultLabels n S d := by
  obtain ⟨hi, hk, _⟩ := h.inv
  obtain ⟨k, ⟨s, hs, e⟩, _⟩ := hi.si
  have q1 : d.si.qnInd = s.qnInd := by rw [e]
  have q2 : d.si.indQn = s.indQn := by rw [e]
  have q3 : s.indexing = .ssq := by rw [e] at hix; exact hix
  refine MultLabels.of_labS hi.good.nodup hc ?_ ?_ (h.labS hix hc)
  · intro c b hb
    obtain ⟨h1, _⟩ := hc c b hb
    rw [q2] at h1
    obtain ⟨c', k, q, α, g1, g2, g3, g4, g5⟩ := hs.ssq_key q3 h1
    simp only [List.cons.injEq] at g4
    have hE : ssqE n c' k = min k (szW n c' - k) := rfl
    have hp := szW_parity (hs.sz (Or.inr q3)).1 g1
    omega
  · intro b b' key h1 h2
    rw [q2] at h1 h2
    have f1 := ((dictsOk_of_inv hs).inverse _ _).2 h1
    have f2 := ((dictsOk_of_inv hs).inverse _ _).2 h2
    rw [f1] at f2
    simpa using f2

/-- **C74**, second part. For an even number of orbitals the object is created with 'ssq'
indexing, the charge lists form complete multiplets, and the calls succeed for complete
multiplets. -/
theorem c74_total {n : Nat} (hn : n % 2 = 0) :
    (∃ d, DM.init .dm n "ssq" = .ok d ∧ d.si.indexing = .ssq) ∧
    ∀ d S, Reach .dm n "ssq" d S → Complete n d.si d.si.chargelst ∧
      (∀ S', Legal d.si S' → Complete n d.si S' → ∃ d', d.setStatesdm S' = .ok d') ∧
      (∃ d', d.setStatesAll = .ok d') ∧
      (∀ inds : List Int, ∃ d', d.removeFockStates inds = .ok d') := by
  have hch : chooseIndexing n "ssq" = .ssq := by simp [chooseIndexing, hn]
  constructor
  · obtain ⟨si, h1, hinv, hch', hr⟩ := init_inv n "ssq"
    have hnm : si.nmany = 2 ^ n := by rw [hinv.nmany, hr]; simp
    obtain ⟨d', f1, f2, f3⟩ := setStatesAll_ssq (n := n) (d := DM.blank .dm si n)
      ⟨si, hinv, by simp [DM.blank]⟩ rfl (by rw [← hch, ← hch']; rfl)
      ⟨hinv.ncharge, by omega, by simp [DM.blank, hinv.ncharge], by simp [DM.blank, hinv.ncharge],
        by simp [DM.blank], by simp [DM.blank, hinv.ncharge], by simp [DM.blank, hinv.ncharge],
        by simp [DM.blank, hnm]⟩
    refine ⟨d', ?_, by rw [f2, ← hch, ← hch']; rfl⟩
    unfold DM.init
    rw [h1]
    exact f1
  · intro d S r
    obtain ⟨hi, hk, hx⟩ := r.inv
    obtain ⟨k, h1, h2⟩ := hi.si
    have : k = 0 := h2 hk
    subst this
    rw [hch] at hx
    refine ⟨h1.complete hx, ?_, ?_, ?_⟩
    · intro S' hl hc
      obtain ⟨d', f, _⟩ := setStatesdm_ssq h1 hk hx hi.shape hl hc
      exact ⟨d', f⟩
    · obtain ⟨d', f, _⟩ := setStatesAll_ssq h1 hk hx hi.shape
      exact ⟨d', f⟩
    · intro inds
      obtain ⟨d', f, _⟩ := setStatesAll_ssq h1 hk hx hi.shape
      refine ⟨d', ?_⟩
      unfold DM.removeFockStates SI.removeFockStates
      rw [if_pos hx]
      exact f

/-- Two spinful orbitals: ten multiplets for sixteen states, five coherences. -/
example : (DM.init .dm 4 "ssq" >>= fun d => .ok (d.npauli, d.ndm0, d.ndm0r)) = .ok (10, 15, 20) := by
  decide +kernel

/-- The three members of the triplet. -/
example : (DM.init .dm 4 "ssq" >>= fun d => do
    let a ← d.getIndDm0 5 5 2
    let b ← d.getIndDm0 9 9 2
    let c ← d.getIndDm0 10 10 2
    let e ← d.getIndDm0 6 6 2
    pure (a, b, c, e)) = .ok (3, 3, 3, 4) := by decide +kernel

/-- The hypotheses of `c74_labels` hold for the object after construction. -/
example : ∃ d S, Reach .dm 4 "ssq" d S ∧ d.si.indexing = .ssq ∧ Complete 4 d.si S := by
  obtain ⟨⟨d, h1, h2⟩, h3⟩ := c74_total (n := 4) rfl
  obtain ⟨si, g1, _⟩ := (init_dm_inv .dm 4 "ssq").2 d h1
  have r := Reach.init g1 h1
  obtain ⟨_, _, ⟨d', hd⟩, _⟩ := h3 d _ r
  have r' := Reach.all r hd
  have hsi := ((setStatesAll_inv r.inv.1.si.choose_spec.1 r.inv.1.si.choose_spec.2 r.inv.1.shape
    r.inv.1.tot0 r.inv.1.tot1).2 d' hd).2.2
  obtain ⟨k', hsi⟩ := hsi
  refine ⟨d', _, r', by rw [hsi]; exact h2, ?_⟩
  have hc := (h3 d _ r).1
  rw [hsi]
  exact hc

/-- **C74**, disagreement. A list with the upper state of a doublet only is accepted, and the
population of that state gets the label -1: in Python the last unknown, which is the population of
the doubly occupied state. With the lower state only the call ends with an `IndexError`. -/
theorem c74_incomplete_false :
    (DM.init .dm 2 "ssq" >>= fun d => d.setStatesdm [[0], [2], [3]] >>= fun d => do
      let a ← d.getIndDm0 2 2 1
      let b ← d.getIndDm0 3 3 2
      pure (d.npauli, a, b)) = .ok (2, -1, 1) ∧
    (DM.init .dm 2 "ssq" >>= fun d => d.setStatesdm [[0], [1], [3]] >>= fun d =>
      .ok d.npauli) = .error .index := by
  decide +kernel

end Verif
