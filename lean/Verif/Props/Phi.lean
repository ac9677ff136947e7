import Verif.Props.ManyBody

/-! C37 and C47: access to the density matrix and to the current amplitudes. -/

namespace Verif

/-- An object of class `StateIndexingDM` that labels a density matrix and whose considered states are
listed under their number of particles. -/
structure PhiOk (d : DM) (la : Lab) : Prop where
  kind : d.kind = .dm
  vok : VOk (d.view 0) la
  conj : ∀ c b bp, b ∈ (d.view 0).row c → bp ∈ (d.view 0).row c → ∃ x, d.getConjDm0 b bp c = .ok x
  placed : ∀ c b, b ∈ (d.view 0).row c → d.si.chargeOf b = .ok c

/-- The states of each list have that charge. -/
def Placed (si : SI) (S : List (List Nat)) : Prop :=
  ∀ c b : Nat, c ≤ si.nsingle → b ∈ S[c]?.getD [] → si.chargeOf b = .ok c

theorem SIX.placed {n k : Nat} {si : SI} (h : SIX n k si) : Placed si si.chargelst := by
  intro c b hc hb
  rw [h.inv.1] at hc
  exact ((h.row_mem hc b).1 hb).2

theorem view_row {d : DM} {S : List (List Nat)} (h : d.statesdm = S ++ [[]]) (nl c : Nat) :
    (d.view nl).row c = S[c]?.getD [] := by
  simp only [View.row, DM.view, h]
  rcases Nat.lt_trichotomy c S.length with hc | hc | hc
  · rw [List.getElem?_append_left hc]
  · subst hc; simp
  · rw [List.getElem?_eq_none (by simp; omega), List.getElem?_eq_none (by omega)]

/-- After any history of construction, `set_statesdm`, `use_all_states`, `remove_states` and
`remove_fock_states`, with states listed under their charge. -/
theorem phiOk_reach {n : Nat} {indexing : String} {d : DM} {S : List (List Nat)}
    (h : Reach .dm n indexing d S) (hix : d.si.indexing ≠ .ssq)
    (hS : ∀ c, n + 1 ≤ c → S[c]?.getD [] = []) (hp : Placed d.si S) : PhiOk d d.labOf := by
  obtain ⟨hi, hk, _⟩ := h.inv
  have hr := view_row hi.sdm 0
  have L := (hi.lab hix).dm hk
  obtain ⟨k, hsx, _⟩ := hi.si
  refine ⟨hk, view_ok' h hix hS, ?_, ?_⟩
  swap
  · intro c b hb
    rw [hr] at hb
    refine hp c b ?_ hb
    by_contra hc
    rw [hS c (by rw [hsx.inv.1] at hc; omega)] at hb
    simp at hb
  intro c b bp hb hbp
  rw [hr] at hb hbp
  have hc : c < n + 1 := by
    by_contra hc
    rw [hS c (by omega)] at hb
    simp at hb
  by_cases e : b = bp
  · subst e
    exact ⟨_, (L.diag c b hc hb).2.2.1⟩
  · cases hin : inclOf d.si.indexing (szOf n d.si) b bp with
    | true =>
      obtain ⟨k, x, _, _, _, _, _, _, a7, _⟩ := L.off c b bp hc hb hbp e hin
      exact ⟨x, a7⟩
    | false => exact ⟨_, (L.excl c b bp hc hb hbp e hin).2.2⟩

/-- And after `remove_coherences` on top. -/
theorem phiOk_coh {n : Nat} {indexing : String} {d : DM} {S : List (List Nat)}
    (h : Reach .dm n indexing d S) (hix : d.si.indexing ≠ .ssq)
    (hS : ∀ c, n + 1 ≤ c → S[c]?.getD [] = []) (hp : Placed d.si S) (E : Nat → ℝ) {dE : ℝ} (hdE : 0 ≤ dE)
    (hne : ∃ c b, Considered n S c b) :
    ∃ d', d.removeCoherences E dE = .ok d' ∧ PhiOk d' d'.labOf := by
  have P := phiOk_reach h hix hS hp
  obtain ⟨d', e, V⟩ := c35_view_ok (nleads := 0) h hix hS E hdE hne
  refine ⟨d', e, ?_, V, ?_, ?_⟩
  all_goals obtain ⟨mp, n0, n0r, rfl⟩ := removeCohBy_shape e
  · exact P.kind
  · intro c b bp hb hbp
    obtain ⟨d'', e', _, _, _, _, _, _, _, _, _, hcj, _⟩ := c35_remove_coherences h (by simp) hix E hdE hne
    rw [e] at e'
    cases e'
    rw [hcj]
    exact P.conj c b bp hb hbp
  · exact P.placed

noncomputable section

/-- The result of a solve: real vector of size `ndm0r` (`np.zeros(self.si.ndm0r, dtype=float)`). -/
def realVec (size : Nat) (φ : Nat → ℝ) : CVec := ⟨size, fun i => (φ i : ℂ)⟩

theorem cvec_get {x : CVec} {i : Nat} (h : i < x.size) : x.get (i : Int) = .ok (x.val i) := by
  unfold CVec.get
  rw [pyIdx_nat h]
  rfl

theorem cvec_get_err {x : CVec} {i : Nat} (h : x.size ≤ i) : x.get (i : Int) = .error .index := by
  unfold CVec.get
  rw [pyIdx_nat_err h]
  rfl

theorem getPhi0_same {d : DM} {kt : String} (hkt : kt ≠ "Pauli") {order : List Nat} {b_ bp_ : Int} {b bp : Nat}
    (hb : pyGet order b_ = .ok b) (hbp : pyGet order bp_ = .ok bp) {c c' : Nat}
    (h1 : d.si.chargeOf b = .ok c) (h2 : d.si.chargeOf bp = .ok c') (phi0 : CVec) :
    d.getPhi0 kt order phi0 b_ bp_ = if c = c' then (do
      let ind ← d.getIndDm0 b bp (c : Nat)
      let conj ← d.conjOrNone b bp (c : Nat)
      if ind ≠ -1 then d.phi0At phi0 ind conj else pure 0) else pure 0 := by
  unfold DM.getPhi0
  rw [hb, py_bind_ok, hbp, py_bind_ok, h1, py_bind_ok, h2, py_bind_ok, if_neg hkt]

/-- `get_phi0` in terms of `dens` (`Verif/Spec/Labels.lean`), which the theorems on the kernels use. -/
theorem getPhi0_dens {d : DM} {la : Lab} (h : PhiOk d la) {kt : String} (hkt : kt ≠ "Pauli")
    {order : List Nat} {b_ bp_ : Int} {b bp c c' : Nat} (ob : pyGet order b_ = .ok b)
    (obp : pyGet order bp_ = .ok bp) (hb : b ∈ (d.view 0).row c) (hbp : bp ∈ (d.view 0).row c')
    (φ : Nat → ℝ) :
    d.getPhi0 kt order (realVec d.ndm0r φ) b_ bp_ = .ok (if c = c' then dens (d.view 0) la φ c b bp else 0) := by
  rw [getPhi0_same hkt ob obp (h.placed c b hb) (h.placed c' bp hbp)]
  by_cases e : c = c'
  · subst e
    rw [if_pos rfl, if_pos rfl]
    have V := h.vok
    have e0 : d.getIndDm0 b bp c = .ok (if la.inc c b bp then (la.lab c b bp : Int) else -1) := V.ind0 c b bp hb hbp
    rw [e0, py_bind_ok]
    have hn0 : d.ndm0r = d.ndm0 + (d.ndm0 - d.npauli) := V.ndm0r
    have hle : d.npauli ≤ d.ndm0 := V.np_le
    cases hin : la.inc c b bp with
    | false =>
      obtain ⟨x, hx⟩ := h.conj c b bp hb hbp
      unfold DM.conjOrNone
      rw [if_pos h.kind, hx, py_bind_ok]
      simp [dens, hin]
    | true =>
      have hcj : d.getConjDm0 b bp c = .ok (la.can c b bp) := V.conj0 c b bp hb hbp hin
      unfold DM.conjOrNone
      rw [if_pos h.kind, hcj, py_bind_ok]
      rw [if_pos (by simp)]
      simp only [if_true]
      unfold DM.phi0At
      rw [if_neg (by rw [h.kind]; simp)]
      set k := la.lab c b bp with hk
      have hk' : k < d.ndm0 := by
        by_cases e : b = bp
        · subst e; exact lt_of_lt_of_le (V.lab_diag c b hb) hle
        · exact (V.lab_off c b bp hb hbp e hin).2
      have e1 : (realVec d.ndm0r φ).get (k : Int) = .ok (φ k : ℂ) :=
        cvec_get (x := realVec d.ndm0r φ) (by show k < d.ndm0r; omega)
      have e2 : (realVec d.ndm0r φ).get ((d.ndm0 : Int) - d.npauli + k) = .ok (φ (d.ndm0 + k - d.npauli) : ℂ) := by
        have : (d.ndm0 : Int) - d.npauli + k = ((d.ndm0 + k - d.npauli : Nat) : Int) := by omega
        rw [this]
        exact cvec_get (x := realVec d.ndm0r φ) (by show d.ndm0 + k - d.npauli < d.ndm0r; omega)
      rw [e1, py_bind_ok, e2, py_bind_ok]
      simp only [py_pure, Except.ok.injEq, dens, hin, if_true, ← hk]
      by_cases e : b = bp
      · subst e
        have : k < d.npauli := V.lab_diag c b hb
        apply Complex.ext <;> simp [this]
      · have : d.npauli ≤ k := (V.lab_off c b bp hb hbp e hin).1
        simp only [e, if_false, View.imag, DM.view]
        cases la.can c b bp <;> apply Complex.ext <;> simp [not_lt.2 this]
  · rw [if_neg e, if_neg e]
    rfl

/-- **C37**, conjugation: for states of the system `get_phi0` does not raise and
`get_phi0(b, bp) == conj(get_phi0(bp, b))`. -/
theorem c37_hermitian {d : DM} {la : Lab} (h : PhiOk d la) {kt : String} (hkt : kt ≠ "Pauli")
    {order : List Nat} {b_ bp_ : Int} {b bp c c' : Nat} (ob : pyGet order b_ = .ok b)
    (obp : pyGet order bp_ = .ok bp) (hb : b ∈ (d.view 0).row c) (hbp : bp ∈ (d.view 0).row c')
    (φ : Nat → ℝ) : ∃ z : ℂ, d.getPhi0 kt order (realVec d.ndm0r φ) b_ bp_ = .ok z ∧
      d.getPhi0 kt order (realVec d.ndm0r φ) bp_ b_ = .ok (starRingEnd ℂ z) := by
  refine ⟨_, getPhi0_dens h hkt ob obp hb hbp φ, ?_⟩
  rw [getPhi0_dens h hkt obp ob hbp hb φ]
  congr 1
  by_cases e : c = c'
  · subst e
    simp only [if_true]
    have V := h.vok
    unfold dens
    rw [← V.inc_symm c b bp hb hbp]
    cases hin : la.inc c b bp with
    | false => simp
    | true =>
      simp only [if_true]
      rw [← V.lab_symm c b bp hb hbp hin]
      by_cases e : b = bp
      · subst e
        apply Complex.ext <;> simp
      · rw [V.can_off c b bp hb hbp e hin]
        simp only [e, Ne.symm e, if_false]
        cases la.can c b bp <;> apply Complex.ext <;> simp
  · rw [if_neg e, if_neg (Ne.symm e)]
    simp

/-- **C37**, populations and zeros: `get_phi0(b, b)` is the entry of `phi0` at the label of the state,
which lies below `npauli` and belongs to no other state; elements between different charges and
elements left out are 0. -/
theorem c37_values {d : DM} {la : Lab} (h : PhiOk d la) {kt : String} (hkt : kt ≠ "Pauli")
    {order : List Nat} (φ : Nat → ℝ) :
    (∀ b_ b c, pyGet order b_ = .ok b → b ∈ (d.view 0).row c → ∃ k : Nat, k < d.npauli ∧
      d.getIndDm0 b b c = .ok (k : Int) ∧ d.getPhi0 kt order (realVec d.ndm0r φ) b_ b_ = .ok (φ k : ℂ) ∧
      ∀ c' b', b' ∈ (d.view 0).row c' → d.getIndDm0 b' b' c' = .ok (k : Int) → b' = b) ∧
    (∀ b_ bp_ b bp c c', pyGet order b_ = .ok b → pyGet order bp_ = .ok bp → b ∈ (d.view 0).row c →
      bp ∈ (d.view 0).row c' → c ≠ c' → d.getPhi0 kt order (realVec d.ndm0r φ) b_ bp_ = .ok 0) ∧
    (∀ b_ bp_ b bp c, pyGet order b_ = .ok b → pyGet order bp_ = .ok bp → b ∈ (d.view 0).row c →
      bp ∈ (d.view 0).row c → d.getIndDm0 b bp c = .ok (-1) →
      d.getPhi0 kt order (realVec d.ndm0r φ) b_ bp_ = .ok 0) := by
  have V := h.vok
  have hI : ∀ c b bp, b ∈ (d.view 0).row c → bp ∈ (d.view 0).row c → d.getIndDm0 b bp c
      = .ok (if la.inc c b bp then (la.lab c b bp : Int) else -1) := V.ind0
  refine ⟨?_, ?_, ?_⟩
  · intro b_ b c ob hb
    refine ⟨la.lab c b b, V.lab_diag c b hb, ?_, ?_, ?_⟩
    · rw [hI c b b hb hb, V.inc_diag c b hb]; rfl
    · rw [getPhi0_dens h hkt ob ob hb hb φ]
      simp only [if_true, dens, V.inc_diag c b hb]
      congr 1
    · intro c' b' hb' e
      rw [hI c' b' b' hb' hb', V.inc_diag c' b' hb'] at e
      simp only [if_true, Except.ok.injEq] at e
      have e' : la.lab c' b' b' = la.lab c b b := by exact_mod_cast e
      rcases (V.lab_inj c' b' b' c b b hb' hb' (V.inc_diag c' b' hb') hb hb (V.inc_diag c b hb) e').2
        with q | q <;> exact q.1
  · intro b_ bp_ b bp c c' ob obp hb hbp hne
    rw [getPhi0_dens h hkt ob obp hb hbp φ, if_neg hne]
  · intro b_ bp_ b bp c ob obp hb hbp e
    rw [getPhi0_dens h hkt ob obp hb hbp φ, if_pos rfl]
    rw [hI c b bp hb hbp] at e
    cases hin : la.inc c b bp with
    | false => simp [dens, hin]
    | true =>
      rw [hin] at e
      simp only [if_true, Except.ok.injEq] at e
      omega

/-- **C37**, faithfulness: the matrix rebuilt by `get_phi0` determines `phi0`. -/
theorem c37_determines {d : DM} {la : Lab} (h : PhiOk d la) {kt : String} (hkt : kt ≠ "Pauli")
    {order : List Nat} (hord : ∀ c b, b ∈ (d.view 0).row c → ∃ b_, pyGet order b_ = .ok b)
    {φ ψ : Nat → ℝ} (heq : ∀ b_ bp_, d.getPhi0 kt order (realVec d.ndm0r φ) b_ bp_
      = d.getPhi0 kt order (realVec d.ndm0r ψ) b_ bp_) : ∀ i, i < d.ndm0r → φ i = ψ i := by
  have V := h.vok
  have hn0 : d.ndm0r = d.ndm0 + (d.ndm0 - d.npauli) := V.ndm0r
  have hle : d.npauli ≤ d.ndm0 := V.np_le
  have key : ∀ c b bp, b ∈ (d.view 0).row c → bp ∈ (d.view 0).row c →
      dens (d.view 0) la φ c b bp = dens (d.view 0) la ψ c b bp := by
    intro c b bp hb hbp
    obtain ⟨b_, ob⟩ := hord c b hb
    obtain ⟨bp_, obp⟩ := hord c bp hbp
    have := heq b_ bp_
    rw [getPhi0_dens h hkt ob obp hb hbp φ, getPhi0_dens h hkt ob obp hb hbp ψ] at this
    simpa using this
  have low : ∀ i, i < d.ndm0 → φ i = ψ i ∧ (d.npauli ≤ i → φ (d.ndm0 + i - d.npauli) = ψ (d.ndm0 + i - d.npauli)) := by
    intro i hi
    obtain ⟨c, b, bp, hb, hbp, hin, e⟩ := V.lab_surj i hi
    have := key c b bp hb hbp
    simp only [dens, hin, if_true, e, View.imag] at this
    obtain ⟨r1, r2⟩ := Complex.ext_iff.1 this
    refine ⟨r1, ?_⟩
    intro hp
    have hne : b ≠ bp := by
      rintro rfl
      have := V.lab_diag c b hb
      simp only [DM.view] at this
      omega
    simp only [hne, if_false, DM.view] at r2
    cases hc : la.can c b bp <;> simp only [hc, if_true] at r2
    · simpa using r2
    · exact r2
  intro i hi
  by_cases h1 : i < d.ndm0
  · exact (low i h1).1
  · have := (low (i - d.ndm0 + d.npauli) (by omega)).2 (by omega)
    have e : d.ndm0 + (i - d.ndm0 + d.npauli) - d.npauli = i := by omega
    rw [e] at this
    exact this

set_option synthInstance.maxHeartbeats 400000 in
set_option synthInstance.maxSize 512 in
/-- A fresh object, in its own order of states. -/
theorem phi_example : ∃ d, DM.init .dm 2 "charge" = .ok d ∧ PhiOk d d.labOf ∧ d.npauli = 4 ∧ d.ndm0 = 5 ∧
    d.statesdm = [[0], [1, 2], [3], []] := by
  have key : (SI.init 2 "charge" >>= fun si => DM.init .dm 2 "charge" >>= fun d =>
      .ok (si.chargelst, d.si.chargelst, decide (d.si.indexing = .ssq), d.npauli, d.ndm0, d.statesdm)) =
      .ok ([[0], [1, 2], [3]], [[0], [1, 2], [3]], false, 4, 5, [[0], [1, 2], [3], []]) := by decide +kernel
  obtain ⟨si, h1, h⟩ := bind_iff.1 key
  obtain ⟨d, h2, h⟩ := bind_iff.1 h
  simp only [Except.ok.injEq, Prod.mk.injEq, decide_eq_false_iff_not] at h
  obtain ⟨k1, k2, k3, k4⟩ := h
  have hr := Reach.init h1 h2
  obtain ⟨k, hs, _⟩ := hr.inv.1.si
  refine ⟨d, h2, phiOk_reach hr k3 ?_ ?_, k4⟩
  · intro c hc
    rw [k1, List.getElem?_eq_none (by simpa using hc)]
    rfl
  · rw [k1, ← k2]
    exact hs.placed

/-- The hypotheses of the theorems are met. -/
example : ∃ d, PhiOk d d.labOf ∧ 1 ∈ (d.view 0).row 1 ∧ pyGet (List.range 4) 1 = .ok 1 ∧
    (∀ c b, b ∈ (d.view 0).row c → ∃ b_, pyGet (List.range 4) b_ = .ok b) := by
  obtain ⟨d, _, h, _, _, hs⟩ := phi_example
  refine ⟨d, h, by simp [View.row, DM.view, hs], rfl, ?_⟩
  intro c b hb
  have : b < 4 := by
    simp only [View.row, DM.view, hs] at hb
    match c with
    | 0 => simp at hb; omega
    | 1 => simp at hb; omega
    | 2 => simp at hb; omega
    | 3 => simp at hb
    | c + 4 => simp at hb
  exact ⟨(b : Int), by rw [pyGet_nat _ (by simpa using this)]; simp⟩

/-- **C37** for 2vN (`StateIndexingDMc`, 'Lin' or 'charge' indexing): `get_phi0(b, bp)` is the entry of the
complex vector at the label of the ordered pair (C50: the labels are a bijection, so the matrix
determines the vector), and 0 between different charges. -/
theorem c37_2vN {n : Nat} {indexing : String} {d : DM} {S : List (List Nat)}
    (h : Reach .dmc n indexing d S) (hix : d.si.indexing = .Lin ∨ d.si.indexing = .charge)
    (hp : Placed d.si S) {kt : String} (hkt : kt ≠ "Pauli") {order : List Nat} (phi0 : CVec)
    (hsize : phi0.size = d.ndm0) {b_ bp_ : Int} {b bp c c' : Nat} (ob : pyGet order b_ = .ok b)
    (obp : pyGet order bp_ = .ok bp) (hb : Considered n S c b) (hbp : Considered n S c' bp) :
    (c = c' → ∃ k : Nat, k < d.ndm0 ∧ d.getIndDm0 b bp c = .ok (k : Int) ∧
      d.getPhi0 kt order phi0 b_ bp_ = .ok (phi0.val k)) ∧
    (c ≠ c' → d.getPhi0 kt order phi0 b_ bp_ = .ok 0) := by
  obtain ⟨_, hsx, _⟩ := h.inv.1.si
  have e := getPhi0_same hkt ob obp (hp c b (by rw [hsx.inv.1]; exact hb.1) hb.2)
    (hp c' bp (by rw [hsx.inv.1]; exact hbp.1) hbp.2) phi0
  have hk : d.kind = .dmc := h.inv.2.1
  constructor
  · rintro rfl
    obtain ⟨k, k1, k2, _⟩ := (c50_dmc_labels h hix).1 c b bp hb hbp
    refine ⟨k, k2, k1, ?_⟩
    rw [e, if_pos rfl, k1, py_bind_ok]
    unfold DM.conjOrNone
    rw [if_neg (by rw [hk]; simp)]
    simp only [py_pure, py_bind_ok]
    rw [if_pos (by omega)]
    unfold DM.phi0At
    rw [if_pos hk]
    exact cvec_get (by omega)
  · intro hne
    rw [e, if_neg hne]
    rfl

/-! ### Where it fails -/

/-- **C37**, negation for the Pauli approach (and RTD), whose `phi0` has `npauli` entries while
`funcp.kerntype` keeps its default '2vN': with `ndm0 > npauli` (some coherence exists in the
indexing) `get_phi0(b, b)` raises `IndexError` for exactly the states whose label is at least
`2*npauli - ndm0`, among them the one with the last label; `get_phi0(b, bp)` raises for every
coherence. -/
theorem c37_pauli_false {d : DM} {la : Lab} (h : PhiOk d la) {kt : String} (hkt : kt ≠ "Pauli")
    {order : List Nat} {b_ bp_ : Int} {b bp c : Nat} (ob : pyGet order b_ = .ok b)
    (obp : pyGet order bp_ = .ok bp) (hb : b ∈ (d.view 0).row c) (hbp : bp ∈ (d.view 0).row c)
    (φ : Nat → ℝ) :
    (d.getPhi0 kt order (realVec d.npauli φ) b_ b_ = .error .index ↔
      2 * d.npauli ≤ d.ndm0 + la.lab c b b) ∧
    (b ≠ bp → la.inc c b bp = true →
      d.getPhi0 kt order (realVec d.npauli φ) b_ bp_ = .error .index) := by
  have V := h.vok
  have hle : d.npauli ≤ d.ndm0 := V.np_le
  have hI : ∀ b bp, b ∈ (d.view 0).row c → bp ∈ (d.view 0).row c → d.getIndDm0 b bp c
      = .ok (if la.inc c b bp then (la.lab c b bp : Int) else -1) := V.ind0 c
  have hC : ∀ b bp, b ∈ (d.view 0).row c → bp ∈ (d.view 0).row c → la.inc c b bp = true →
      d.conjOrNone b bp c = .ok (la.can c b bp) := by
    intro b bp hb hbp hin
    unfold DM.conjOrNone
    rw [if_pos h.kind]
    exact V.conj0 c b bp hb hbp hin
  constructor
  · rw [getPhi0_same hkt ob ob (h.placed c b hb) (h.placed c b hb), if_pos rfl, hI b b hb hb,
      V.inc_diag c b hb]
    simp only [if_true, py_bind_ok]
    rw [hC b b hb hb (V.inc_diag c b hb), py_bind_ok, if_pos (by omega)]
    unfold DM.phi0At
    rw [if_neg (by rw [h.kind]; simp)]
    have hk : la.lab c b b < d.npauli := V.lab_diag c b hb
    have e1 : (realVec d.npauli φ).get ((la.lab c b b : Nat) : Int) = .ok (φ (la.lab c b b) : ℂ) :=
      cvec_get (x := realVec d.npauli φ) hk
    have : (d.ndm0 : Int) - d.npauli + (la.lab c b b : Nat) = ((d.ndm0 + la.lab c b b - d.npauli : Nat) : Int) := by
      omega
    rw [e1, py_bind_ok, this]
    by_cases hx : d.ndm0 + la.lab c b b - d.npauli < d.npauli
    · rw [cvec_get (x := realVec d.npauli φ) hx]
      simp only [py_bind_ok, py_pure]
      constructor
      · intro h; cases h
      · intro h; omega
    · rw [cvec_get_err (x := realVec d.npauli φ) (by show d.npauli ≤ _; omega)]
      exact ⟨fun _ => by omega, fun _ => rfl⟩
  · intro hne hin
    rw [getPhi0_same hkt ob obp (h.placed c b hb) (h.placed c bp hbp), if_pos rfl, hI b bp hb hbp, hin]
    simp only [if_true, py_bind_ok]
    rw [hC b bp hb hbp hin, py_bind_ok, if_pos (by omega)]
    unfold DM.phi0At
    rw [if_neg (by rw [h.kind]; simp), cvec_get_err (x := realVec d.npauli φ) (by
      show d.npauli ≤ _
      exact (V.lab_off c b bp hb hbp hne hin).1)]
    rfl

/-- The concrete case: two single-particle states, Pauli approach, the doubly occupied state. -/
theorem c37_pauli_example (φ : Nat → ℝ) : ∃ d, DM.init .dm 2 "charge" = .ok d ∧
    d.getPhi0 "2vN" (List.range 4) (realVec d.npauli φ) 3 3 = .error .index := by
  obtain ⟨d, h1, h, h2, h3, hs⟩ := phi_example
  have hl : d.getIndDm0 3 3 2 = .ok 3 := by
    have key : (DM.init .dm 2 "charge" >>= fun d => d.getIndDm0 3 3 2) = .ok 3 := by decide +kernel
    rw [h1] at key
    exact key
  refine ⟨d, h1, ((c37_pauli_false h (by decide) (b_ := 3) (bp_ := 3) (b := 3) (bp := 3) (c := 2) rfl rfl
    (by simp [View.row, DM.view, hs]) (by simp [View.row, DM.view, hs]) φ).1).2 ?_⟩
  have : (d.labOf).lab 2 3 3 = 3 := by
    show (okD (-1) (d.getIndDm0 3 3 2)).toNat = 3
    rw [hl]
    rfl
  rw [this]
  omega

set_option synthInstance.maxHeartbeats 400000 in
set_option synthInstance.maxSize 512 in
/-- **C37**, negation for removed states: after `remove_states` the array `dictdm` still holds the positions of
the removed states. Two single-particle states with the state 2 removed: `get_phi0(2, 1)`, which
should be 0, is the population of the state 3. -/
theorem c37_removed_false (φ : Nat → ℝ) : ∃ d d', DM.init .dm 2 "charge" = .ok d ∧
    d.removeStates [0, 0, 5, 1] 2 = .ok d' ∧ d'.statesdm = [[0], [1], [3], []] ∧
    d'.getPhi0 "2vN" (List.range 4) (realVec d'.ndm0r φ) 2 1 = .ok (φ 2 : ℂ) ∧
    d'.getPhi0 "2vN" (List.range 4) (realVec d'.ndm0r φ) 3 3 = .ok (φ 2 : ℂ) := by
  have key : (SI.init 2 "charge" >>= fun si => DM.init .dm 2 "charge" >>= fun d =>
      d.setStatesdm [[0], [1], [3]] >>= fun d' =>
      d'.getIndDm0 2 1 1 >>= fun x => d'.getIndDm0 3 3 2 >>= fun y => d'.getConjDm0 2 1 1 >>= fun x' =>
      d'.getConjDm0 3 3 2 >>= fun y' => d'.si.chargeOf 1 >>= fun c1 => d'.si.chargeOf 2 >>= fun c2 =>
      d'.si.chargeOf 3 >>= fun c3 =>
      .ok ((d.si.chargelst, d'.statesdm), [x, y], d'.kind, [c1, c2, c3, d'.npauli, d'.ndm0, d'.ndm0r, d.si.nmany])) =
      .ok (([[0], [1, 2], [3]], [[0], [1], [3], []]), [2, 2], .dm, [1, 1, 2, 3, 3, 3, 4]) := by decide +kernel
  obtain ⟨si, hsi, h⟩ := bind_iff.1 key
  obtain ⟨d, h1, h⟩ := bind_iff.1 h
  obtain ⟨d', h2, h⟩ := bind_iff.1 h
  obtain ⟨x, h3, h⟩ := bind_iff.1 h
  obtain ⟨y, h4, h⟩ := bind_iff.1 h
  obtain ⟨x', h5, h⟩ := bind_iff.1 h
  obtain ⟨y', h6, h⟩ := bind_iff.1 h
  obtain ⟨c1, g1, h⟩ := bind_iff.1 h
  obtain ⟨c2, g2, h⟩ := bind_iff.1 h
  obtain ⟨c3, g3, h⟩ := bind_iff.1 h
  simp only [Except.ok.injEq, Prod.mk.injEq, List.cons.injEq, and_true] at h
  obtain ⟨⟨k1, k6⟩, ⟨rfl, rfl⟩, k2, rfl, rfl, rfl, k3, k4, k5, k7⟩ := h
  have hp : ∀ conj, d'.phi0At (realVec d'.ndm0r φ) 2 conj = .ok (φ 2 : ℂ) := by
    intro conj
    unfold DM.phi0At
    rw [k2, k3, k4, k5, if_neg (by simp)]
    have e1 : (realVec 3 φ).get ((2 : Nat) : Int) = .ok (φ 2 : ℂ) := cvec_get (x := realVec 3 φ) (by show 2 < 3; decide)
    have e2 : (realVec 3 φ).get (((3 : Nat) : Int) - ((3 : Nat) : Int) + 2) = .ok (φ 2 : ℂ) := e1
    rw [e2]
    have e1' : (realVec 3 φ).get 2 = .ok (φ 2 : ℂ) := e1
    rw [e1']
    simp [py_bind_ok]
  refine ⟨d, d', h1, ?_, k6, ?_, ?_⟩
  · rw [← h2]
    have hm : pyMin [0, 0, 5, 1] = .ok 0 := by norm_num [pyMin]
    obtain ⟨k, hs, _⟩ := (Reach.init hsi h1).inv.1.si
    rw [removeStates_eq hs (by rw [k7]; rfl) hm, k1]
    congr 1
    norm_num [List.range_succ, lowStates, rowOf]
  · rw [getPhi0_same (b := 2) (bp := 1) (c := 1) (c' := 1) (by decide) rfl rfl g2 g1, if_pos rfl]
    rw [show d'.getIndDm0 2 1 ((1 : Nat) : Int) = .ok 2 from h3, py_bind_ok]
    unfold DM.conjOrNone
    rw [if_pos k2, show d'.getConjDm0 2 1 ((1 : Nat) : Int) = .ok x' from h5, py_bind_ok, if_pos (by decide)]
    exact hp _
  · rw [getPhi0_same (b := 3) (bp := 3) (c := 2) (c' := 2) (by decide) rfl rfl g3 g3, if_pos rfl]
    rw [show d'.getIndDm0 3 3 ((2 : Nat) : Int) = .ok 2 from h4, py_bind_ok]
    unfold DM.conjOrNone
    rw [if_pos k2, show d'.getConjDm0 3 3 ((2 : Nat) : Int) = .ok y' from h6, py_bind_ok, if_pos (by decide)]
    exact hp _

/-- **C37**, negation for `BuilderManyBody`: `states_order` was set for `nsingle=0` and has one entry, so
`get_phi0` raises `IndexError` for every state but the first. -/
theorem c37_many_body_raises {kind : DMKind} {Na : List Int} {d0 d : DM} (h0 : DM.init kind 0 "charge" = .ok d0)
    (hd : DM.initManyBody kind Na Na.length = .ok d) (kt : String) (phi0 : CVec) (b bp : Nat) (hb : 1 ≤ b) :
    d.getPhi0 kt (List.range d0.si.nmany) phi0 b bp = .error .index := by
  have key : ∀ kind, (DM.init kind 0 "charge" >>= fun d => .ok d.si.nmany) = .ok 1 := by
    intro kind; cases kind <;> decide +kernel
  have := key kind
  rw [h0, py_bind_ok] at this
  simp only [Except.ok.injEq] at this
  unfold DM.getPhi0
  rw [this, pyGet_nat_err _ (by simpa using hb)]
  rfl

/-! ### Current amplitudes -/

/-- **C47**. For states of the system, listed under their charge, and any lead, after any history:
`get_phi1(l, c, b)` is the entry at the label of the pair if the charges are `q+1` and `q`, its
complex conjugate with the states exchanged, and 0 if the charges differ by another number. The call
never raises. -/
theorem c47_hermitian {kind : DMKind} {n : Nat} {indexing : String} {d : DM} {S : List (List Nat)}
    (h : Reach kind n indexing d S) (hp : Placed d.si S) {kt : String} (hkt : kt ≠ "Pauli")
    {order : List Nat} {phi1 : List CVec} {l : Int} {row : CVec} (hl : pyGet phi1 l = .ok row)
    (hsize : row.size = d.ndm1) {c_ b_ : Int} {c b qc qb : Nat} (oc : pyGet order c_ = .ok c)
    (ob : pyGet order b_ = .ok b) (hc : Considered n S qc c) (hb : Considered n S qb b) :
    (∃ z : ℂ, d.getPhi1 kt order phi1 l c_ b_ = .ok (some z) ∧
      d.getPhi1 kt order phi1 l b_ c_ = .ok (some (starRingEnd ℂ z))) ∧
    (qc = qb + 1 → ∃ k : Nat, k < d.ndm1 ∧ d.getIndDm1 c b qb = .ok k ∧
      d.getPhi1 kt order phi1 l c_ b_ = .ok (some (row.val k))) ∧
    (qc ≠ qb + 1 → qb ≠ qc + 1 → d.getPhi1 kt order phi1 l c_ b_ = .ok (some 0)) := by
  obtain ⟨_, hsx, _⟩ := h.inv.1.si
  have main : ∀ {c_ b_ : Int} {c b qc qb : Nat}, pyGet order c_ = .ok c → pyGet order b_ = .ok b →
      Considered n S qc c → Considered n S qb b →
      (qc = qb + 1 → ∃ k : Nat, k < d.ndm1 ∧ d.getIndDm1 c b qb = .ok k ∧
        d.getPhi1 kt order phi1 l c_ b_ = .ok (some (row.val k)) ∧
        d.getPhi1 kt order phi1 l b_ c_ = .ok (some (starRingEnd ℂ (row.val k)))) ∧
      (qc ≠ qb + 1 → qb ≠ qc + 1 → d.getPhi1 kt order phi1 l c_ b_ = .ok (some 0)) := by
    intro c_ b_ c b qc qb oc ob hc hb
    have e1 := hp qc c (by rw [hsx.inv.1]; exact hc.1) hc.2
    have e2 := hp qb b (by rw [hsx.inv.1]; exact hb.1) hb.2
    constructor
    · rintro rfl
      obtain ⟨k, k1, k2⟩ := (c07_dm1_bijection h).1 qb c b hc hb
      have e3 : row.get (k : Int) = .ok (row.val k) := cvec_get (by omega)
      refine ⟨k, k2, k1, ?_, ?_⟩
      · unfold DM.getPhi1
        rw [if_neg hkt, oc, py_bind_ok, ob, py_bind_ok, e1, py_bind_ok, e2, py_bind_ok, if_pos rfl,
          k1, py_bind_ok, hl, py_bind_ok, e3]
        rfl
      · unfold DM.getPhi1
        rw [if_neg hkt, ob, py_bind_ok, oc, py_bind_ok, e2, py_bind_ok, e1, py_bind_ok, if_neg (by omega),
          if_pos rfl, k1, py_bind_ok, hl, py_bind_ok, e3]
        rfl
    · intro h1 h2
      unfold DM.getPhi1
      rw [if_neg hkt, oc, py_bind_ok, ob, py_bind_ok, e1, py_bind_ok, e2, py_bind_ok, if_neg h1,
        if_neg (Ne.symm h2)]
      rfl
  obtain ⟨m1, m2⟩ := main oc ob hc hb
  obtain ⟨n1, n2⟩ := main ob oc hb hc
  refine ⟨?_, ?_, m2⟩
  · by_cases h1 : qc = qb + 1
    · obtain ⟨k, _, _, r1, r2⟩ := m1 h1
      exact ⟨_, r1, r2⟩
    · by_cases h2 : qb = qc + 1
      · obtain ⟨k, _, _, r1, r2⟩ := n1 h2
        exact ⟨_, r2, by rw [r1]; simp⟩
      · exact ⟨0, m2 h1 h2, by rw [n2 h2 h1]; simp⟩
  · intro h1
    obtain ⟨k, r1, r2, r3, _⟩ := m1 h1
    exact ⟨k, r1, r2, r3⟩

/-- `remove_coherences` does not change these answers. -/
theorem c47_coherences {d d' : DM} {E : Nat → ℝ} {dE : ℝ} (h : d.removeCoherences E dE = .ok d') :
    d'.getPhi1 = d.getPhi1 := by
  obtain ⟨mp, n0, n0r, rfl⟩ := removeCohBy_shape h
  rfl

/-- The hypotheses are met by a fresh object with two single-particle states. -/
example : ∃ d S, Reach .dm 2 "charge" d S ∧ Placed d.si S ∧ Considered 2 S 1 1 ∧ Considered 2 S 0 0 ∧
    d.ndm1 = 4 := by
  have key : (SI.init 2 "charge" >>= fun si => DM.init .dm 2 "charge" >>= fun d =>
      .ok (si.chargelst, d.si.chargelst, d.ndm1)) =
      .ok ([[0], [1, 2], [3]], [[0], [1, 2], [3]], 4) := by decide +kernel
  obtain ⟨si, h1, h⟩ := bind_iff.1 key
  obtain ⟨d, h2, h⟩ := bind_iff.1 h
  simp only [Except.ok.injEq, Prod.mk.injEq] at h
  obtain ⟨k1, k2, k3⟩ := h
  have hr := Reach.init h1 h2
  obtain ⟨k, hs, _⟩ := hr.inv.1.si
  refine ⟨d, _, hr, ?_, ?_, ?_, k3⟩
  · rw [k1, ← k2]; exact hs.placed
  · rw [k1]; exact ⟨by omega, by simp⟩
  · rw [k1]; exact ⟨by omega, by simp⟩

end

end Verif
