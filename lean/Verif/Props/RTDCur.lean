import Verif.Props.RTDMore

/-! The currents of the RTD approach: what `LN` and `LE` stand for, the first-order limit. -/

namespace Verif

open Finset

noncomputable section

namespace RTD

/-- The populations are labelled in the order of the lists of states. -/
def Ordered (v : View) (la : Lab) : Prop :=
  v.npauli = pre (rowLen v.statesdm) v.ncharge ∧ ∀ c b, b ∈ v.row c → la.lab c b b = posP v.statesdm c b

/-- Objects of class `StateIndexingDM` with 'Lin', 'charge' or 'sz' indexing have the order. -/
theorem ordered {n nleads : Nat} {indexing : String} {d : DM} {S : List (List Nat)}
    (h : Reach .dm n indexing d S) (hix : d.si.indexing ≠ .ssq) (hS : S.length = n + 1) :
    Ordered (d.view nleads) d.labOf := by
  obtain ⟨hi, hk, _⟩ := h.inv
  have L := (hi.lab hix).dm hk
  have hrow : ∀ c, rowOf d.statesdm c = rowOf S c := by
    intro c
    simp only [hi.sdm, rowOf]
    rcases Nat.lt_trichotomy c S.length with hc | hc | hc
    · rw [List.getElem?_append_left hc]
    · subst hc; simp
    · rw [List.getElem?_eq_none (by simp; omega), List.getElem?_eq_none (by omega)]
  have hlen : rowLen d.statesdm = rowLen S := by
    funext c
    simp only [rowLen, hrow]
  refine ⟨?_, fun c b hb => ?_⟩
  · have e := hi.shape.ncharge
    simp only [DM.view]
    rw [L.npauli, hlen, e]
  · have hc : c < n + 1 := by
      have := (view_ok (nleads := nleads) h hix hS).row_lt hb
      have e := hi.shape.ncharge
      simp only [DM.view] at this
      omega
    have hb' : b ∈ rowOf S c := by rw [← hrow]; exact hb
    simp only [DM.labOf, (L.diag c b hc hb').1, okD, DM.view, posP, hlen, hrow]
    rfl

/-- **C65**, `LN`: the list is made without an error, has one entry for each population, and the entry of a state is
twice its charge. -/
theorem c65_LN {v : View} {la : Lab} (h : VOk v la) (ho : Ordered v la) :
    ∃ LN, genLN v = .ok LN ∧ LN.length = v.npauli ∧
      ∀ c b, b ∈ v.row c → (vecOf LN).val (la.lab c b b) = 2 * (c : ℝ) := by
  have e : genLN v = .ok ((diagItems v.statesdm v.ncharge).map fun p => 2 * (p.1 : ℝ)) := by
    unfold genLN
    rw [collect_ok (g := fun c => (v.row c).map fun _ => 2 * (c : ℝ))]
    · unfold diagItems
      rw [List.map_flatMap]
      congr 2
      funext c
      rw [List.map_map]
      rfl
    · intro c hc
      rw [h.states]
      simp only [py_bind_ok]
      rw [collect_ok (g := fun _ => [2 * (c : ℝ)])]
      · congr 1
        induction v.row c with
        | nil => rfl
        | cons a l ih => simp [List.flatMap_cons, ih]
      · intro a ha
        rw [h.bool0 c a a ha ha (h.inc_diag _ _ ha), h.can_diag _ _ ha]
        simp
      all_goals exact (List.mem_range.1 hc).le
  refine ⟨_, e, ?_, fun c b hb => ?_⟩
  · rw [List.length_map, diagItems_length, ho.1]
  · have hg := diagItems_get v.statesdm v.ncharge c b (h.row_lt hb) hb
    simp only [vecOf, ho.2 c b hb, List.getD_eq_getElem?_getD, List.getElem?_map, hg]
    rfl

/-- **C65**, the particle current of a lead is the rate at which the lead changes the charge: each state counts with
its charge. -/
theorem c65_current {s : In} {la : Lab} (h : VOk s.v la) (ho : Ordered s.v la) {fct : Nat → Nat → ℝ × ℝ}
    {off symq : Bool} {st : St} (hst : genKern s fct off (fresh s.v symq) = .ok st) {LN : List ℝ}
    (hLN : genLN s.v = .ok LN) {φ : Vec} {cur : Currents} (hc : genCurrent s (vecOf LN) st.acc φ = .ok cur) {l : Nat}
    (hl : l < s.v.nleads) : cur.current l = ∑ q ∈ range s.v.ncharge, ∑ b ∈ s.v.R q,
      (q : ℝ) * ∑ j ∈ range s.v.npauli, (st.acc.mats.ten .Wdd).val l (la.lab q b b) j * φ.val j := by
  obtain ⟨S⟩ := genKern_steps hst
  obtain ⟨LN', e, _, key⟩ := c65_LN h ho
  rw [hLN] at e
  simp only [Except.ok.injEq] at e
  subst e
  obtain ⟨w, hw, rfl⟩ := genCurrent_inv hc
  simp only
  rw [(leadCurrent_inv S.sh (hw l hl)).2.2.2.1, sum_pop h, mul_sum]
  refine sum_congr rfl fun q _ => ?_
  rw [mul_sum]
  refine sum_congr rfl fun b hb => ?_
  rw [key q b ((mem_R h).1 hb)]
  ring

/-- **C65**, the energy current of a lead, if each population has the number of its state as label: each state counts
with its own energy, in addition to the terms of the tunnelling energy. -/
theorem c65_energy_partial {s : In} {la : Lab} (h : VOk s.v la) (hid : ∀ c b, b ∈ s.v.row c → la.lab c b b = b)
    {fct : Nat → Nat → ℝ × ℝ} {off symq : Bool} {st : St} (hst : genKern s fct off (fresh s.v symq) = .ok st)
    {LN φ : Vec} {cur : Currents} (hc : genCurrent s LN st.acc φ = .ok cur) {l : Nat}
    (hl : l < s.v.nleads) {e : ℝ} (he : cur.energy l = some e) : e = ∑ q ∈ range s.v.ncharge, ∑ b ∈ s.v.R q,
      s.E b * ∑ j ∈ range s.v.npauli, (st.acc.mats.ten .Wdd).val l (la.lab q b b) j * φ.val j
      - 1 / 2 * ∑ i ∈ range s.v.npauli, ∑ j ∈ range s.v.npauli, (st.acc.mats.ten .WE1).val l i j * φ.val j
      + 1 / 2 * ∑ i ∈ range s.v.npauli, ∑ j ∈ range s.v.npauli, (st.acc.mats.ten .WE2).val l i j * φ.val j := by
  obtain ⟨S⟩ := genKern_steps hst
  obtain ⟨w, hw, rfl⟩ := genCurrent_inv hc
  simp only at he
  split at he
  · simp at he
  · simp only [Option.some.injEq] at he
    rw [← he, (leadCurrent_inv S.sh (hw l hl)).2.2.2.2]
    have : (0.5 : ℝ) * ∑ i ∈ range s.v.npauli, 2 * s.E i * ∑ j ∈ range s.v.npauli,
        (st.acc.mats.ten .Wdd).val l i j * φ.val j = ∑ q ∈ range s.v.ncharge, ∑ b ∈ s.v.R q,
        s.E b * ∑ j ∈ range s.v.npauli, (st.acc.mats.ten .Wdd).val l (la.lab q b b) j * φ.val j := by
      rw [sum_pop h, mul_sum]
      refine sum_congr rfl fun q _ => ?_
      rw [mul_sum]
      refine sum_congr rfl fun b hb => ?_
      rw [show s.E (la.lab q b b) = s.E b by rw [hid q b ((mem_R h).1 hb)]]
      ring
    rw [this]
    norm_num

/-- In lists of consecutive states the position of a state is the state. -/
theorem posP_self {S : List (List Nat)} {N c b : Nat} (hS : S.flatten = List.range N) (hb : b ∈ rowOf S c) :
    posP S c b = b := by
  have hc : c < S.length := by
    by_contra hc
    rw [rowOf, List.getElem?_eq_none (by omega)] at hb
    simp at hb
  have e : (diagItems S S.length).map Prod.snd = S.flatten := by
    unfold diagItems
    rw [List.map_flatMap, List.flatMap_def]
    congr 1
    apply List.ext_getElem
    · simp
    · intro i h1 h2
      simp [rowOf, h2]
  have g := diagItems_get S S.length c b hc hb
  have g' : ((diagItems S S.length).map Prod.snd)[posP S c b]? = some b := by
    rw [List.getElem?_map, g]; rfl
  rw [e, hS] at g'
  obtain ⟨h1, h2⟩ := List.getElem?_eq_some_iff.1 g'
  simpa using h2

/-- **C65**, with 'charge' indexing and all states considered each population has the number of its state as label,
also after `remove_fock_states`. -/
theorem c65_own_labels {n nleads : Nat} {indexing : String} {d : DM} (h : Reach .dm n indexing d d.si.chargelst)
    (hix : d.si.indexing = .charge) :
    ∀ c b, b ∈ (d.view nleads).row c → d.labOf.lab c b b = b := by
  obtain ⟨hi, hk, _⟩ := h.inv
  have hs : d.si.indexing ≠ .ssq := by rw [hix]; decide
  obtain ⟨k, ⟨si, hsi, e⟩, k0⟩ := hi.si
  have k0 := k0 hk
  subst k0
  have hc : d.si.chargelst = enumChargelst (chL n (keepOf si.removed)) := by
    have hix' : si.indexing = .charge := by rw [e] at hix; exact hix
    rw [e]
    simpa using (hsi.ch hix').2.2
  have hlen : d.si.chargelst.length = n + 1 := by rw [hc, enumChargelst_length, chL_length]
  have hfl : d.si.chargelst.flatten = List.range d.si.chargelst.flatten.length := by
    rw [hc, enumChargelst_flatten]; simp
  intro c b hb
  rw [(ordered (nleads := nleads) h hs hlen).2 c b hb]
  refine posP_self (N := d.si.chargelst.flatten.length) ?_ hb
  show d.statesdm.flatten = _
  rw [hi.sdm, List.flatten_append]
  simpa using hfl

/-- **C65**, with fewer considered states than energies the currents are not calculated: an error is raised. -/
theorem c65_removed_false {s : In} {fct : Nat → Nat → ℝ × ℝ} {off symq : Bool} {st : St}
    (hst : genKern s fct off (fresh s.v symq) = .ok st) (hl : 0 < s.v.nleads) (hn : s.nmany ≠ s.v.npauli)
    (LN φ : Vec) : ∀ cur, genCurrent s LN st.acc φ ≠ .ok cur := by
  intro cur hc
  obtain ⟨S⟩ := genKern_steps hst
  obtain ⟨w, hw, _⟩ := genCurrent_inv hc
  exact hn (leadCurrent_inv S.sh (hw 0 hl)).2.1

/-! ### First order -/

/-- Weights times the change of the populations. -/
theorem flow_wD {v : View} {la : Lab} (h : VOk v la) (fct : Nat → Nat → ℝ × ℝ) (l : Nat) (w : Nat → Nat → ℝ)
    (φ : Nat → ℝ) : ∑ q ∈ range v.ncharge, ∑ b ∈ v.R q,
      w q b * ∑ j ∈ range v.npauli, wD v la fct l (la.lab q b b) j * φ j =
    ∑ q ∈ range (v.ncharge - 1), ∑ c ∈ v.R (q + 1), ∑ b ∈ v.R q, (w (q + 1) c - w q b) *
      (φ (la.lab q b b) * (fct l (la.ix1 q c b)).1 - φ (la.lab (q + 1) c c) * (fct l (la.ix1 q c b)).2) := by
  have b := balance h
    (fun q c b => w (q + 1) c * ((fct l (la.ix1 q c b)).1 * φ (la.lab q b b)
      - (fct l (la.ix1 q c b)).2 * φ (la.lab (q + 1) c c)))
    (fun q c b => w q b * ((fct l (la.ix1 q c b)).2 * φ (la.lab (q + 1) c c)
      - (fct l (la.ix1 q c b)).1 * φ (la.lab q b b)))
  refine Eq.trans ?_ (b.trans ?_)
  · refine sum_congr rfl fun q _ => sum_congr rfl fun b hb => ?_
    rw [wD_row h fct l ((mem_R h).1 hb), mul_add, mul_sum, mul_sum]
    congr 1
    refine sum_congr rfl fun a ha => ?_
    have h0 := (h.low_mem (by simpa [View.Lo] using ha)).1
    rw [Nat.sub_add_cancel h0]
  · refine sum_congr rfl fun q _ => sum_congr rfl fun c _ => sum_congr rfl fun b _ => ?_
    ring

/-- The kernel of a lead in first order. -/
theorem first_order {s : In} {la : Lab} (h : VOk s.v la) (hz : s.lib.Zero) {fct : Nat → Nat → ℝ × ℝ} {symq : Bool}
    {st : St} (S : Steps s fct false symq st) {l : Nat} (hl : l < s.v.nleads) (i j : Nat) :
    (st.acc.mats.ten .Wdd).val l i j = wD s.v la fct l i j := by
  have a2 : w2 s l i j = 0 := by
    refine w2_zero h S.h1 fun q x hx k hk => ?_
    by_contra hne
    exact (two_at h hx hk l _ _ hne).2.1 hz
  have a3 : (S.w l).val i j = 0 := by
    rcases S.cases with ⟨_, _, hw⟩ | ⟨hoff, _⟩
    · exact hw _ _ _
    · simp at hoff
  rw [S.wdd_eq h hl, a3, add_zero]
  show _ + w2 s l _ _ = _
  rw [a2, add_zero]

/-- **C64**, the particle currents in first order are those of the Pauli master equation. -/
theorem c64_current {s : In} {la : Lab} (h : VOk s.v la) (ho : Ordered s.v la) (hz : s.lib.Zero)
    {fct : Nat → Nat → ℝ × ℝ} {symq : Bool} {st : St} (hst : genKern s fct false (fresh s.v symq) = .ok st)
    {LN : List ℝ} (hLN : genLN s.v = .ok LN) {φ : Vec} {cur : Currents}
    (hc : genCurrent s (vecOf LN) st.acc φ = .ok cur) {l : Nat} (hl : l < s.v.nleads) :
    ∃ evs, Pauli.genCurrent s.v s.E fct φ = .ok evs ∧ cur.current l = current evs l := by
  obtain ⟨S⟩ := genKern_steps hst
  have size : φ.size = s.v.npauli := by
    obtain ⟨w, hw, _⟩ := genCurrent_inv hc
    exact (leadCurrent_inv S.sh (hw l hl)).2.2.1
  obtain ⟨evs, he, key⟩ := Pauli.genCurrent_ok h s.E fct φ size.ge
  refine ⟨evs, he, ?_⟩
  rw [(key l hl).1, c65_current h ho hst hLN hc hl]
  simp only [first_order h hz S hl]
  rw [flow_wD h fct l (fun q _ => (q : ℝ))]
  refine sum_congr rfl fun q _ => sum_congr rfl fun c _ => sum_congr rfl fun b _ => ?_
  push_cast
  ring

/-- The energy current in first order, if no two leads share an amplitude. -/
theorem energy_first {s : In} {la : Lab} (h : VOk s.v la) (hz : s.lib.Zero)
    {fct : Nat → Nat → ℝ × ℝ} {symq : Bool} {st : St} (hst : genKern s fct false (fresh s.v symq) = .ok st)
    {LN φ : Vec} {cur : Currents} (hc : genCurrent s LN st.acc φ = .ok cur) {l : Nat} (hl : l < s.v.nleads)
    (hg : ∀ a b, ∀ lp < s.v.nleads, lp ≠ l → s.gamma a b l lp = 0) {e : ℝ} (he : cur.energy l = some e) :
    e = ∑ q ∈ range (s.v.ncharge - 1), ∑ c ∈ s.v.R (q + 1), ∑ b ∈ s.v.R q,
      (s.E (la.lab (q + 1) c c) - s.E (la.lab q b b)) *
      (φ.val (la.lab q b b) * (fct l (la.ix1 q c b)).1 - φ.val (la.lab (q + 1) c c) * (fct l (la.ix1 q c b)).2) := by
  obtain ⟨S⟩ := genKern_steps hst
  obtain ⟨w, hw, rfl⟩ := genCurrent_inv hc
  have t1 : ∀ a b, s.t1 a b l = 0 := by
    intro a b
    unfold In.t1
    rw [sum_eq_zero]
    · simp
    · intro lp hlp
      split
      · rfl
      · rename_i hne; exact hg a b lp (mem_range.1 hlp) hne
  have t2 : ∀ a b, s.t2 a b l = 0 := by
    intro a b
    unfold In.t2
    rw [sum_eq_zero]
    · simp
    · intro lp hlp
      split
      · rfl
      · rename_i hne; rw [hg a b lp (mem_range.1 hlp) hne]; simp
  simp only at he
  split at he
  · simp at he
  · simp only [Option.some.injEq] at he
    rw [← he, (leadCurrent_inv S.sh (hw l hl)).2.2.2.2]
    have z : ∀ i j, (st.acc.mats.ten .WE1).val l i j = 0 ∧ (st.acc.mats.ten .WE2).val l i j = 0 := by
      intro i j
      rw [(S.we h hl i j).1, (S.we h hl i j).2]
      exact ⟨by simp [wE, t1, ddAt], by simp [wE, t2, ddAt]⟩
    simp only [first_order h hz S hl, z, zero_mul, sum_const_zero, mul_zero, sub_zero, add_zero]
    rw [sum_pop h, ← flow_wD h fct l (fun q b => s.E (la.lab q b b)), mul_sum]
    refine sum_congr rfl fun q _ => ?_
    rw [mul_sum]
    refine sum_congr rfl fun b _ => ?_
    ring

/-- **C64**, the energy currents in first order are those of the Pauli master equation, if each population has the
number of its state as label and no transition is made by two leads through a common single particle state. -/
theorem c64_energy_partial {s : In} {la : Lab} (h : VOk s.v la) (hid : ∀ c b, b ∈ s.v.row c → la.lab c b b = b)
    (hz : s.lib.Zero) {fct : Nat → Nat → ℝ × ℝ} {symq : Bool} {st : St}
    (hst : genKern s fct false (fresh s.v symq) = .ok st) {LN φ : Vec} {cur : Currents}
    (hc : genCurrent s LN st.acc φ = .ok cur) {l : Nat} (hl : l < s.v.nleads)
    (hg : ∀ a b, ∀ lp < s.v.nleads, lp ≠ l → s.gamma a b l lp = 0) {e : ℝ} (he : cur.energy l = some e) :
    ∃ evs, Pauli.genCurrent s.v s.E fct φ = .ok evs ∧ e = energyCurrent evs l := by
  obtain ⟨S⟩ := genKern_steps hst
  have size : φ.size = s.v.npauli := by
    obtain ⟨w, hw, _⟩ := genCurrent_inv hc
    exact (leadCurrent_inv S.sh (hw l hl)).2.2.1
  obtain ⟨evs, hev, key⟩ := Pauli.genCurrent_ok h s.E fct φ size.ge
  refine ⟨evs, hev, ?_⟩
  rw [(key l hl).2, energy_first h hz hst hc hl hg he]
  refine sum_congr rfl fun q _ => sum_congr rfl fun c hcm => sum_congr rfl fun b hb => ?_
  rw [show s.E (la.lab (q + 1) c c) = s.E c by rw [hid _ _ ((mem_R h).1 hcm)],
    show s.E (la.lab q b b) = s.E b by rw [hid _ _ ((mem_R h).1 hb)]]

/-! ### 'Lin' indexing -/

/-- Concrete objects: three single particle states, one lead. -/
theorem view_lin : ∃ d, DM.init .dm 3 "Lin" = .ok d ∧ VOk (d.view 1) d.labOf ∧ Ordered (d.view 1) d.labOf ∧
    d.statesdm = [[0], [1, 2, 4], [3, 5, 6], [7], []] ∧ d.npauli = 8 ∧ (d.view 1).ncharge = 4 := by
  have key : (SI.init 3 "Lin" >>= fun si => DM.init .dm 3 "Lin" >>= fun d =>
      .ok (d.statesdm, d.npauli, si.chargelst.length, decide (d.si.indexing = .Lin), (d.view 1).ncharge)) =
      .ok ([[0], [1, 2, 4], [3, 5, 6], [7], []], 8, 4, true, 4) := by decide +kernel
  rcases h1 : SI.init 3 "Lin" with e | si
  · rw [h1] at key
    exact absurd (show (Except.error e : Py (List (List Nat) × Nat × Nat × Bool × Nat)) = .ok _ from key) (by simp)
  · rcases h2 : DM.init .dm 3 "Lin" with e | d
    · rw [h1, h2] at key
      exact absurd (show (Except.error e : Py (List (List Nat) × Nat × Nat × Bool × Nat)) = .ok _ from key) (by simp)
    · rw [h1, h2] at key
      simp only [py_bind_ok, Except.ok.injEq, Prod.mk.injEq, decide_eq_true_iff] at key
      obtain ⟨k1, k2, k4, k5, k6⟩ := key
      have hx : d.si.indexing ≠ .ssq := by rw [k5]; decide
      exact ⟨d, rfl, view_ok (Reach.init h1 h2) hx k4, ordered (Reach.init h1 h2) hx k4, k1, k2, k6⟩

/-- **C65**, the energies are read by label and not by state: with 'Lin' indexing the energy current of a system with
one lead differs, in first order, from that of the Pauli master equation. -/
theorem c65_lin_false : ∃ (d : DM) (s : In) (fct : Nat → Nat → ℝ × ℝ) (st : St) (LN : List ℝ) (φ : Vec)
    (cur : Currents) (evs : List CEv) (e : ℝ), DM.init .dm 3 "Lin" = .ok d ∧ s.v = d.view 1 ∧ s.lib.Zero ∧
    Pauli.genFct s.v s.E s.L = .ok fct ∧ genKern s fct false (fresh s.v true) = .ok st ∧ genLN s.v = .ok LN ∧
    genCurrent s (vecOf LN) st.acc φ = .ok cur ∧ cur.energy 0 = some e ∧ Pauli.genCurrent s.v s.E fct φ = .ok evs ∧
    e ≠ energyCurrent evs 0 := by
  obtain ⟨d, hd, hv, ho, hs, hp, hn⟩ := view_lin
  let s := inR (d.view 1) (fun _ => 1) 8 true
  have hz : s.lib.Zero := by simp [Lib.Zero, s, inR, libZ]
  have hp' : s.v.npauli = 8 := hp
  obtain ⟨fct, hf, amp⟩ := Pauli.genFct_ok (v := s.v) hv s.E s.L
  obtain ⟨st, hst⟩ := genKern_some (s := s) hv (Or.inl rfl) fct false true (by simp)
  obtain ⟨S⟩ := genKern_steps hst
  obtain ⟨LN, hLN, hlen, _⟩ := c65_LN (v := s.v) hv ho
  let φ : Vec := ⟨8, fun i => if i = 0 then 1 else 0⟩
  obtain ⟨cur, hc⟩ := genCurrent_some (s := s) (LN := vecOf LN) (φ := φ) S.sh hlen hp'.symm hp'.symm
  have hg0 : ∀ a b l lp, (s.gamma a b l lp).im = 0 := by
    intro a b l lp
    simp [In.gamma, s, inR]
  obtain ⟨e, Q, heQ⟩ := c61_defined (s := s) hv hst hc hg0
  obtain ⟨evs, hev, key⟩ := Pauli.genCurrent_ok (v := s.v) hv s.E fct φ hp'.le
  have hl : 0 < s.v.nleads := Nat.zero_lt_one
  refine ⟨d, s, fct, st, LN, φ, cur, evs, e 0, hd, rfl, hz, hf, hst, hLN, hc, (heQ 0).1, hev, ?_⟩
  have r0 : s.v.R 0 = {0} := by simp [View.R, View.row, s, inR, DM.view, hs]
  have r1 : s.v.R 1 = {1, 2, 4} := by ext x; simp [View.R, View.row, s, inR, DM.view, hs]
  have hr : ∀ {c b}, b ∈ s.v.R c → b ∈ s.v.row c := fun hb => (mem_R (v := s.v) hv).1 hb
  have lab : ∀ c b, b ∈ s.v.R c → d.labOf.lab c b b = posP [[0], [1, 2, 4], [3, 5, 6], [7], []] c b := by
    intro c b hb
    have := ho.2 c b (hr hb)
    simp only [DM.view, hs] at this
    exact this
  have l0 : d.labOf.lab 0 0 0 = 0 := (lab 0 0 (by simp [r0])).trans (by decide)
  have l1 : d.labOf.lab 1 1 1 = 1 := (lab 1 1 (by simp [r1])).trans (by decide)
  have l2 : d.labOf.lab 1 2 2 = 2 := (lab 1 2 (by simp [r1])).trans (by decide)
  have l4 : d.labOf.lab 1 4 4 = 3 := (lab 1 4 (by simp [r1])).trans (by decide)
  have f0 : ∀ q, ∀ b ∈ s.v.R q, φ.val (d.labOf.lab q b b) = if q = 0 then 1 else 0 := by
    intro q b hb
    by_cases e : q = 0
    · subst e
      rw [r0, mem_singleton] at hb
      subst hb
      simp [φ, l0]
    · rw [if_neg e]
      simp only [φ]
      rw [if_neg]
      intro hh
      have := hv.lab_inj q b b 0 0 0 (hr hb) (hr hb) (hv.inc_diag _ _ (hr hb)) (hr (by simp [r0])) (hr (by simp [r0]))
        (hv.inc_diag _ _ (hr (by simp [r0]))) (hh.trans l0.symm)
      exact e this.1
  have two : ∀ W : Nat → Nat → Nat → ℝ, ∑ q ∈ range (s.v.ncharge - 1), ∑ c ∈ s.v.R (q + 1), ∑ b ∈ s.v.R q, W q c b *
      (φ.val (d.labOf.lab q b b) * (fct 0 (d.labOf.ix1 q c b)).1
        - φ.val (d.labOf.lab (q + 1) c c) * (fct 0 (d.labOf.ix1 q c b)).2) =
      W 0 1 0 * (fct 0 (d.labOf.ix1 0 1 0)).1 + W 0 2 0 * (fct 0 (d.labOf.ix1 0 2 0)).1
        + W 0 4 0 * (fct 0 (d.labOf.ix1 0 4 0)).1 := by
    intro W
    have hn' : s.v.ncharge - 1 = 3 := by
      have : s.v.ncharge = 4 := hn
      omega
    rw [hn', sum_eq_single_of_mem 0 (by simp)]
    · rw [r1, r0]
      simp only [sum_singleton]
      rw [sum_insert (by simp), sum_insert (by simp), sum_singleton, f0 0 0 (by simp [r0]), f0 1 1 (by simp [r1]),
        f0 1 2 (by simp [r1]), f0 1 4 (by simp [r1])]
      simp only [if_true, one_ne_zero, if_false]
      ring
    · intro q _ hq
      refine sum_eq_zero fun c hc => sum_eq_zero fun b hb => ?_
      rw [f0 q b hb, f0 (q + 1) c hc, if_neg hq, if_neg (by omega)]
      ring
  have hg : ∀ a b, ∀ lp < s.v.nleads, lp ≠ 0 → s.gamma a b 0 lp = 0 := by
    intro a b lp h1 h2
    have h1 : lp < 1 := h1
    omega
  rw [(key 0 hl).2, energy_first (s := s) hv hz hst hc hl hg (heQ 0).1, two fun q c b =>
    s.E (d.labOf.lab (q + 1) c c) - s.E (d.labOf.lab q b b), two fun _ c b => s.E c - s.E b]
  simp only [zero_add, l0, l1, l2, l4]
  have a4 := amp 0 4 0 0 (by simp [r1]) (by simp [r0]) hl
  rw [a4]
  have pos : 0 < (Pauli.amp s.E s.L 0 4 0).1 := by
    simp only [Pauli.amp, funcPauli, s, inR]
    rw [if_pos (by norm_num)]
    unfold fermiFunc
    rw [if_neg (by norm_num)]
    simp only [Complex.ofReal_one, map_one, mul_one, Complex.one_re]
    have := Real.exp_pos ((((4 : Nat) : ℝ) - ((0 : Nat) : ℝ) - ((0 : Nat) : ℝ)) / (((0 : Nat) : ℝ) + 1))
    have := Real.pi_pos
    positivity
  have e3 : s.E 3 = 3 := by simp [s, inR]
  have e4 : s.E 4 = 4 := by simp [s, inR]
  rw [e3, e4]
  intro hh
  linarith

/-! ### Examples -/

/-- The object of the examples, with the order of the labels. -/
theorem view_own : ∃ d, DM.init .dm 2 "charge" = .ok d ∧ VOk (d.view 2) d.labOf ∧ Ordered (d.view 2) d.labOf ∧
    (∀ c b, b ∈ (d.view 2).row c → d.labOf.lab c b b = b) ∧ d.npauli = 4 ∧
    Reach .dm 2 "charge" d d.si.chargelst ∧ d.si.indexing = .charge := by
  have key : (SI.init 2 "charge" >>= fun si => DM.init .dm 2 "charge" >>= fun d =>
      .ok (d.npauli, si.chargelst.length, decide (d.si.indexing = .charge), decide (si.chargelst = d.si.chargelst))) =
      .ok (4, 3, true, true) := by decide +kernel
  rcases h1 : SI.init 2 "charge" with e | si
  · rw [h1] at key
    exact absurd (show (Except.error e : Py (Nat × Nat × Bool × Bool)) = .ok _ from key) (by simp)
  · rcases h2 : DM.init .dm 2 "charge" with e | d
    · rw [h1, h2] at key
      exact absurd (show (Except.error e : Py (Nat × Nat × Bool × Bool)) = .ok _ from key) (by simp)
    · rw [h1, h2] at key
      simp only [py_bind_ok, Except.ok.injEq, Prod.mk.injEq, decide_eq_true_iff] at key
      obtain ⟨k2, k4, k5, k6⟩ := key
      have hx : d.si.indexing ≠ .ssq := by rw [k5]; decide
      have hr : Reach .dm 2 "charge" d si.chargelst := Reach.init h1 h2
      refine ⟨d, rfl, view_ok hr hx k4, ordered hr hx k4, ?_, k2, k6 ▸ hr, k5⟩
      exact c65_own_labels (k6 ▸ hr) k5

/-- The hypotheses of `c65_current`, `c65_energy_partial`, `c64_current` and `c64_energy_partial` hold for a system
with a single particle state, coupled to one of two leads, and a vector `φ` different from zero. -/
example : ∃ (s : In) (la : Lab) (fct : Nat → Nat → ℝ × ℝ) (st : St) (LN : List ℝ) (φ : Vec) (cur : Currents) (e : ℝ),
    VOk s.v la ∧ Ordered s.v la ∧ (∀ c b, b ∈ s.v.row c → la.lab c b b = b) ∧ s.lib.Zero ∧
    Pauli.genFct s.v s.E s.L = .ok fct ∧ genKern s fct false (fresh s.v true) = .ok st ∧ genLN s.v = .ok LN ∧
    genCurrent s (vecOf LN) st.acc φ = .ok cur ∧ 0 < s.v.nleads ∧ (∀ a b, ∀ lp < s.v.nleads, lp ≠ 0 → s.gamma a b 0 lp = 0) ∧
    cur.energy 0 = some e ∧ s.L.Tba 0 0 1 ≠ 0 ∧ φ.val 0 ≠ 0 := by
  obtain ⟨d, _, hv, ho, hid, hp, _⟩ := view_own
  let s := inR (d.view 2) (fun l => if l = 0 then 1 else 0) 4 true
  have hp' : s.v.npauli = 4 := hp
  obtain ⟨fct, hf, _⟩ := Pauli.genFct_ok (v := s.v) hv s.E s.L
  obtain ⟨st, hst⟩ := genKern_some (s := s) hv (Or.inl rfl) fct false true (by simp)
  obtain ⟨S⟩ := genKern_steps hst
  obtain ⟨LN, hLN, hlen, _⟩ := c65_LN (v := s.v) hv ho
  obtain ⟨cur, hc⟩ := genCurrent_some (s := s) (LN := vecOf LN) (φ := ⟨4, fun _ => 1⟩) S.sh hlen hp'.symm hp'.symm
  have hg : ∀ a b l lp, (s.gamma a b l lp).im = 0 := by
    intro a b l lp
    simp only [In.gamma, s, inR, Complex.im_sum]
    refine sum_eq_zero fun n _ => ?_
    split <;> split <;> simp
  obtain ⟨e, Q, heQ⟩ := c61_defined (s := s) hv hst hc hg
  refine ⟨s, d.labOf, fct, st, LN, _, cur, e 0, hv, ho, hid, ?_, hf, hst, hLN, hc, Nat.zero_lt_two, ?_, (heQ 0).1, ?_,
    one_ne_zero⟩
  · simp [Lib.Zero, s, inR, libZ]
  · intro a b lp _ hne
    simp [In.gamma, s, inR, hne]
  · simp [s, inR]

/-- The hypotheses of `c65_removed_false` hold after a state has been removed: three of four states are considered. -/
example : ∃ (d0 d : DM) (fct : Nat → Nat → ℝ × ℝ) (st : St), DM.init .dm 2 "charge" = .ok d0 ∧
    d0.setStatesdm [[0], [1], [3]] = .ok d ∧ d.npauli = 3 ∧ 0 < (d.view 2).nleads ∧
    genKern (inR (d.view 2) (fun _ => 1) 4 false) fct true (fresh (d.view 2) true) = .ok st := by
  have key : (SI.init 2 "charge" >>= fun si => DM.init .dm 2 "charge" >>= fun d0 =>
      d0.setStatesdm [[0], [1], [3]] >>= fun d =>
      .ok (d.npauli, decide (d.si.indexing = .charge), d0.si.ncharge, d0.si.nmany)) = .ok (3, true, 3, 4) := by decide +kernel
  rcases h1 : SI.init 2 "charge" with e | si
  · rw [h1] at key
    exact absurd (show (Except.error e : Py (Nat × Bool × Nat × Nat)) = .ok _ from key) (by simp)
  rcases h2 : DM.init .dm 2 "charge" with e | d0
  · rw [h1, h2] at key
    exact absurd (show (Except.error e : Py (Nat × Bool × Nat × Nat)) = .ok _ from key) (by simp)
  rcases h3 : d0.setStatesdm [[0], [1], [3]] with e | d
  · rw [h1, h2] at key
    simp only [py_bind_ok] at key
    rw [h3] at key
    exact absurd (show (Except.error e : Py (Nat × Bool × Nat × Nat)) = .ok _ from key) (by simp)
  rw [h1, h2] at key
  simp only [py_bind_ok] at key
  rw [h3] at key
  simp only [py_bind_ok, Except.ok.injEq, Prod.mk.injEq, decide_eq_true_iff] at key
  obtain ⟨k1, k2, k3, k4⟩ := key
  have hr : Reach .dm 2 "charge" d [[0], [1], [3]] := by
    refine Reach.set (Reach.init h1 h2) ?_ h3
    refine ⟨by rw [k3]; decide, ?_, ?_, ?_⟩
    · rw [k3]; decide
    · rw [k3]
      intro c c' h1 h2 hne
      interval_cases c <;> interval_cases c' <;> simp at hne ⊢
    · rw [k3, k4]; decide
  have hx : d.si.indexing ≠ .ssq := by rw [k2]; decide
  have hz : d.si.indexing ≠ .sz := by rw [k2]; decide
  obtain ⟨st, hst⟩ := genKern_some (s := inR (d.view 2) (fun _ => 1) 4 false) (view_ok hr hx rfl) (Or.inl rfl)
    (fun _ _ => (1, 2)) true true (fun _ => all_coherences hr hx hz rfl)
  exact ⟨d0, d, _, st, rfl, h3, k1, Nat.zero_lt_two, hst⟩

end RTD

end

end Verif
