import Verif.Lemmas.Fct

/-! Closed forms for the Pauli approach. -/

namespace Verif

open Finset

noncomputable section

/-- Contribution of a Pauli call to row `r`. -/
def KCall.pcontrib (φ : Nat → ℝ) (r : Nat) : KCall → ℝ
  | .pauli fm fp bb aa => if r = bb.toNat then fm * φ bb.toNat + fp * φ aa.toNat else 0
  | _ => 0

/-- A Pauli call within the bounds. -/
def PGood (n : Nat) : KCall → Prop
  | .pauli _ _ bb aa => 0 ≤ bb ∧ bb.toNat < n ∧ 0 ≤ aa ∧ aa.toNat < n
  | _ => False

theorem runKern_pauli (v : View) {n : Nat} (ks : List KCall) (hk : ∀ k ∈ ks, PGood n k) {m : Mat}
    (hr : n ≤ m.rows) (hc : m.cols = n) :
    ∃ m', v.runKern m ks = .ok m' ∧
      Adds m m' (fun φ r => (ks.map fun k => k.pcontrib φ r).sum) := by
  induction ks generalizing m with
  | nil => exact ⟨m, rfl, (Adds.refl m).congr (by simp)⟩
  | cons k ks ih =>
    have hk1 := hk k (by simp)
    cases k with
    | energy => simp [PGood] at hk1
    | elem => simp [PGood] at hk1
    | pauli fm fp bb aa =>
      obtain ⟨h1, h2, h3, h4⟩ := hk1
      obtain ⟨b, rfl⟩ := Int.eq_ofNat_of_zero_le h1
      obtain ⟨a, rfl⟩ := Int.eq_ofNat_of_zero_le h3
      simp only [Int.toNat_natCast] at h2 h4
      obtain ⟨m1, g1, a1⟩ := m.add_ok (r := b) (c := b) (by omega) (by omega) fm
      obtain ⟨m2, g2, a2⟩ := m1.add_ok (r := b) (c := a) (by rw [a1.rows]; omega)
        (by rw [a1.cols]; omega) fp
      obtain ⟨m3, g3, a3⟩ := ih (fun k hk' => hk k (by simp [hk'])) (m := m2)
        (by rw [a2.rows, a1.rows]; exact hr) (by rw [a2.cols, a1.cols]; exact hc)
      refine ⟨m3, ?_, ((a1.trans a2).trans a3).congr ?_⟩
      · unfold View.runKern at *
        rw [List.foldlM_cons]
        simp only [View.callKern]
        rw [g1]
        simp only [py_bind_ok]
        rw [g2]
        exact g3
      · intro φ r
        simp only [List.map_cons, List.sum_cons, KCall.pcontrib, Int.toNat_natCast]
        split <;> simp

section
variable {v : View} {la : Lab} (h : VMul v la)
include h

theorem VMul.ind0_diag {c b : Nat} (hb : b ∈ v.row c) : v.ind0 b b c = .ok (la.lab c b b : Int) :=
  h.ind0_inc hb hb (h.inc_diag c b hb)

namespace Pauli

/-- The calls made for the state `b`. -/
def group (v : View) (la : Lab) (fct : Nat → Nat → ℝ × ℝ) (c b : Nat) : List KCall :=
  (v.low c).map (fun a => KCall.pauli
    (∑ l ∈ range v.nleads, -(fct l (la.ix1 (c - 1) b a)).2)
    (∑ l ∈ range v.nleads, (fct l (la.ix1 (c - 1) b a)).1) (la.lab c b b) (la.lab (c - 1) a a)) ++
  (v.row (c + 1)).map (fun x => KCall.pauli
    (∑ l ∈ range v.nleads, -(fct l (la.ix1 c x b)).1)
    (∑ l ∈ range v.nleads, (fct l (la.ix1 c x b)).2) (la.lab c b b) (la.lab (c + 1) x x))

omit h in
theorem fst_sum {n : Nat} (f g : Nat → ℝ) : (∑ l ∈ range n, (f l, g l))
    = ((∑ l ∈ range n, f l), (∑ l ∈ range n, g l)) := by
  rw [Prod.mk.injEq] <;> simp [Prod.ext_iff, Prod.fst_sum, Prod.snd_sum]

theorem VMul.coup_ok (fct : Nat → Nat → ℝ × ℝ) {c b : Nat} (hb : b ∈ v.row c) :
    coup v fct b (c : Int) = .ok (group v la fct c b) := by
  have hcl := h.row_lt hb
  unfold coup
  rw [h.ind0_diag hb, h.states_pred (by omega), h.states_succ hcl]
  simp only [py_bind_ok]
  rw [collect_ok (g := fun a => [KCall.pauli
    (∑ l ∈ range v.nleads, -(fct l (la.ix1 (c - 1) b a)).2)
    (∑ l ∈ range v.nleads, (fct l (la.ix1 (c - 1) b a)).1) (la.lab c b b) (la.lab (c - 1) a a)]),
    collect_ok (g := fun x => [KCall.pauli
    (∑ l ∈ range v.nleads, -(fct l (la.ix1 c x b)).1)
    (∑ l ∈ range v.nleads, (fct l (la.ix1 c x b)).2) (la.lab c b b) (la.lab (c + 1) x x)])]
  · simp only [py_bind_ok, py_pure, group]
    congr 2
    · exact List.map_eq_flatMap.symm
    · exact List.map_eq_flatMap.symm
  · intro x hx
    have e : ((c : Int) + 1) = ((c + 1 : Nat) : Int) := by omega
    rw [e, h.ind0_diag hx, h.ind1 c x b hx hb]
    simp only [py_bind_ok]
    rw [sumM_range (g := fun l => (-(fct l (la.ix1 c x b)).1, (fct l (la.ix1 c x b)).2)),
      fst_sum]
    · rfl
    · intro l _
      rw [h.rd_ok fct l hx hb]
      rfl
  · intro a ha
    obtain ⟨h0, ha', e⟩ := h.low_mem ha
    have hb' : b ∈ v.row (c - 1 + 1) := by rw [Nat.sub_add_cancel h0]; exact hb
    rw [e, h.ind0_diag ha', h.ind1 (c - 1) b a hb' ha']
    simp only [py_bind_ok]
    rw [sumM_range (g := fun l => (-(fct l (la.ix1 (c - 1) b a)).2, (fct l (la.ix1 (c - 1) b a)).1)),
      fst_sum]
    · rfl
    · intro l _
      rw [h.rd_ok fct l hb' ha']
      rfl

omit h in
theorem VRep.genKern_ok {uni : Nat → Nat → Nat → Bool} (h : VRep v la uni) (fct : Nat → Nat → ℝ × ℝ) :
    genKern v fct = .ok ((List.range v.ncharge).flatMap fun c =>
      (v.row c).flatMap fun b => if uni c b b then group v la fct c b else []) := by
  unfold genKern
  apply collect_ok
  intro c hc
  rw [h.states (by have := List.mem_range.1 hc; omega)]
  simp only [py_bind_ok]
  apply collect_ok
  intro b hb
  unfold View.isUnique
  rw [h.bool0 c b b hb hb (h.inc_diag c b hb)]
  simp only [py_bind_ok]
  split
  · exact VMul.coup_ok h.toVMul fct hb
  · rfl

/-- Rate (summed over the leads) of `b → x` (adding an electron), for `b` of charge `q`. -/
def up (v : View) (la : Lab) (fct : Nat → Nat → ℝ × ℝ) (q x b : Nat) : ℝ :=
  ∑ l ∈ range v.nleads, (fct l (la.ix1 q x b)).1

/-- Rate of `x → b` (removing an electron), for `b` of charge `q`. -/
def down (v : View) (la : Lab) (fct : Nat → Nat → ℝ × ℝ) (q x b : Nat) : ℝ :=
  ∑ l ∈ range v.nleads, (fct l (la.ix1 q x b)).2

/-- The calls are within the bounds. -/
theorem VMul.group_good (uni : Nat → Nat → Nat → Bool) (fct : Nat → Nat → ℝ × ℝ) :
    ∀ k ∈ (List.range v.ncharge).flatMap fun c =>
      (v.row c).flatMap fun b => if uni c b b then group v la fct c b else [], PGood v.npauli k := by
  intro k hk
  simp only [List.mem_flatMap] at hk
  obtain ⟨c, _, b, hb, hk⟩ := hk
  split at hk
  swap
  · simp at hk
  have hlb := h.lab_diag c b hb
  simp only [group, List.mem_append, List.mem_map] at hk
  rcases hk with ⟨a, ha, rfl⟩ | ⟨x, hx, rfl⟩
  · obtain ⟨_, ha', _⟩ := h.low_mem ha
    have := h.lab_diag (c - 1) a ha'
    exact ⟨by omega, by simpa using hlb, by omega, by simpa using this⟩
  · have := h.lab_diag (c + 1) x hx
    exact ⟨by omega, by simpa using hlb, by omega, by simpa using this⟩

omit h in
/-- The rows of the Pauli kernel. -/
theorem VRep.kernel_rows {uni : Nat → Nat → Nat → Bool} (h : VRep v la uni)
    (fct : Nat → Nat → ℝ × ℝ) (symq : Bool) :
    ∃ m, kernel v symq fct = .ok m ∧ m.cols = v.npauli ∧
      m.rows = (if symq then v.npauli else v.npauli + 1) ∧
      ∀ φ c b, b ∈ v.row c → uni c b b = true → m.app φ (la.lab c b b) =
        ∑ a ∈ v.Lo c, (up v la fct (c - 1) b a * φ (la.lab (c - 1) a a)
          - down v la fct (c - 1) b a * φ (la.lab c b b)) +
        ∑ x ∈ v.R (c + 1), (down v la fct c x b * φ (la.lab (c + 1) x x)
          - up v la fct c x b * φ (la.lab c b b)) := by
  have hgood := VMul.group_good h.toVMul uni fct
  obtain ⟨m, g, ad⟩ := runKern_pauli v _ hgood
    (m := Mat.zeros (if symq then v.npauli else v.npauli + 1) v.npauli)
    (by simp only [Mat.zeros]; split <;> omega) rfl
  refine ⟨m, ?_, ad.cols, ad.rows, ?_⟩
  · unfold kernel View.assemble
    rw [VRep.genKern_ok h]
    exact g
  · intro φ c b hb hu
    rw [ad.app, Mat.app_zeros, zero_add, sum_flatMap',
      sum_single List.nodup_range (x := c) (by simpa using h.row_lt hb), sum_flatMap',
      sum_single (h.nodup c) (x := b) hb]
    · rw [if_pos hu, group, List.map_append, List.sum_append, List.map_map, List.map_map,
        View.Lo, View.R, List.sum_toFinset _ (h.low_nodup c), List.sum_toFinset _ (h.nodup (c + 1))]
      congr 2
      · apply List.map_congr_left
        intro a _
        simp [KCall.pcontrib, up, down, sum_neg_distrib]
        ring
      · apply List.map_congr_left
        intro a _
        simp [KCall.pcontrib, up, down, sum_neg_distrib]
        ring
    · intro b' hb' hne
      apply List.sum_eq_zero
      intro t ht
      simp only [List.mem_map] at ht
      obtain ⟨k, hk, rfl⟩ := ht
      split at hk
      swap
      · simp at hk
      rename_i hu'
      have hd : la.lab c b b ≠ la.lab c b' b' := by
        intro e
        have := h.uni_inj c b b c b' b' hb hb (h.inc_diag c b hb) hb' hb' (h.inc_diag c b' hb')
          hu hu' e
        exact hne this.2.1.symm
      simp only [group, List.mem_append, List.mem_map] at hk
      rcases hk with ⟨a, ha, rfl⟩ | ⟨x, hx, rfl⟩ <;> simp [KCall.pcontrib, hd]
    · intro c' _ hne
      apply List.sum_eq_zero
      intro t ht
      simp only [List.mem_map, List.mem_flatMap] at ht
      obtain ⟨k, ⟨b', hb', hk⟩, rfl⟩ := ht
      split at hk
      swap
      · simp at hk
      rename_i hu'
      have hd : la.lab c b b ≠ la.lab c' b' b' := by
        intro e
        have := h.uni_inj c b b c' b' b' hb hb (h.inc_diag c b hb) hb' hb' (h.inc_diag c' b' hb')
          hu hu' e
        exact hne this.1.symm
      simp only [group, List.mem_append, List.mem_map] at hk
      rcases hk with ⟨a, ha, rfl⟩ | ⟨x, hx, rfl⟩ <;> simp [KCall.pcontrib, hd]

theorem VMul.get_ok (φ : Vec) {c b : Nat} (hb : b ∈ v.row c) (hs : v.npauli ≤ φ.size) :
    φ.get (la.lab c b b : Int) = .ok (φ.val (la.lab c b b)) := by
  unfold Vec.get
  rw [pyIdx_nat (by have := h.lab_diag c b hb; omega)]
  rfl

/-- The currents of the Pauli approach. -/
theorem VMul.genCurrent_ok (E : Nat → ℝ) (fct : Nat → Nat → ℝ × ℝ) (φ : Vec)
    (hs : v.npauli ≤ φ.size) :
    ∃ evs, genCurrent v E fct φ = .ok evs ∧ ∀ l, l < v.nleads →
      current evs l = ∑ q ∈ range (v.ncharge - 1), ∑ c ∈ v.R (q + 1), ∑ b ∈ v.R q,
        (φ.val (la.lab q b b) * (fct l (la.ix1 q c b)).1
          - φ.val (la.lab (q + 1) c c) * (fct l (la.ix1 q c b)).2) ∧
      energyCurrent evs l = ∑ q ∈ range (v.ncharge - 1), ∑ c ∈ v.R (q + 1), ∑ b ∈ v.R q,
        (E c - E b) * (φ.val (la.lab q b b) * (fct l (la.ix1 q c b)).1
          - φ.val (la.lab (q + 1) c c) * (fct l (la.ix1 q c b)).2) := by
  have hg : genCurrent v E fct φ = .ok ((List.range (v.ncharge - 1)).flatMap fun q =>
      (v.row (q + 1)).flatMap fun c => (v.row q).flatMap fun b => (List.range v.nleads).flatMap
        fun l => [CEv.mk l (φ.val (la.lab q b b) * (fct l (la.ix1 q c b)).1
          + -φ.val (la.lab (q + 1) c c) * (fct l (la.ix1 q c b)).2)
          (-(E b - E c) * (φ.val (la.lab q b b) * (fct l (la.ix1 q c b)).1
          + -φ.val (la.lab (q + 1) c c) * (fct l (la.ix1 q c b)).2))]) := by
    unfold genCurrent
    apply collect_ok
    intro q hq
    have hq' : q < v.ncharge := by have := List.mem_range.1 hq; omega
    rw [h.states_succ hq']
    simp only [py_bind_ok]
    apply collect_ok
    intro c hc
    rw [show ((q : Int) + 1) = ((q + 1 : Nat) : Int) by omega, h.ind0_diag hc,
      h.states (by omega)]
    simp only [py_bind_ok]
    apply collect_ok
    intro b hb
    rw [h.ind0_diag hb, h.ind1 q c b hc hb]
    simp only [py_bind_ok]
    apply collect_ok
    intro l _
    rw [VMul.get_ok h φ hb hs, VMul.get_ok h φ hc hs, h.rd_ok fct l hc hb]
    rfl
  refine ⟨_, hg, ?_⟩
  intro l hl
  constructor
  · rw [current_eq, sum_flatMap', sum_range_list]
    apply sum_congr rfl
    intro q _
    rw [sum_flatMap', View.R, View.R, List.sum_toFinset _ (h.nodup (q + 1))]
    congr 1
    apply List.map_congr_left
    intro c _
    rw [sum_flatMap', List.sum_toFinset _ (h.nodup q)]
    congr 1
    apply List.map_congr_left
    intro b _
    rw [sum_flatMap']
    simp only [List.map_cons, List.map_nil, List.sum_cons, List.sum_nil, add_zero]
    rw [leads_sum v.nleads (fun l => φ.val (la.lab q b b) * (fct l (la.ix1 q c b)).1
          + -φ.val (la.lab (q + 1) c c) * (fct l (la.ix1 q c b)).2) hl]
    ring
  · rw [energyCurrent_eq, sum_flatMap', sum_range_list]
    apply sum_congr rfl
    intro q _
    rw [sum_flatMap', View.R, View.R, List.sum_toFinset _ (h.nodup (q + 1))]
    congr 1
    apply List.map_congr_left
    intro c _
    rw [sum_flatMap', List.sum_toFinset _ (h.nodup q)]
    congr 1
    apply List.map_congr_left
    intro b _
    rw [sum_flatMap']
    simp only [List.map_cons, List.map_nil, List.sum_cons, List.sum_nil, add_zero]
    rw [leads_sum v.nleads (fun l => -(E b - E c) * (φ.val (la.lab q b b) * (fct l (la.ix1 q c b)).1
          + -φ.val (la.lab (q + 1) c c) * (fct l (la.ix1 q c b)).2)) hl]
    ring

omit h in
theorem coup_ok (h : VOk v la) :
    type_of% (@VMul.coup_ok v la h.toVMul) := VMul.coup_ok h.toVMul

omit h in
theorem genKern_ok (h : VOk v la) (fct : Nat → Nat → ℝ × ℝ) :
    genKern v fct = .ok ((List.range v.ncharge).flatMap fun c =>
      (v.row c).flatMap fun b => group v la fct c b) := by
  unfold genKern
  apply collect_ok
  intro c hc
  rw [h.states (by have := List.mem_range.1 hc; omega)]
  simp only [py_bind_ok]
  apply collect_ok
  intro b hb
  unfold View.isUnique
  rw [h.bool0 c b b hb hb (h.inc_diag c b hb), h.can_diag c b hb]
  simp only [py_bind_ok, if_true]
  exact VMul.coup_ok h.toVMul fct hb

omit h in
/-- The calls are within the bounds. -/
theorem group_good (h : VOk v la) (fct : Nat → Nat → ℝ × ℝ) :
    ∀ k ∈ (List.range v.ncharge).flatMap fun c =>
      (v.row c).flatMap fun b => group v la fct c b, PGood v.npauli k := by
  have := VMul.group_good h.toVMul (fun _ _ _ => true) fct
  simpa using this

omit h in
/-- The rows of the Pauli kernel. -/
theorem kernel_rows (h : VOk v la) (fct : Nat → Nat → ℝ × ℝ) (symq : Bool) :
    ∃ m, kernel v symq fct = .ok m ∧ m.cols = v.npauli ∧
      m.rows = (if symq then v.npauli else v.npauli + 1) ∧
      ∀ φ c b, b ∈ v.row c → m.app φ (la.lab c b b) =
        ∑ a ∈ v.Lo c, (up v la fct (c - 1) b a * φ (la.lab (c - 1) a a)
          - down v la fct (c - 1) b a * φ (la.lab c b b)) +
        ∑ x ∈ v.R (c + 1), (down v la fct c x b * φ (la.lab (c + 1) x x)
          - up v la fct c x b * φ (la.lab c b b)) := by
  obtain ⟨m, g1, g2, g3, g4⟩ := VRep.kernel_rows h.rep fct symq
  exact ⟨m, g1, g2, g3, fun φ c b hb => g4 φ c b hb (h.can_diag c b hb)⟩

end Pauli

end

section
variable {v : View} {la : Lab} (h : VOk v la)

include h

theorem ind0_diag : type_of% (@VMul.ind0_diag v la h.toVMul) := VMul.ind0_diag h.toVMul

namespace Pauli

/-- The rows weighted by `x`. -/
theorem kernel_weighted {m : Mat} {fct : Nat → Nat → ℝ × ℝ}
    (rows : ∀ φ c b, b ∈ v.row c → m.app φ (la.lab c b b) =
        ∑ a ∈ v.Lo c, (up v la fct (c - 1) b a * φ (la.lab (c - 1) a a)
          - down v la fct (c - 1) b a * φ (la.lab c b b)) +
        ∑ x ∈ v.R (c + 1), (down v la fct c x b * φ (la.lab (c + 1) x x)
          - up v la fct c x b * φ (la.lab c b b)))
    (x : Nat → Nat → ℝ) (φ : Nat → ℝ) :
    ∑ q ∈ range v.ncharge, ∑ b ∈ v.R q, x q b * m.app φ (la.lab q b b)
      = ∑ q ∈ range (v.ncharge - 1), ∑ c ∈ v.R (q + 1), ∑ b ∈ v.R q,
        (x (q + 1) c - x q b) * (φ (la.lab q b b) * up v la fct q c b
          - φ (la.lab (q + 1) c c) * down v la fct q c b) := by
  have hb := h.balance
    (D := fun q c b => x (q + 1) c * (up v la fct q c b * φ (la.lab q b b)
        - down v la fct q c b * φ (la.lab (q + 1) c c)))
    (U := fun q c b => x q b * (down v la fct q c b * φ (la.lab (q + 1) c c)
        - up v la fct q c b * φ (la.lab q b b)))
  refine Eq.trans ?_ (hb.trans (sum_congr rfl fun q _ => sum_congr rfl fun c _ =>
    sum_congr rfl fun b _ => by ring))
  refine sum_congr rfl fun q _ => sum_congr rfl fun b hb => ?_
  rw [rows φ q b ((h.mem_R).1 hb), mul_add, mul_sum, mul_sum]
  congr 1
  refine sum_congr rfl fun a ha => ?_
  rw [Nat.sub_add_cancel (h.low_mem (by simpa [View.Lo] using ha)).1]

omit h in
theorem lab_ind (h : VOk v la) {c b c' a : Nat} (hb : b ∈ v.row c) (ha : a ∈ v.row c') :
    (if la.lab c b b = la.lab c' a a then (1 : ℝ) else 0) = if c = c' ∧ b = a then 1 else 0 := by
  by_cases e : c = c' ∧ b = a
  · obtain ⟨rfl, rfl⟩ := e; simp
  · rw [if_neg e, if_neg]
    intro e'
    obtain ⟨e1, e2⟩ := h.lab_inj c b b c' a a hb hb (h.inc_diag c b hb) ha ha
      (h.inc_diag c' a ha) e'
    rcases e2 with ⟨e2, _⟩ | ⟨e2, _⟩ <;> exact e ⟨e1, e2⟩

/-- The entries of the Pauli kernel. -/
theorem kernel_entries {m : Mat} {fct : Nat → Nat → ℝ × ℝ} (hc : m.cols = v.npauli)
    (rows : ∀ φ c b, b ∈ v.row c → m.app φ (la.lab c b b) =
        ∑ a ∈ v.Lo c, (up v la fct (c - 1) b a * φ (la.lab (c - 1) a a)
          - down v la fct (c - 1) b a * φ (la.lab c b b)) +
        ∑ x ∈ v.R (c + 1), (down v la fct c x b * φ (la.lab (c + 1) x x)
          - up v la fct c x b * φ (la.lab c b b)))
    {c b c' a : Nat} (hb : b ∈ v.row c) (ha : a ∈ v.row c') :
    m.val (la.lab c b b) (la.lab c' a a) =
      (if c' + 1 = c then up v la fct c' b a else 0) +
      (if c' = c + 1 then down v la fct c a b else 0) -
      (if c = c' ∧ b = a then ∑ y ∈ v.Lo c, down v la fct (c - 1) b y +
        ∑ x ∈ v.R (c + 1), up v la fct c x b else 0) := by
  rw [m.val_eq_app (by rw [hc]; exact h.lab_diag c' a ha), rows _ c b hb]
  rw [lab_ind h hb ha, sum_sub_distrib, sum_sub_distrib, ← sum_mul, ← sum_mul]
  have e1 : ∑ y ∈ v.Lo c, up v la fct (c - 1) b y *
      (if la.lab (c - 1) y y = la.lab c' a a then (1 : ℝ) else 0)
      = if c' + 1 = c then up v la fct c' b a else 0 := by
    have : ∀ y ∈ v.Lo c, up v la fct (c - 1) b y *
      (if la.lab (c - 1) y y = la.lab c' a a then (1 : ℝ) else 0)
      = if y = a then (if c' + 1 = c then up v la fct c' b a else 0) else 0 := by
      intro y hy
      obtain ⟨h0, hy', _⟩ := h.low_mem (by simpa [View.Lo] using hy)
      rw [lab_ind h hy' ha]
      by_cases e : y = a
      · subst e
        by_cases e' : c - 1 = c'
        · have : c' + 1 = c := by omega
          simp [e', this]
        · have : ¬ (c' + 1 = c) := by omega
          simp [e', this]
      · simp [e]
    rw [sum_congr rfl this, sum_ite_eq' (v.Lo c) a]
    split
    · rfl
    · rename_i hn
      split
      · rename_i e
        subst e
        exact absurd (by rw [h.Lo_succ]; exact (h.mem_R).2 ha) hn
      · rfl
  have e2 : ∑ x ∈ v.R (c + 1), down v la fct c x b *
      (if la.lab (c + 1) x x = la.lab c' a a then (1 : ℝ) else 0)
      = if c' = c + 1 then down v la fct c a b else 0 := by
    have : ∀ x ∈ v.R (c + 1), down v la fct c x b *
      (if la.lab (c + 1) x x = la.lab c' a a then (1 : ℝ) else 0)
      = if x = a then (if c' = c + 1 then down v la fct c a b else 0) else 0 := by
      intro x hx
      rw [lab_ind h ((h.mem_R).1 hx) ha]
      by_cases e : x = a
      · subst e
        by_cases e' : c + 1 = c'
        · simp [e']
        · have : ¬ (c' = c + 1) := by omega
          simp [e', this]
      · simp [e]
    rw [sum_congr rfl this, sum_ite_eq' (v.R (c + 1)) a]
    split
    · rfl
    · rename_i hn
      split
      · rename_i e
        subst e
        exact absurd ((h.mem_R).2 ha) hn
      · rfl
  rw [e1, e2]
  by_cases e : c = c' ∧ b = a
  · rw [if_pos e, if_pos e]; ring
  · rw [if_neg e, if_neg e]; ring

omit h in
theorem get_ok (h : VOk v la) :
    type_of% (@VMul.get_ok v la h.toVMul) := VMul.get_ok h.toVMul

omit h in
theorem genCurrent_ok (h : VOk v la) :
    type_of% (@VMul.genCurrent_ok v la h.toVMul) := VMul.genCurrent_ok h.toVMul

end Pauli

end

end

end Verif
