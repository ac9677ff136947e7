import Verif.Lemmas.CompiledRTDExec
import Verif.Props.RTDCoh

/-! The end of the execution of the compiled `generate_kern` of the RTD approach. -/

namespace Verif

open Finset

noncomputable section

namespace CRTD

open RTD (Name Call In Ev evs evsD shapes atOf valD group1 groupE AllCoherences Steps St Mats)

variable {kh : CKH} {s : In} {la : Lab} {poles : s.lib.Poles} {fct : Nat → Nat → ℝ × ℝ} {off : Bool} {copies : Nat}

/-- The updates of a call are within the arrays. -/
theorem wr_inside (k : Link kh s.v) {t : Nat} (ht : t < copies) {c : Call}
    (hq : ∀ p ∈ lnnD s.v c, p.1 < 2 * s.v.ndm0 - 2 * s.v.npauli) : ∀ w ∈ wr s.v t c, w.Inside kh copies := by
  intro w hw
  have e1 := k.nleads
  have e2 := k.npauli
  have e3 := k.ndm0
  rcases List.mem_append.1 hw with hw | hw
  · obtain ⟨e, he, rfl⟩ := List.mem_map.1 hw
    have hb := evsD_bound e he
    obtain ⟨n, l, r, c, x⟩ := e
    simp only at hb
    unfold Wr.Inside
    cases n <;> simp only [shapes] at hb <;> simp only [toWr, arrOf, hasLead] <;>
      simp <;> omega
  · obtain ⟨p, hp, rfl⟩ := List.mem_map.1 hw
    have := hq p hp
    unfold Wr.Inside
    simp
    omega

theorem merge_val (n : Nat) (x : Cell → ℝ) (l i j : Nat) :
    merge (n + 1) x (.Wdd2 0, l, i, j) = ∑ t ∈ range (n + 1), x (.Wdd2 t, l, i, j) := by
  rw [sum_range_succ']
  exact add_comm _ _

/-- What is known about the Python calls. -/
structure Fine (s : In) (off : Bool) : Prop where
  col2 : ∀ q b, b ∈ s.v.row q → RTD.col2 s b q = .ok (valD (RTD.col2 s b q))
  nd : ∀ q b, b ∈ s.v.row q → RTD.nd s off b q = .ok (valD (RTD.nd s off b q))
  colDn : off = true → ∀ q b bp, b ∈ s.v.row q → bp ∈ s.v.row q → b ≠ bp →
      RTD.colDn s b bp q = .ok (valD (RTD.colDn s b bp q))

section
variable (k : Link kh s.v) (h : VOk s.v la) (cm : Comparable s poles) (hT : kh.allBbp = elemsD s.v la.can)
  (hall : off = true → AllCoherences s.v la) (F : Fine s off) (hpos : 0 < copies)
include k h cm hT F

/-- The updates made by a thread in the first loop. -/
def prog1 (s : In) (la : Lab) (sched : Nat → List Nat) (t : Nat) : List Wr :=
  (sched t).flatMap fun i => (c1 s (tr s.v la i).1 (tr s.v la i).2.2).flatMap (wr s.v t)

theorem prog1_ok {sched : Nat → List Nat} (hs : ∀ t, ∀ i ∈ sched t, i < s.v.npauli) (t : Nat) :
    collect (sched t) (iter1 kh s poles t) = .ok (prog1 s la sched t) := by
  have := collect_ok (l := sched t) (f := iter1 kh s poles t)
    (g := fun i => (c1 s (tr s.v la i).1 (tr s.v la i).2.2).flatMap (wr s.v t))
    (fun i hi => iter1_ok k h cm hT F.col2 t (hs t i hi))
  simpa [prog1] using this

omit k h cm hT F in
theorem sched_lt {sched : Nat → List Nat} {n : Nat} (part : ((List.range copies).flatMap sched).Perm (List.range n))
    (idle : ∀ t, copies ≤ t → sched t = []) : ∀ t, ∀ i ∈ sched t, i < n := by
  intro t i hi
  have ht : t < copies := by
    by_contra ht
    rw [idle t (by omega)] at hi
    simp at hi
  exact List.mem_range.1 (part.mem_iff.1 (List.mem_flatMap.2 ⟨t, List.mem_range.2 ht, hi⟩))

variable (X : Exec kh s poles fct off copies)

theorem p1_eq (t : Nat) : X.p1 t = prog1 s la X.sched t := by
  have hl := sched_lt X.part X.idle
  rw [k.npauli] at hl
  have := (X.h1 t).symm.trans (prog1_ok k h cm hT F hl t)
  simpa using this

include hall

theorem p2_eq {i : Nat} (hi : i < s.v.npauli) :
    X.p2 i = (c2 s la fct off (tr s.v la i).1 (tr s.v la i).2.2).flatMap (wr s.v 0) := by
  have := (X.h2 i (by rw [k.npauli]; exact hi)).symm.trans (iter2_ok k h cm hT fct hall F.nd hi)
  simpa using this

omit cm hT in
theorem p3_eq (ho : off = true) {c : Nat} (hc : c < s.v.ncharge) : X.p3 c = (c3 s c).flatMap (wr s.v 0) := by
  have := (X.h3 c (by rw [k.ncharge]; exact hc) ho).symm.trans (iter3_ok k h (hall ho) (F.colDn ho) hc)
  simpa using this

omit hall in
theorem mem1 {t : Nat} : ∀ w ∈ X.p1 t, w.arr = .Wdd2 t ∧ t < copies := by
  intro w hw
  rw [p1_eq k h cm hT F X] at hw
  obtain ⟨i, hi, hw⟩ := List.mem_flatMap.1 hw
  obtain ⟨x, hx, hw⟩ := List.mem_flatMap.1 hw
  have hl := sched_lt X.part X.idle t i hi
  rw [k.npauli] at hl
  obtain ⟨hb, _⟩ := tr_mem h hl
  have u := upd1 k h hb (F.col2 _ _ hb) t x hx
  refine ⟨?_, ?_⟩
  · rcases List.mem_append.1 hw with hw | hw
    · obtain ⟨e, he, rfl⟩ := List.mem_map.1 hw
      simp only [toWr, u.at_ e he]; rfl
    · obtain ⟨p, hp, rfl⟩ := List.mem_map.1 hw
      exact (u.lnn p hp).elim
  · by_contra ht
    rw [X.idle t (by omega)] at hi
    simp at hi

theorem inside (hpos : 0 < copies) : X.Inside := by
  refine ⟨?_, ?_, ?_⟩
  · intro t w hw
    have ht := (mem1 k h cm hT F X w hw).2
    rw [p1_eq k h cm hT F X] at hw
    obtain ⟨i, hi, hw⟩ := List.mem_flatMap.1 hw
    obtain ⟨x, hx, hw⟩ := List.mem_flatMap.1 hw
    have hl := sched_lt X.part X.idle t i hi
    rw [k.npauli] at hl
    obtain ⟨hb, _⟩ := tr_mem h hl
    have u := upd1 k h hb (F.col2 _ _ hb) t x hx
    exact wr_inside k ht (fun p hp => (u.lnn p hp).elim) w hw
  · intro i w hw
    by_cases hi : i < s.v.npauli
    · rw [p2_eq k h cm hT hall F X hi] at hw
      obtain ⟨x, hx, hw⟩ := List.mem_flatMap.1 hw
      obtain ⟨hb, _⟩ := tr_mem h hi
      have u := upd2 k h fct hall hb (F.nd _ _ hb) x hx
      exact wr_inside k hpos (fun p hp => (u.lnn p hp).elim) w hw
    · rw [X.z2 i (by rw [k.npauli]; omega)] at hw
      simp at hw
  · intro c w hw
    by_cases hc : off = true ∧ c < s.v.ncharge
    · rw [p3_eq k h hall F X hc.1 hc.2] at hw
      obtain ⟨x, hx, hw⟩ := List.mem_flatMap.1 hw
      have u := (upd3 k h (hall hc.1) (F.colDn hc.1) c x hx).1
      exact wr_inside k hpos (fun p hp => by obtain ⟨_, _, _, _, _, _, e⟩ := u.lnn p hp; exact e) w hw
    · rw [X.z3 c (by rw [k.ncharge]; by_contra hz; simp only [not_or, Bool.not_eq_false, not_le] at hz; exact hc hz)] at hw
      simp at hw

omit hall in
theorem x1_eq (c : Cell) : X.x1 c = ∑ t ∈ range copies, cellSum ((X.p1 t).map Wr.cell) c := by
  have := PEndFrom.eq (N := copies) ?_ ?_ X.e1 c
  · rw [this, zero_add]
  · intro t ht
    simp only [List.map_eq_nil_iff]
    have := p1_eq k h cm hT F X t
    rw [this, prog1, X.idle t ht]
    rfl
  · intro t t' hne p hp q hq e
    obtain ⟨w, hw, rfl⟩ := List.mem_map.1 hp
    obtain ⟨w', hw', rfl⟩ := List.mem_map.1 hq
    have a1 := (mem1 k h cm hT F X w hw).1
    have a2 := (mem1 k h cm hT F X w' hw').1
    simp only [Wr.cell, Prod.mk.injEq] at e
    have := e.1
    rw [a1, a2] at this
    simp only [Arr.Wdd2.injEq] at this
    exact hne this

omit hall in
theorem x1_other {c : Cell} (hc : ∀ t, c.1 ≠ .Wdd2 t) : X.x1 c = 0 := by
  rw [x1_eq k h cm hT F X]
  apply sum_eq_zero
  intro t _
  apply cellSum_zero
  intro p hp e
  obtain ⟨w, hw, rfl⟩ := List.mem_map.1 hp
  have a1 := (mem1 k h cm hT F X w hw).1
  exact hc t (by rw [← e]; exact a1)

omit hall in
theorem x1_wdd {t : Nat} (ht : t < copies) (l i j : Nat) : X.x1 (.Wdd2 t, l, i, j) =
    ((X.sched t).map fun m => ((c1 s (tr s.v la m).1 (tr s.v la m).2.2).map
      (atOf s.v (shapes s.v) .Wdd l i j)).sum).sum := by
  rw [x1_eq k h cm hT F X, sum_eq_single t]
  · rw [p1_eq k h cm hT F X, prog1, List.map_flatMap, cellSum_flatMap]
    congr 1
    apply List.map_congr_left
    intro m _
    rw [List.map_flatMap, cellSum_flatMap]
    congr 1
    apply List.map_congr_left
    intro x _
    exact cell_lead s.v t (n := .Wdd) rfl l i j x
  · intro t' _ hne
    apply cellSum_zero
    intro p hp e
    obtain ⟨w, hw, rfl⟩ := List.mem_map.1 hp
    have a1 := (mem1 k h cm hT F X w hw).1
    have : w.arr = .Wdd2 t := congrArg Prod.fst e
    rw [a1] at this
    simp only [Arr.Wdd2.injEq] at this
    exact hne this
  · intro hn
    exact absurd (mem_range.2 ht) hn

omit hall in
/-- After the first loop the copy 0 contains the second order. -/
theorem merge_eq (hpos : 0 < copies) {c : Cell} (hc : (∃ l i j, c = (.Wdd2 0, l, i, j)) ∨ ∀ t, c.1 ≠ .Wdd2 t)
    {g : Call → ℝ} (hg : ∀ x, cellSum ((wr s.v 0 x).map Wr.cell) c = g x) :
    merge copies X.x1 c
      = ∑ m ∈ range s.v.npauli, ((c1 s (tr s.v la m).1 (tr s.v la m).2.2).map g).sum := by
  rcases hc with ⟨l, i, j, rfl⟩ | hc
  · have hg' : g = atOf s.v (shapes s.v) .Wdd l i j := by
      funext x
      rw [← hg]
      exact cell_lead s.v 0 (n := .Wdd) rfl l i j x
    subst hg'
    obtain ⟨n, rfl⟩ : ∃ n, copies = n + 1 := ⟨copies - 1, by omega⟩
    rw [merge_val, sum_congr rfl fun t ht => x1_wdd k h cm hT F X (mem_range.1 ht) l i j, sum_range_list, sum_range_list]
    have e := sum_flatMap' (List.range (n + 1)) X.sched
      (fun m => ((c1 s (tr s.v la m).1 (tr s.v la m).2.2).map (atOf s.v (shapes s.v) .Wdd l i j)).sum)
    rw [← e, ← k.npauli]
    exact (X.part.map _).sum_eq
  · have e : merge copies X.x1 c = X.x1 c := by
      obtain ⟨arr, l, i, j⟩ := c
      cases arr with
      | Wdd2 t => exact absurd rfl (hc t)
      | _ => rfl
    rw [e, x1_other k h cm hT F X hc]
    symm
    apply sum_eq_zero
    intro m hm
    obtain ⟨hb, _⟩ := tr_mem h (mem_range.1 hm)
    apply List.sum_eq_zero
    intro y hy
    obtain ⟨x, hx, rfl⟩ := List.mem_map.1 hy
    have u := upd1 k h hb (F.col2 _ _ hb) 0 x hx
    rw [← hg]
    apply cellSum_zero
    intro p hp e
    obtain ⟨w, hw, rfl⟩ := List.mem_map.1 hp
    rcases List.mem_append.1 hw with hw | hw
    · obtain ⟨e', he, rfl⟩ := List.mem_map.1 hw
      refine hc 0 ?_
      rw [← e]
      simp only [Wr.cell, toWr, u.at_ e' he]
      rfl
    · obtain ⟨p', hp', rfl⟩ := List.mem_map.1 hw
      exact u.lnn p' hp'

/-- The arrays after the second loop. -/
theorem x2_eq (hpos : 0 < copies) {k1 : List Call} (hk1 : RTD.calls1 s fct off = .ok k1) {c : Cell}
    (hc : (∃ l i j, c = (.Wdd2 0, l, i, j)) ∨ ∀ t, c.1 ≠ .Wdd2 t)
    {g : Call → ℝ} (hg : ∀ x, cellSum ((wr s.v 0 x).map Wr.cell) c = g x) : X.x2 c = (k1.map g).sum := by
  have hm : ∀ {i : Nat}, ∀ w ∈ X.p2 i, i < s.v.npauli ∧ ∃ e : Ev,
      At2 (la.lab (tr s.v la i).2.2 (tr s.v la i).1 (tr s.v la i).1) e ∧ w = toWr 0 e := by
    intro i w hw
    by_cases hi : i < s.v.npauli
    · refine ⟨hi, ?_⟩
      rw [p2_eq k h cm hT hall F X hi] at hw
      obtain ⟨x, hx, hw⟩ := List.mem_flatMap.1 hw
      obtain ⟨hb, _⟩ := tr_mem h hi
      have u := upd2 k h fct hall hb (F.nd _ _ hb) x hx
      rcases List.mem_append.1 hw with hw | hw
      · obtain ⟨e, he, rfl⟩ := List.mem_map.1 hw
        exact ⟨e, u.at_ e he, rfl⟩
      · obtain ⟨p, hp, rfl⟩ := List.mem_map.1 hw
        exact (u.lnn p hp).elim
    · rw [X.z2 i (by rw [k.npauli]; omega)] at hw
      simp at hw
  rw [PEndFrom.eq (N := s.v.npauli) ?_ ?_ X.e2 c, merge_eq k h cm hT F X hpos hc hg, calls1_total h hk1 g,
    sum_add_distrib]
  · congr 1
    apply sum_congr rfl
    intro i hi
    rw [p2_eq k h cm hT hall F X (mem_range.1 hi), List.map_flatMap, cellSum_flatMap]
    congr 1
    apply List.map_congr_left
    intro x _
    exact hg x
  · intro i hi
    simp only [List.map_eq_nil_iff]
    exact X.z2 i (by rw [k.npauli]; exact hi)
  · intro i j hne p hp q hq e
    obtain ⟨w, hw, rfl⟩ := List.mem_map.1 hp
    obtain ⟨w', hw', rfl⟩ := List.mem_map.1 hq
    obtain ⟨hi, e1, a1, rfl⟩ := hm w hw
    obtain ⟨hj, e2, a2, rfl⟩ := hm w' hw'
    simp only [Wr.cell, toWr, Prod.mk.injEq, Int.toNat_natCast] at e
    obtain ⟨g1, _, g3, g4⟩ := e
    have hn := arrOf_inj g1
    apply hne
    apply tr_lab h hi hj
    rcases a1 with ⟨n1, r1⟩ | ⟨n1, r1⟩ <;> rcases a2 with ⟨n2, r2⟩ | ⟨n2, r2⟩
    · rw [← r1, ← r2]; exact g3
    · rw [hn] at n1
      rcases n1 with n1 | n1 | n1 <;> rcases n2 with n2 | n2 <;> rw [n1] at n2 <;> cases n2
    · rw [hn] at n1
      rcases n1 with n1 | n1 <;> rcases n2 with n2 | n2 | n2 <;> rw [n1] at n2 <;> cases n2
    · rw [← r1, ← r2]; exact g4

/-- The arrays after the third loop. -/
theorem x3_eq (hpos : 0 < copies) {k1 k2 : List Call} (hk1 : RTD.calls1 s fct off = .ok k1)
    (hk2 : (off = false ∧ k2 = []) ∨ (off = true ∧ RTD.calls2 s = .ok k2)) {c : Cell}
    (hc : (∃ l i j, c = (.Wdd2 0, l, i, j)) ∨ ∀ t, c.1 ≠ .Wdd2 t)
    {g : Call → ℝ} (hg : ∀ x, cellSum ((wr s.v 0 x).map Wr.cell) c = g x) :
    X.x3 c = (k1.map g).sum + (k2.map g).sum := by
  rcases hk2 with ⟨ho, rfl⟩ | ⟨ho, hk2⟩
  · rw [PEndFrom.eq (N := 0) ?_ ?_ X.e3 c, x2_eq k h cm hT hall F X hpos hk1 hc hg]
    · simp
    · intro i _
      rw [X.z3 i (Or.inl ho)]; rfl
    · intro i j _ p hp
      rw [X.z3 i (Or.inl ho)] at hp
      simp at hp
  · have hm : ∀ {q : Nat}, ∀ w ∈ X.p3 q, ∃ p, Off s.v q p ∧
        (((w.arr = .ReWdn ∨ w.arr = .ImWdn) ∧ w.col = p) ∨ (w.arr = .Lnn ∧ w.row = p)) := by
      intro q w hw
      by_cases hq : q < s.v.ncharge
      · rw [p3_eq k h hall F X ho hq] at hw
        obtain ⟨x, hx, hw⟩ := List.mem_flatMap.1 hw
        have u := (upd3 k h (hall ho) (F.colDn ho) q x hx).1
        rcases List.mem_append.1 hw with hw | hw
        · obtain ⟨e, he, rfl⟩ := List.mem_map.1 hw
          obtain ⟨a1, a2⟩ := u.at_ e he
          refine ⟨e.c, a2, Or.inl ⟨?_, rfl⟩⟩
          rcases a1 with a1 | a1
          · left; simp only [toWr, a1]; rfl
          · right; simp only [toWr, a1]; rfl
        · obtain ⟨p, hp, rfl⟩ := List.mem_map.1 hw
          exact ⟨p.1, u.lnn p hp, Or.inr ⟨rfl, rfl⟩⟩
      · rw [X.z3 q (Or.inr (by rw [k.ncharge]; omega))] at hw
        simp at hw
    have e2 := (RTD.calls2_inv h hk2).2
    rw [PEndFrom.eq (N := s.v.ncharge) ?_ ?_ X.e3 c, x2_eq k h cm hT hall F X hpos hk1 hc hg]
    · congr 1
      rw [e2, sum_flatMap', sum_range_list]
      congr 1
      apply List.map_congr_left
      intro q hq
      rw [p3_eq k h hall F X ho (List.mem_range.1 hq), List.map_flatMap, cellSum_flatMap]
      congr 1
      apply List.map_congr_left
      intro x _
      exact hg x
    · intro i hi
      rw [X.z3 i (Or.inr (by rw [k.ncharge]; exact hi))]; rfl
    · intro i j hne p hp q hq e
      obtain ⟨w, hw, rfl⟩ := List.mem_map.1 hp
      obtain ⟨w', hw', rfl⟩ := List.mem_map.1 hq
      obtain ⟨p1, o1, a1⟩ := hm w hw
      obtain ⟨p2, o2, a2⟩ := hm w' hw'
      simp only [Wr.cell, Prod.mk.injEq] at e
      obtain ⟨g1, _, g3, g4⟩ := e
      have : p1 = p2 := by
        rcases a1 with ⟨n1, r1⟩ | ⟨n1, r1⟩ <;> rcases a2 with ⟨n2, r2⟩ | ⟨n2, r2⟩
        · rw [r1, r2] at g4; simpa using g4
        · rw [← g1] at n2; rw [n2] at n1; rcases n1 with n1 | n1 <;> cases n1
        · rw [← g1] at n2; rw [n1] at n2; rcases n2 with n2 | n2 <;> cases n2
        · rw [r1, r2] at g3; simpa using g3
      subst this
      exact hne (off_charge h (hall ho) o1 o2)

end

/-! ### The corrections -/

theorem mul_val {a b x : Mat} (h : a.mul b = .ok x) :
    x.cols = b.cols ∧ ∀ i j, x.val i j = ∑ k ∈ range a.cols, a.val i k * b.val k j := by
  unfold Mat.mul at h
  split at h
  · simp only [py_pure, Except.ok.injEq] at h
    subst h; exact ⟨rfl, fun _ _ => rfl⟩
  · simp at h

/-- The Python correction with a diagonal `Lnn`. -/
theorem corr_val {m : Mats} {l n K : Nat} {x : Mat} (hx : RTD.corr m l = .ok x) (hK : m.Lnn.cols = K)
    (h1 : (m.ten .ReWdn).cols = K) (h2 : (m.ten .ImWdn).cols = K) (h3 : (m.ten .ReWnd).leads = n)
    (h4 : (m.ten .ImWnd).leads = n) {L : Nat → ℝ} (hL : ∀ r c, m.Lnn.val r c = if r = c then L r else 0) (i j : Nat) :
    x.val i j =
      ∑ p ∈ range K, (m.ten .ReWdn).val l i p * (L p * ∑ l' ∈ range n, (m.ten .ImWnd).val l' p j) +
      ∑ p ∈ range K, (m.ten .ImWdn).val l i p * (L p * ∑ l' ∈ range n, (m.ten .ReWnd).val l' p j) := by
  obtain ⟨x1, x2, y1, y2, g1, g2, g3, g4, rfl⟩ := RTD.corr_inv hx
  have diag : ∀ (f : Nat → ℝ) (p : Nat), p ∈ range K → ∑ q ∈ range K, f q * m.Lnn.val q p = f p * L p := by
    intro f p hp
    rw [sum_eq_single p]
    · rw [hL, if_pos rfl]
    · intro q _ hne
      rw [hL, if_neg hne, mul_zero]
    · intro hn; exact absurd hp hn
  unfold RTD.addMat
  simp only
  rw [(mul_val g2).2, (mul_val g4).2, (mul_val g1).1, (mul_val g3).1, hK]
  congr 1
  · apply sum_congr rfl
    intro p hp
    rw [(mul_val g1).2]
    simp only [Ten.lead, Ten.sumLeads, h1, h4]
    rw [diag (fun q => (m.ten .ReWdn).val l i q) p hp]
    ring
  · apply sum_congr rfl
    intro p hp
    rw [(mul_val g3).2]
    simp only [Ten.lead, Ten.sumLeads, h2, h3]
    rw [diag (fun q => (m.ten .ImWdn).val l i q) p hp]
    ring

end CRTD

end

end Verif
