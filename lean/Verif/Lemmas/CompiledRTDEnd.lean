import Verif.Lemmas.CompiledRTDSum

/-! The compiled and the Python `generate_kern` of the RTD approach end with the same numbers. -/

namespace Verif

open Finset

noncomputable section

namespace CRTD

open RTD (Name Call In Ev evs evsD shapes atOf valD AllCoherences Steps St Mats)

variable {kh : CKH} {s : In} {la : Lab} {poles : s.lib.Poles} {fct : Nat → Nat → ℝ × ℝ} {off symq : Bool}
  {copies : Nat} {st : St}

section
variable (k : Link kh s.v) (h : VOk s.v la) (cm : Comparable s poles) (hT : kh.allBbp = elemsD s.v la.can)
  (hall : off = true → AllCoherences s.v la) (S : Steps s fct off symq st)

include h in
theorem second (S : Steps s fct off symq st) : (off = false ∧ S.k2 = []) ∨ (off = true ∧ RTD.calls2 s = .ok S.k2) := by
  rcases S.cases with ⟨a, b, _⟩ | ⟨a, b, _⟩
  · exact Or.inl ⟨a, b⟩
  · exact Or.inr ⟨a, b⟩

include h in
theorem fine (S : Steps s fct off symq st) : Fine s off where
  col2 q b hb := ((RTD.calls1_inv h S.h1).1 q b hb).1
  nd q b hb := ((RTD.calls1_inv h S.h1).1 q b hb).2
  colDn ho q b bp hb hbp hne := by
    rcases S.cases with ⟨a, _⟩ | ⟨_, hk, _⟩
    · rw [ho] at a; cases a
    · exact (RTD.calls2_inv h hk).1 q b bp hb hbp hne

theorem sh1 (S : Steps s fct off symq st) : S.a1.mats.sh = shapes s.v :=
  (RTD.run_made S.r1).sh.trans (RTD.fresh_sh _ _)

theorem a1_val (S : Steps s fct off symq st) (n : Name) (l i j : Nat) :
    (S.a1.mats.ten n).val l i j = (S.k1.map (atOf s.v (shapes s.v) n l i j)).sum := by
  rw [RTD.run_val S.r1, RTD.fresh_val, RTD.fresh_sh, zero_add]

theorem a2_val (S : Steps s fct off symq st) (n : Name) (l i j : Nat) :
    (S.a2.mats.ten n).val l i j = (S.k1.map (atOf s.v (shapes s.v) n l i j)).sum
      + (S.k2.map (atOf s.v (shapes s.v) n l i j)).sum := by
  rw [RTD.run_val S.r2, a1_val, sh1 S]

variable (X : Exec kh s poles fct off copies) (hpos : 0 < copies)
include k h cm hT hall S hpos

theorem x2_wdd (l i j : Nat) : X.x2 (.Wdd2 0, l, i, j) = (S.a1.mats.ten .Wdd).val l i j := by
  rw [a1_val]
  exact x2_eq k h cm hT hall (fine h S) X hpos S.h1 (Or.inl ⟨l, i, j, rfl⟩)
    (fun x => cell_lead s.v 0 (n := .Wdd) rfl l i j x)

theorem x3_lead {n : Name} (hn : hasLead n = true) (l i j : Nat) :
    X.x3 (arrOf 0 n, l, i, j) = (S.a2.mats.ten n).val l i j := by
  rw [a2_val]
  refine x3_eq k h cm hT hall (fine h S) X hpos S.h1 (second h S) ?_ (fun x => cell_lead s.v 0 hn l i j x)
  cases n
  case Wdd => exact Or.inl ⟨l, i, j, rfl⟩
  all_goals exact Or.inr fun t => by simp [arrOf]

theorem x3_nolead {n : Name} (hn : hasLead n = false) (i j : Nat) :
    X.x3 (arrOf 0 n, 0, i, j) = ∑ l ∈ range s.v.nleads, (S.a2.mats.ten n).val l i j := by
  rw [x3_eq k h cm hT hall (fine h S) X hpos S.h1 (second h S) ?_ (fun x => cell_nolead s.v 0 hn i j x)]
  · rw [list_sum_comm, list_sum_comm, ← sum_add_distrib]
    exact sum_congr rfl fun l _ => (a2_val S n l i j).symm
  · cases n
    case ReWnd | ImWnd => exact Or.inr fun t => by simp [arrOf]
    all_goals cases hn

theorem x3_lnn (ho : off = true) (r c : Nat) :
    S.a2.mats.Lnn.val r c = if r = c then X.x3 (.Lnn, 0, r, 0) else 0 := by
  obtain ⟨r1, c1, e1⟩ := RTD.run_lnn S.r1
  have hz := e1 (RTD.calls1_lnn h S.h1)
  have hk2 : RTD.calls2 s = .ok S.k2 := by
    rcases second h S with ⟨a, _⟩ | ⟨_, b⟩
    · rw [ho] at a; cases a
    · exact b
  have e2 := (RTD.calls2_inv h hk2).2
  have hL : ∀ x ∈ S.k2, LnnAt s.v (2 * s.v.ndm0 - 2 * s.v.npauli) x := by
    intro x hx
    rw [e2] at hx
    obtain ⟨q, _, hx⟩ := List.mem_flatMap.1 hx
    exact (upd3 k h (hall ho) ((fine h S).colDn ho) q x hx).2.1
  rw [run_lnn_val S.r2 (n := 2 * s.v.ndm0 - 2 * s.v.npauli) (by rw [r1]; rfl) (by rw [c1]; rfl) hL, hz]
  have e3 := x3_eq k h cm hT hall (fine h S) X hpos S.h1 (second h S) (c := (.Lnn, 0, r, 0))
    (Or.inr fun t => by simp) (fun x => cell_lnn s.v 0 r x)
  have e4 : (S.k1.map (lnnAt s.v r)).sum = 0 := by
    apply List.sum_eq_zero
    intro y hy
    obtain ⟨x, hx, rfl⟩ := List.mem_map.1 hy
    have := RTD.calls1_lnn h S.h1 x hx
    cases x <;> first | rfl | cases this
  rw [e3, e4, zero_add]
  show (0 : ℝ) + _ = _
  rw [zero_add]

theorem corr_eq {l : Nat} (hl : l < s.v.nleads) (i j : Nat) : X.corr l i j = (S.w l).val i j := by
  unfold Exec.corr
  rcases S.cases with ⟨ho, _, hz⟩ | ⟨ho, _, hw⟩
  · rw [hz, if_neg (by rw [ho]; decide)]
  · rw [if_pos ho]
    have sh2 : S.a2.mats.sh = shapes s.v := (RTD.run_made S.r2).sh.trans (sh1 S)
    have a1 := congrFun sh2 .ReWdn
    have a2 := congrFun sh2 .ImWdn
    have a3 := congrFun sh2 .ReWnd
    have a4 := congrFun sh2 .ImWnd
    simp only [Mats.sh, shapes, Prod.mk.injEq] at a1 a2 a3 a4
    have cc : S.a2.mats.Lnn.cols = 2 * s.v.ndm0 - 2 * s.v.npauli := by
      rw [(RTD.run_lnn S.r2).2.1, (RTD.run_lnn S.r1).2.1]; rfl
    rw [corr_val (hw l hl) cc a1.2.2 a2.2.2 a3.1 a4.1 (L := fun p => X.x3 (.Lnn, 0, p, 0))
      (fun r c => x3_lnn k h cm hT hall S X hpos ho r c) i j, k.ndm0, k.npauli]
    have b1 := fun p => x3_lead k h cm hT hall S X hpos (n := .ReWdn) rfl l i p
    have b2 := fun p => x3_lead k h cm hT hall S X hpos (n := .ImWdn) rfl l i p
    have b3 := fun p => x3_nolead k h cm hT hall S X hpos (n := .ReWnd) rfl p j
    have b4 := fun p => x3_nolead k h cm hT hall S X hpos (n := .ImWnd) rfl p j
    simp only [arrOf] at b1 b2 b3 b4
    simp only [b1, b2, b3, b4]

theorem wdd_eq {l : Nat} (hl : l < s.v.nleads) (i j : Nat) : X.wdd l i j = (st.acc.mats.ten .Wdd).val l i j := by
  have b := x3_lead k h cm hT hall S X hpos (n := .Wdd) rfl l i j
  simp only [arrOf] at b
  rw [S.wdd l i j hl, Exec.wdd, corr_eq k h cm hT hall S X hpos hl, b]

theorem kern_eq {i j : Nat} (hi : i < s.v.npauli) (hj : j < s.v.npauli) : X.kern i j = st.kern.val i j := by
  rw [S.kern.2.2, if_pos ⟨hi, hj⟩, Exec.kern, k.nleads, ← sum_add_distrib]
  exact sum_congr rfl fun l hl => by
    rw [x2_wdd k h cm hT hall S X hpos, corr_eq k h cm hT hall S X hpos (mem_range.1 hl)]

theorem rest_eq (l i j : Nat) : X.x3 (.WE1, l, i, j) = (st.acc.mats.ten .WE1).val l i j ∧
    X.x3 (.WE2, l, i, j) = (st.acc.mats.ten .WE2).val l i j := by
  rw [S.rest .WE1 (by simp), S.rest .WE2 (by simp)]
  exact ⟨x3_lead k h cm hT hall S X hpos (n := .WE1) rfl l i j, x3_lead k h cm hT hall S X hpos (n := .WE2) rfl l i j⟩

omit X hpos in
theorem im_eq : SetsImGamma kh s fct off ↔ st.acc.im = true := by
  rw [S.im, run_im S.r2, run_im S.r1]
  have F := fine h S
  have hn2 : Call.imGamma ∉ S.k2 := by
    rcases second h S with ⟨_, e⟩ | ⟨ho, hk2⟩
    · rw [e]; simp
    · intro hx
      rw [(RTD.calls2_inv h hk2).2] at hx
      obtain ⟨q, _, hx⟩ := List.mem_flatMap.1 hx
      exact (upd3 k h (hall ho) (F.colDn ho) q _ hx).2.2 rfl
  have h0 : (RTD.fresh s.v symq).acc.im = false := rfl
  simp only [h0, hn2, Bool.false_eq_true, false_or, or_false]
  constructor
  · rintro ⟨i, hi, ks, hk, hx⟩
    rw [k.npauli] at hi
    rw [calls2_ok k h cm hT fct F.nd hi, Except.ok.injEq] at hk
    rw [calls1_table h S.h1]
    refine List.mem_flatMap.2 ⟨i, List.mem_range.2 hi, ?_⟩
    subst hk
    simp only [c2, RTD.one, List.mem_append] at hx ⊢
    tauto
  · intro hx
    rw [calls1_table h S.h1] at hx
    obtain ⟨i, hi, hx⟩ := List.mem_flatMap.1 hx
    have hi := List.mem_range.1 hi
    refine ⟨i, by rw [k.npauli]; exact hi, _, calls2_ok k h cm hT fct F.nd hi, ?_⟩
    obtain ⟨hb, _⟩ := tr_mem h hi
    have hc : Call.imGamma ∉ c1 s (tr s.v la i).1 (tr s.v la i).2.2 := by
      intro hx
      obtain ⟨_, _, _, _, _, _, _, _, _, e, _⟩ :=
        RTD.col2_calls ⟨_, h.states (by have := h.row_lt hb; omega), hb⟩ (F.col2 _ _ hb) _ hx
      cases e
    simp only [c1] at hc
    simp only [c2, RTD.one, List.mem_append] at hx ⊢
    tauto

omit hpos in
/-- Every distribution of the iterations over the threads can be executed. -/
theorem exec_exists {sched : Nat → List Nat} (part : ((List.range copies).flatMap sched).Perm (List.range kh.npauli))
    (idle : ∀ t, copies ≤ t → sched t = []) : ∃ X : Exec kh s poles fct off copies, X.sched = sched := by
  have F := fine h S
  have hl := sched_lt part idle
  rw [k.npauli] at hl
  obtain ⟨x1, e1⟩ := PEndFrom.exists (fun _ : Cell => (0 : ℝ)) (N := copies)
    (prog := fun t => (prog1 s la sched t).map Wr.cell) (by
      intro t ht
      rw [prog1, idle t ht]; rfl)
  let p2 : Nat → List Wr := fun i => if i < s.v.npauli then
    (c2 s la fct off (tr s.v la i).1 (tr s.v la i).2.2).flatMap (wr s.v 0) else []
  obtain ⟨x2, e2⟩ := PEndFrom.exists (merge copies x1) (N := s.v.npauli)
    (prog := fun t => (p2 t).map Wr.cell) (by
      intro t ht
      simp only [p2, if_neg (not_lt.2 ht)]; rfl)
  let p3 : Nat → List Wr := fun c => if off = true ∧ c < s.v.ncharge then (c3 s c).flatMap (wr s.v 0) else []
  obtain ⟨x3, e3⟩ := PEndFrom.exists x2 (N := s.v.ncharge)
    (prog := fun t => (p3 t).map Wr.cell) (by
      intro t ht
      simp only [p3]
      rw [if_neg (by omega)]; rfl)
  exact ⟨{ sched := sched, part := part, idle := idle
           p1 := prog1 s la sched, h1 := prog1_ok k h cm hT F hl, x1 := x1, e1 := e1
           p2 := p2
           h2 := fun i hi => by
            rw [k.npauli] at hi
            simp only [p2, if_pos hi]
            exact iter2_ok k h cm hT fct hall F.nd hi
           z2 := fun i hi => by rw [k.npauli] at hi; simp only [p2, if_neg (not_lt.2 hi)]
           x2 := x2, e2 := e2
           p3 := p3
           h3 := fun c hc ho => by
            rw [k.ncharge] at hc
            simp only [p3]
            rw [if_pos ⟨ho, hc⟩]
            exact iter3_ok k h (hall ho) (F.colDn ho) hc
           z3 := fun c hc => by
            rw [k.ncharge] at hc
            simp only [p3]
            rw [if_neg]
            rintro ⟨ho, hc'⟩
            rcases hc with hc | hc
            · rw [ho] at hc; cases hc
            · omega
           x3 := x3, e3 := e3 }, rfl⟩

end

end CRTD

end

end Verif
