import Verif.Spec.CompiledRTD
import Verif.Lemmas.CompiledKern
import Verif.Lemmas.RTDRun

/-! The generators of the compiled RTD approach make the calls of the Python generators. -/

namespace Verif

open Finset
open scoped ComplexConjugate

noncomputable section

namespace CRTD

open RTD (Name Call In Vert both pair)

/-- What the generators use of the handler agrees with the indexing object. -/
structure Link (kh : CKH) (v : View) : Prop where
  nleads : kh.nleads = v.nleads
  ncharge : kh.ncharge = v.ncharge
  npauli : kh.npauli = v.npauli
  ndm0 : kh.ndm0 = v.ndm0
  ind0 : ∀ b bp c : Nat, kh.ind0 b bp (c : Int) = v.ind0 b bp (c : Int)
  ind1 : ∀ b bp c : Nat, kh.ind1 b bp (c : Int) = v.ind1 b bp (c : Int)
  rd : ∀ (f : Nat → Nat → ℝ × ℝ) (l k : Nat), kh.rd f l k = v.rd f l k
  same : ∀ c : Nat, c < v.ncharge → kh.same (c : Int) = .ok (v.row c)
  lower : ∀ c : Nat, c < v.ncharge → kh.lower ((c : Int) - 1) = .ok (v.low c)
  upper : ∀ c : Nat, c < v.ncharge → kh.upper ((c : Int) + 1) = .ok (v.row (c + 1))
  upper2 : ∀ c : Nat, c < v.ncharge → kh.upper ((c : Int) + 2) = .ok (v.row (c + 2))

theorem Link.of {kh : CKH} {d : DM} {nl : Nat} {la : Lab} (o : CKH.Of kh d nl)
    (h : VOk (d.view nl) la) : Link kh (d.view nl) where
  nleads := o.nleads
  ncharge := o.ncharge
  npauli := o.npauli
  ndm0 := o.ndm0
  ind0 := o.ind0_eq
  ind1 := o.ind1_eq
  rd := o.rd_eq
  same c hc := o.same_ok h.toVMul (by omega)
  lower c hc := by rw [o.lower_eq h.toVMul (by omega), h.states_pred (by omega)]
  upper c hc := by rw [o.upper_eq h.toVMul hc, h.states_succ hc]
  upper2 c hc := by
    have hn : kh.ncharge = (d.view nl).ncharge := o.ncharge
    unfold CKH.upper
    split
    · have := o.same_ok h.toVMul (c := c + 2) (by omega)
      rw [show ((c : Int) + 2) = ((c + 2 : Nat) : Int) by omega]
      exact this
    · rw [h.last (c + 2) (by omega)]; rfl

variable {kh : CKH} {s : In} {la : Lab} (k : Link kh s.v) (h : VOk s.v la)

theorem pred_cast {c : Nat} {a : Nat} {v : View} (ha : a ∈ v.low c) :
    ((c : Int) - 1) = ((c - 1 : Nat) : Int) := by
  rcases c with _ | c
  · simp [View.low] at ha
  · omega

theorem succ_cast (c : Nat) : ((c : Int) + 1) = ((c + 1 : Nat) : Int) := by omega

section
include k h

theorem row1_eq (fct : Nat → Nat → ℝ × ℝ) {b c : Nat} (hc : c < s.v.ncharge) :
    row1 kh fct b (c : Int) = RTD.row1 s.v fct b (c : Int) := by
  unfold row1 RTD.row1
  rw [k.ind0, k.lower c hc, h.states_pred (by omega), k.upper c hc, h.states_succ hc]
  have hup : ∀ x, kh.ind0 x x ((c : Int) + 1) = s.v.ind0 x x ((c : Int) + 1) := fun x => k.ind0 x x (c + 1)
  simp only [py_bind_ok, k.nleads, k.rd, k.ind1, hup]
  rcases c with _ | c
  · simp only [View.low, if_true, collect_nil, py_bind_ok]
  · have e : (((c + 1 : Nat) : Int) - 1) = (c : Int) := by omega
    simp only [e, k.ind0, k.ind1]

/-- The loops of the energy kernels. -/
theorem rowE_eq {e e' : Nat → Nat → Int → Int → Nat → List Call}
    (he : ∀ a b bb aa l, e a b bb aa l = e' a b bb aa l) {b c : Nat} (hb : b ∈ s.v.row c) :
    rowE kh e b (c : Int) = (do
      let bb ← s.v.ind0 b b (c : Int)
      let As ← s.v.states ((c : Int) - 1)
      let r1 ← collect As fun a => do
        let aa ← s.v.ind0 a a ((c : Int) - 1)
        pure ((List.range s.v.nleads).flatMap fun l => e' a b bb aa l)
      let Cs ← s.v.states ((c : Int) + 1)
      let r2 ← collect Cs fun x => do
        let cc ← s.v.ind0 x x ((c : Int) + 1)
        pure ((List.range s.v.nleads).flatMap fun l => e' b x bb cc l)
      pure (r1 ++ r2)) := by
  have hc := h.row_lt hb
  have : e = e' := by funext a b bb aa l; exact he a b bb aa l
  subst this
  unfold rowE
  rw [k.lower c hc, h.states_pred (by omega), k.upper c hc, h.states_succ hc, k.ind0]
  have hup : ∀ x, kh.ind0 x x ((c : Int) + 1) = s.v.ind0 x x ((c : Int) + 1) := fun x => k.ind0 x x (c + 1)
  simp only [py_bind_ok, k.nleads, hup]
  rcases c with _ | c
  · simp only [View.low, if_true, collect_nil, py_bind_ok]
  · have e : (((c + 1 : Nat) : Int) - 1) = (c : Int) := by omega
    simp only [e, k.ind0]

end

/-! ### Cut-offs -/

theorem foldl_max (T : Nat → ℝ) : ∀ (l : List Nat) (m : ℝ),
    l.foldl (fun m i => if T i > m then T i else m) m = l.foldl (fun m i => max m (T i)) m := by
  intro l
  induction l with
  | nil => intro m; rfl
  | cons a l ih =>
    intro m
    simp only [List.foldl_cons]
    rw [ih]
    congr 1
    rcases le_total (T a) m with hm | hm
    · rw [if_neg (by linarith), max_eq_left hm]
    · rw [max_eq_right hm]
      split
      · rfl
      · linarith

section
variable {poles : s.lib.Poles} (cm : Comparable s poles)
include k cm

theorem maxT_eq : maxT kh s = s.maxT := by
  unfold maxT RTD.In.maxT
  rw [foldl_max, k.nleads]
  obtain ⟨n, hn⟩ := Nat.exists_eq_succ_of_ne_zero cm.leads.ne'
  have h0 := cm.temp 0 cm.leads
  rw [hn, Nat.succ_eq_add_one, List.range_succ_eq_map]
  simp only [List.foldl_cons]
  rw [max_eq_right h0.le, max_self]

theorem cutE_eq : cutE kh s = s.cutE := by
  unfold cutE RTD.In.cutE
  rw [maxT_eq k cm]; ring

theorem cut2_eq : cut2 kh s = s.cut2 := by
  unfold cut2 RTD.In.cut2
  rw [maxT_eq k cm]

theorem cut3_eq : cut3 kh s = s.cut3 := by
  unfold cut3 RTD.In.cut3
  rw [maxT_eq k cm]; ring

omit k in
theorem cut2_pos : 0 < s.cut2 := by
  have h0 := cm.temp 0 cm.leads
  have hge : ∀ (l : List Nat) (m : ℝ), m ≤ l.foldl (fun m i => max m (s.L.T i)) m := by
    intro l
    induction l with
    | nil => intro m; exact le_rfl
    | cons a l ih => intro m; exact (le_max_left _ _).trans (ih _)
  have : s.L.T 0 ≤ s.maxT := hge _ _
  unfold RTD.In.cut2
  have : 0 < s.maxT := by linarith
  positivity

theorem energy1_eq (a b : Nat) (bb aa : Int) (l : Nat) :
    energy1 kh s a b bb aa l = RTD.energy1 s a b bb aa l := by
  unfold energy1 RTD.energy1
  rw [cutE_eq k cm, k.nleads]
  rfl

theorem energy2_eq (a b : Nat) (bb aa : Int) (l : Nat) :
    energy2 kh s a b bb aa l = RTD.energy2 s a b bb aa l := by
  unfold energy2 RTD.energy2
  rw [cutE_eq k cm, k.nleads]
  rfl

include h in
theorem rowE1_eq {b c : Nat} (hb : b ∈ s.v.row c) :
    rowE kh (energy1 kh s) b (c : Int) = RTD.rowE1 s b (c : Int) :=
  rowE_eq k h (energy1_eq k cm) hb

include h in
theorem rowE2_eq {b c : Nat} (hb : b ∈ s.v.row c) :
    rowE kh (energy2 kh s) b (c : Int) = RTD.rowE2 s b (c : Int) :=
  rowE_eq k h (energy2_eq k cm) hb

/-! ### Second order -/

omit k in
theorem same_T {l l' : Nat} (hl : l < s.v.nleads) (hl' : l' < s.v.nleads) :
    (|s.L.T l' - s.L.T l| < 1e-10 ↔ s.L.T l = s.L.T l') ∧
      (|s.L.T l' - s.L.T l| < 1e-5 ↔ s.L.T l = s.L.T l') := by
  rcases cm.apart l hl l' hl' with e | e
  · rw [e]; norm_num
  · have hne : s.L.T l ≠ s.L.T l' := by
      intro he
      rw [he] at e
      norm_num at e
    simp only [hne, iff_false, not_lt]
    exact ⟨le_trans (by norm_num) e, e⟩

theorem addD_eq {x : Vert} (h0 : x.r0 < s.v.nleads) (h1 : x.r1 < s.v.nleads) {t2 : ℂ}
    (hf : (∀ l a b, (s.L.Tba l a b).im = 0) → t2.im = 0) (p1 eta1 : Int) (E2 E3 : ℝ) (a3 : Nat)
    (q3 : Int) (a4 : Nat) (q4 : Int) :
    RTD.addD s x t2 p1 eta1 E2 E3 a3 q3 a4 q4 = .ok (addD kh s poles x t2 p1 eta1 E2 E3 a3 q3 a4 q4) := by
  unfold RTD.addD addD
  rw [cut3_eq k cm]
  split
  · have hT := same_T cm h0 h1
    unfold RTD.integralD integralD
    simp only [hT.1, hT.2]
    split
    · rfl
    · rename_i hn
      rcases cm.poles with hp | ⟨hT, hi⟩
      · rw [hp]; rfl
      · exfalso
        apply hn
        have := RTD.maxT_cut3 s
        rw [hT _ h0, hT _ h1, hf hi]
        refine ⟨rfl, ?_⟩
        simp only [abs_zero, decide_eq_false_iff_not, gt_iff_lt, not_lt]
        exact this
  · rfl

theorem addX_eq {x : Vert} (h0 : x.r0 < s.v.nleads) (h1 : x.r1 < s.v.nleads) {t2 : ℂ}
    (hf : (∀ l a b, (s.L.Tba l a b).im = 0) → t2.im = 0) (p1 eta1 : Int) (E2 E3 : ℝ) (a3 : Nat)
    (q3 : Int) (a4 : Nat) (q4 : Int) :
    RTD.addX s x t2 p1 eta1 E2 E3 a3 q3 a4 q4 = .ok (addX kh s poles x t2 p1 eta1 E2 E3 a3 q3 a4 q4) := by
  unfold RTD.addX addX
  rw [cut3_eq k cm]
  split
  · have hT := same_T cm h0 h1
    unfold RTD.integralX integralX
    simp only [hT.1, hT.2]
    split
    · rfl
    · rename_i hn
      rcases cm.poles with hp | ⟨hT, hi⟩
      · rw [hp]; rfl
      · exfalso
        apply hn
        have := RTD.maxT_cut3 s
        rw [hT _ h0, hT _ h1, hf hi]
        refine ⟨rfl, ?_⟩
        simp only [abs_zero, decide_eq_false_iff_not, gt_iff_lt, not_lt]
        exact this
  · rfl

omit k in
theorem skip_iff {l l' a b a' b' : Nat} (hl : l < s.v.nleads) (hl' : l' < s.v.nleads) {t1 : ℂ}
    (ht : ‖t1‖ = ‖s.L.Tba l a b‖ * ‖s.L.Tba l' a' b'‖) :
    (‖t1‖ < s.cut2 ↔ t1 = 0) ∧ (‖t1‖ ≤ s.cut2 ↔ t1 = 0) := by
  have hp := cut2_pos cm
  rcases cm.amp l hl l' hl' a b a' b' with e | e
  · rw [← ht, norm_eq_zero] at e
    rw [e]
    simp [hp, hp.le]
  · rw [← ht] at e
    have hne : t1 ≠ 0 := by
      intro h0
      rw [h0, norm_zero] at e
      linarith
    simp only [hne, iff_false, not_lt, not_le]
    exact ⟨e.le, e⟩

section
variable {x : Vert} {a0 a1 q : Nat} (h0 : x.r0 < s.v.nleads) (h1 : x.r1 < s.v.nleads)
  (hq : q + 1 < s.v.ncharge)
include h h0 h1 hq

theorem loop_ok {c : Int} {l : List Nat} (hl : s.v.states c = .ok l) {f : Nat → Py (List Call)}
    {g : Nat → List Call} (hf : ∀ a, f a = .ok (g a)) :
    (s.v.states c >>= fun l => collect l f) = .ok (l.flatMap g) := by
  rw [hl]
  exact collect_ok fun a _ => hf a

theorem blockUp_eq :
    RTD.blockUp s x (s.L.Tba x.r0 a1 a0) a0 a1 q
      = .ok (blockUp kh s poles (s.v.row (q + 1)) (s.v.row (q + 2)) x (s.L.Tba x.r0 a1 a0) a0 a1 q) := by
  unfold RTD.blockUp blockUp
  have e1 := h.states_succ (c := q) (by omega)
  have e2 : s.v.states ((q : Int) + 2) = .ok (s.v.row (q + 2)) := h.states (c := q + 2) (by omega)
  refine loop_ok k h cm h0 h1 hq e2 fun a2 => ?_
  have hs := skip_iff cm (a := a1) (b := a0) (a' := a2) (b' := a1) h0 h1
    (t1 := s.L.Tba x.r0 a1 a0 * s.L.Tba x.r1 a2 a1) (by simp)
  simp only [cut2_eq k cm, hs.1, hs.2]
  split
  · rfl
  · refine RTD.both_ok (loop_ok k h cm h0 h1 hq e1 fun a3 => RTD.both_ok ?_ ?_)
      (loop_ok k h cm h0 h1 hq e1 fun a3 => RTD.both_ok ?_ ?_)
    · exact addD_eq k cm h0 h1 (fun hi => by simp [hi]) ..
    · exact addX_eq k cm h0 h1 (fun hi => by simp [hi]) ..
    · exact addD_eq k cm h0 h1 (fun hi => by simp [hi]) ..
    · exact addX_eq k cm h0 h1 (fun hi => by simp [hi]) ..

theorem blockDown_eq :
    RTD.blockDown s x (s.L.Tba x.r0 a1 a0) a0 a1 q
      = .ok (blockDown kh s poles (s.v.low q) (s.v.row q) x (s.L.Tba x.r0 a1 a0) a0 a1 q) := by
  unfold RTD.blockDown blockDown
  have e0 := h.states_pred (c := q) (by omega)
  have e1 := h.states (c := q) (by omega)
  refine loop_ok k h cm h0 h1 hq e0 fun a2 => ?_
  have hs := skip_iff cm (a := a1) (b := a0) (a' := a0) (b' := a2) h0 h1
    (t1 := s.L.Tba x.r0 a1 a0 * s.L.Tba x.r1 a0 a2) (by simp)
  simp only [cut2_eq k cm, hs.1, hs.2]
  split
  · rfl
  · refine RTD.both_ok (loop_ok k h cm h0 h1 hq e1 fun a3 => RTD.both_ok ?_ ?_)
      (loop_ok k h cm h0 h1 hq e1 fun a3 => RTD.both_ok ?_ ?_)
    · exact addD_eq k cm h0 h1 (fun hi => by simp [hi]) ..
    · exact addX_eq k cm h0 h1 (fun hi => by simp [hi]) ..
    · exact addD_eq k cm h0 h1 (fun hi => by simp [hi]) ..
    · exact addX_eq k cm h0 h1 (fun hi => by simp [hi]) ..

theorem blockSame_eq :
    RTD.blockSame s x (s.L.Tba x.r0 a1 a0) a0 a1 q
      = .ok (blockSame kh s poles (s.v.low q) (s.v.row q) (s.v.row (q + 1)) x (s.L.Tba x.r0 a1 a0) a0 a1 q) := by
  unfold RTD.blockSame blockSame
  have em := h.states_pred (c := q) (by omega)
  have e0 := h.states (c := q) (by omega)
  have e1 := h.states_succ (c := q) (by omega)
  refine loop_ok k h cm h0 h1 hq e0 fun a2 => ?_
  have hs := skip_iff cm (a := a1) (b := a0) (a' := a1) (b' := a2) h0 h1
    (t1 := s.L.Tba x.r0 a1 a0 * conj (s.L.Tba x.r1 a1 a2)) (by simp)
  simp only [cut2_eq k cm, hs.1, hs.2]
  split
  · rfl
  · refine RTD.both_ok (RTD.both_ok (loop_ok k h cm h0 h1 hq e1 fun a3 => ?_) (loop_ok k h cm h0 h1 hq em fun a3 => ?_))
      (RTD.both_ok (loop_ok k h cm h0 h1 hq em fun a3 => ?_) (loop_ok k h cm h0 h1 hq e1 fun a3 => ?_))
    · exact addD_eq k cm h0 h1 (fun hi => by simp [hi]) ..
    · exact addX_eq k cm h0 h1 (fun hi => by simp [hi]) ..
    · exact addD_eq k cm h0 h1 (fun hi => by simp [hi]) ..
    · exact addX_eq k cm h0 h1 (fun hi => by simp [hi]) ..

omit h h0 h1 hq in
theorem addD_zero (p1 eta1 : Int) (E2 E3 : ℝ) (a3 : Nat) (q3 : Int) (a4 : Nat) (q4 : Int) :
    addD kh s poles x 0 p1 eta1 E2 E3 a3 q3 a4 q4 = [] := by
  unfold addD
  rw [cut3_eq k cm, if_neg]
  simpa using RTD.maxT_cut3 s

omit h h0 h1 hq in
theorem addX_zero (p1 eta1 : Int) (E2 E3 : ℝ) (a3 : Nat) (q3 : Int) (a4 : Nat) (q4 : Int) :
    addX kh s poles x 0 p1 eta1 E2 E3 a3 q3 a4 q4 = [] := by
  unfold addX
  rw [cut3_eq k cm, if_neg]
  simpa using RTD.maxT_cut3 s

theorem blockNext_eq :
    RTD.blockNext s x (s.L.Tba x.r0 a1 a0) a0 a1 q
      = .ok (blockNext kh s poles (s.v.row q) (s.v.row (q + 1)) (s.v.row (q + 2)) x (s.L.Tba x.r0 a1 a0)
          a0 a1 q) := by
  unfold RTD.blockNext blockNext
  have e0 := h.states (c := q) (by omega)
  have e1 := h.states_succ (c := q) (by omega)
  have e2 : s.v.states ((q : Int) + 2) = .ok (s.v.row (q + 2)) := h.states (c := q + 2) (by omega)
  refine loop_ok k h cm h0 h1 hq e1 fun a2 => ?_
  have hs := skip_iff cm (a := a1) (b := a0) (a' := a2) (b' := a0) h0 h1
    (t1 := s.L.Tba x.r0 a1 a0 * conj (s.L.Tba x.r1 a2 a0)) (by simp)
  simp only [cut2_eq k cm, hs.2]
  have key := RTD.both_ok
    (RTD.both_ok
      (loop_ok k h cm h0 h1 hq e2 fun a3 => addD_eq k cm h0 h1
        (t2 := s.L.Tba x.r0 a1 a0 * conj (s.L.Tba x.r1 a2 a0) * s.L.Tba x.r1 a3 a1 * conj (s.L.Tba x.r0 a3 a2))
        (fun hi => by simp [hi]) (-1) (-1) (s.E a1 - s.E a2) (s.E a3 - s.E a2) a3 (q + 2) a2 (q + 1))
      (loop_ok k h cm h0 h1 hq e0 fun a3 => addX_eq k cm h0 h1
        (t2 := s.L.Tba x.r0 a1 a0 * conj (s.L.Tba x.r1 a2 a0) * conj (s.L.Tba x.r0 a1 a3) * s.L.Tba x.r1 a2 a3)
        (fun hi => by simp [hi]) (-1) (-1) (s.E a1 - s.E a2) (s.E a3 - s.E a2) a3 q a2 (q + 1)))
    (RTD.both_ok
      (loop_ok k h cm h0 h1 hq e0 fun a3 => addD_eq k cm h0 h1
        (t2 := s.L.Tba x.r0 a1 a0 * conj (s.L.Tba x.r1 a2 a0) * s.L.Tba x.r1 a2 a3 * conj (s.L.Tba x.r0 a1 a3))
        (fun hi => by simp [hi]) (-1) (-1) (s.E a1 - s.E a2) (s.E a1 - s.E a3) a1 (q + 1) a3 q)
      (loop_ok k h cm h0 h1 hq e2 fun a3 => addX_eq k cm h0 h1
        (t2 := s.L.Tba x.r0 a1 a0 * conj (s.L.Tba x.r1 a2 a0) * conj (s.L.Tba x.r0 a3 a2) * s.L.Tba x.r1 a3 a1)
        (fun hi => by simp [hi]) (-1) (-1) (s.E a1 - s.E a2) (s.E a1 - s.E a3) a1 (q + 1) a3 (q + 2)))
  refine key.trans ?_
  split
  · rename_i hz
    simp only [hz, zero_mul, addD_zero k cm, addX_zero k cm]
    simp
  · rfl

end

include h in
theorem col2_eq {a0 q : Nat} (ha : a0 ∈ s.v.row q) :
    col2 kh s poles a0 (q : Int) = RTD.col2 s a0 (q : Int) := by
  have hc := h.row_lt ha
  unfold col2 RTD.col2
  rw [k.lower q hc, k.same q hc, k.upper q hc, k.upper2 q hc, k.ind0, h.states_succ hc]
  simp only [py_bind_ok, k.nleads]
  congr 1
  funext i0
  refine collect_congr fun r hr => collect_congr fun a1 ha1 => ?_
  obtain ⟨hr0, hr1⟩ := prod2_mem hr
  have hq1 := h.row_lt ha1
  have hup : kh.ind0 a1 a1 ((q : Int) + 1) = s.v.ind0 a1 a1 ((q : Int) + 1) := k.ind0 a1 a1 (q + 1)
  unfold vertex RTD.vertex
  simp only
  split
  · rfl
  · rw [hup]
    congr 1
    funext i1
    have g0 : r.1 < s.v.nleads := List.mem_range.1 hr0
    have g1 : r.2 < s.v.nleads := List.mem_range.1 hr1
    let x : Vert := ⟨r.1, r.2, i0, i1, s.E a1 - s.E a0⟩
    exact (RTD.both_ok (RTD.both_ok (blockUp_eq k h cm (x := x) g0 g1 hq1) (blockDown_eq k h cm (x := x) g0 g1 hq1))
      (RTD.both_ok (blockSame_eq k h cm (x := x) g0 g1 hq1) (blockNext_eq k h cm (x := x) g0 g1 hq1))).symm

end

/-! ### First order, off-diagonal -/

section
include k h

theorem ifUpper {c b : Nat} (hb : b ∈ s.v.row c) {β : Type} (f : List Nat → List β) (hf : f [] = []) :
    (if (c : Int) ≠ (kh.ncharge : Int) - 1 then f (s.v.row (c + 1)) else []) = f (s.v.row (c + 1)) := by
  split
  · rfl
  · rename_i hn
    have hc := h.row_lt hb
    have := k.ncharge
    rw [h.last (c + 1) (by simp only [ne_eq, not_not] at hn; omega), hf]

theorem ifLower {c b : Nat} (hb : b ∈ s.v.row c) {β : Type} (f : List Nat → List β) (hf : f [] = []) :
    (if (c : Int) ≠ 0 then f (s.v.low c) else []) = f (s.v.low c) := by
  split
  · rfl
  · rename_i hn
    have : c = 0 := by simp only [ne_eq, not_not] at hn; omega
    subst this
    simp [View.low, hf]

theorem colDn_eq {a b c : Nat} (ha : a ∈ s.v.row c) :
    colDn kh s a b (c : Int) = RTD.colDn s a b (c : Int) := by
  have hc := h.row_lt ha
  unfold colDn RTD.colDn
  rw [k.lower c hc, k.same c hc, k.upper c hc]
  simp only [py_bind_ok, k.nleads]
  symm
  refine RTD.both_ok (RTD.both_ok ?_ ?_) ?_
  · rw [RTD.upper_ok h ha _ (by simp), ifUpper k h ha _ (by simp)]
  · rw [RTD.lower_ok h ha _ (by simp), ifLower k h ha _ (by simp)]
  · rw [h.states (by omega)]
    simp only [py_bind_ok]
    refine collect_ok fun a2 _ => RTD.both_ok ?_ ?_
    · rw [RTD.upper_ok h ha _ (by simp), ifUpper k h ha _ (by simp)]
    · rw [RTD.lower_ok h ha _ (by simp), ifLower k h ha _ (by simp)]

theorem colNd_eq {a c : Nat} (ha : a ∈ s.v.row c) :
    colNd kh s a (c : Int) = RTD.colNd s a (c : Int) := by
  have hc := h.row_lt ha
  unfold colNd RTD.colNd
  rw [k.lower c hc, k.same c hc, k.upper c hc]
  simp only [py_bind_ok, k.nleads]
  symm
  refine RTD.both_ok (RTD.both_ok ?_ ?_) ?_
  · rw [RTD.upper_ok h ha _ (by simp), ifUpper k h ha _ (by simp)]
  · rw [RTD.lower_ok h ha _ (by simp), ifLower k h ha _ (by simp)]
  · rw [h.states (by omega)]
    simp only [py_bind_ok]
    refine collect_ok fun a2 _ => collect_ok fun b2 _ => ?_
    split
    · rfl
    · refine RTD.both_ok ?_ ?_
      · rw [RTD.upper_ok h ha _ (by simp), ifUpper k h ha _ (by simp)]
      · rw [RTD.lower_ok h ha _ (by simp), ifLower k h ha _ (by simp)]

theorem nd_eq (off : Bool) {a c : Nat} (ha : a ∈ s.v.row c) :
    nd kh s off a (c : Int) = RTD.nd s off a (c : Int) := by
  unfold nd RTD.nd
  rw [colNd_eq k h ha]

end

end CRTD

end

end Verif
