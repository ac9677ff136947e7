import Verif.Lemmas.RTDRun

/-! What `generate_kern` and `generate_current` of the RTD approach return. -/

namespace Verif

open Finset
open scoped ComplexConjugate

noncomputable section

namespace RTD

/-! ### Corrections -/

theorem mul_inv {a b x : Mat} (h : a.mul b = .ok x) :
    x.rows = a.rows ∧ ∀ i j, x.val i j = ∑ k ∈ range a.cols, a.val i k * b.val k j := by
  unfold Mat.mul at h
  split at h
  · simp only [py_pure, Except.ok.injEq] at h
    subst h; exact ⟨rfl, fun _ _ => rfl⟩
  · simp at h

theorem mul_col {a b x : Mat} (h : a.mul b = .ok x) (hz : ∀ k, ∑ i ∈ range a.rows, a.val i k = 0) (j : Nat) :
    ∑ i ∈ range x.rows, x.val i j = 0 := by
  obtain ⟨hr, hv⟩ := mul_inv h
  simp only [hr, hv]
  rw [sum_comm]
  refine sum_eq_zero fun k _ => ?_
  rw [← sum_mul, hz, zero_mul]

theorem corr_inv {m : Mats} {l : Nat} {x : Mat} (h : corr m l = .ok x) :
    ∃ x1 x2 y1 y2, ((m.ten .ReWdn).lead l).mul m.Lnn = .ok x1 ∧ x1.mul (m.ten .ImWnd).sumLeads = .ok x2 ∧
      ((m.ten .ImWdn).lead l).mul m.Lnn = .ok y1 ∧ y1.mul (m.ten .ReWnd).sumLeads = .ok y2 ∧ x = addMat x2 y2 := by
  unfold corr at h
  obtain ⟨x1, h1, h⟩ := bind_ok_inv h
  obtain ⟨x2, h2, h⟩ := bind_ok_inv h
  obtain ⟨y1, h3, h⟩ := bind_ok_inv h
  obtain ⟨y2, h4, h⟩ := bind_ok_inv h
  simp only [py_pure, Except.ok.injEq] at h
  exact ⟨x1, x2, y1, y2, h1, h2, h3, h4, h.symm⟩

theorem corr_col {m : Mats} {l : Nat} {x : Mat} {n : Nat} (h : corr m l = .ok x) (hn : (m.ten .ReWdn).rows = n)
    (hn' : (m.ten .ImWdn).rows = n) (h1 : ∀ j, m.colSum .ReWdn l j = 0) (h2 : ∀ j, m.colSum .ImWdn l j = 0) (j : Nat) :
    ∑ i ∈ range n, x.val i j = 0 := by
  obtain ⟨x1, x2, y1, y2, e1, e2, e3, e4, rfl⟩ := corr_inv h
  have a1 := mul_col e2 (mul_col e1 h1) j
  have a2 := mul_col e4 (mul_col e3 h2) j
  rw [(mul_inv e2).1, (mul_inv e1).1] at a1
  rw [(mul_inv e4).1, (mul_inv e3).1] at a2
  simp only [addMat, sum_add_distrib]
  have b1 : ∑ i ∈ range n, x2.val i j = 0 := by rw [← hn]; exact a1
  have b2 : ∑ i ∈ range n, y2.val i j = 0 := by rw [← hn']; exact a2
  rw [b1, b2, add_zero]

theorem corrs_inv {m : Mats} {n : Nat} {w : Nat → Mat} (h : corrs m n = .ok w) :
    ∀ l < n, corr m l = .ok (w l) := by
  induction n generalizing w with
  | zero => intro l hl; omega
  | succ n ih =>
    unfold corrs at h
    rw [List.range_succ, List.foldlM_append] at h
    obtain ⟨w', hw', h⟩ := bind_ok_inv h
    simp only [List.foldlM_cons, List.foldlM_nil] at h
    obtain ⟨w'', hw'', h⟩ := bind_ok_inv h
    obtain ⟨x, hx, hw''⟩ := bind_ok_inv hw''
    simp only [py_pure, Except.ok.injEq] at h hw''
    subst h hw''
    intro l hl
    by_cases e : l = n
    · subst e; simp [hx]
    · simp only [e, if_false]
      exact ih hw' l (by omega)

/-! ### The result of `generate_kern` -/

/-- What a call contributes to an entry. -/
def atOf (v : View) (sh : Shape) (n : Name) (l r c : Nat) (k : Call) : ℝ :=
  ((evsD v sh k).map fun e => e.at n l r c).sum

theorem run_val {v : View} {s s' : Acc} {ks : List Call} (h : run v s ks = .ok s') (n : Name) (l r c : Nat) :
    (s'.mats.ten n).val l r c = (s.mats.ten n).val l r c + (ks.map (atOf v s.mats.sh n l r c)).sum := by
  rw [(run_made h).val, sum_flatMap']
  rfl

theorem atOf_name {v : View} {sh : Shape} {n : Name} {l r c : Nat} {k : Call} (h : k.name ≠ some n) :
    atOf v sh n l r c k = 0 := at_name h

theorem fresh_val (v : View) (symq : Bool) (n : Name) (l r c : Nat) : ((fresh v symq).acc.mats.ten n).val l r c = 0 := by
  cases n <;> rfl

/-- How `generate_kern` gets to its result. -/
structure Steps (s : In) (fct : Nat → Nat → ℝ × ℝ) (off symq : Bool) (st : St) where
  k1 : List Call
  h1 : calls1 s fct off = .ok k1
  a1 : Acc
  r1 : run s.v (fresh s.v symq).acc k1 = .ok a1
  k2 : List Call
  a2 : Acc
  r2 : run s.v a1 k2 = .ok a2
  w : Nat → Mat
  kern : st.kern.rows = (if symq then s.v.npauli else s.v.npauli + 1) ∧ st.kern.cols = s.v.npauli ∧
    ∀ i j, st.kern.val i j = if i < s.v.npauli ∧ j < s.v.npauli then
      ∑ l ∈ range s.v.nleads, ((a1.mats.ten .Wdd).val l i j + (w l).val i j) else 0
  wdd : ∀ l i j, l < s.v.nleads → (st.acc.mats.ten .Wdd).val l i j = (a2.mats.ten .Wdd).val l i j + (w l).val i j
  im : st.acc.im = a2.im
  rest : ∀ n, n ≠ .Wdd → st.acc.mats.ten n = a2.mats.ten n
  sh : st.acc.mats.sh = shapes s.v
  cases : (off = false ∧ k2 = [] ∧ ∀ l i j, (w l).val i j = 0) ∨
    (off = true ∧ calls2 s = .ok k2 ∧ ∀ l < s.v.nleads, corr a2.mats l = .ok (w l))

theorem genKern_steps {s : In} {fct : Nat → Nat → ℝ × ℝ} {off symq : Bool} {st : St}
    (h : genKern s fct off (fresh s.v symq) = .ok st) : Nonempty (Steps s fct off symq st) := by
  unfold genKern at h
  obtain ⟨k1, h1, h⟩ := bind_ok_inv h
  obtain ⟨a1, r1, h⟩ := bind_ok_inv h
  have sh1 : a1.mats.sh = shapes s.v := (run_made r1).sh.trans (fresh_sh _ _)
  have hl : (a1.mats.ten .Wdd).leads = s.v.nleads := congrArg Prod.fst (congrFun sh1 .Wdd)
  rcases off with _ | _
  · simp only [Bool.false_eq_true, if_false, py_pure, Except.ok.injEq] at h
    subst h
    exact ⟨{ k1 := k1, h1 := h1, a1 := a1, r1 := r1, k2 := [], a2 := a1, r2 := rfl, w := fun _ => Mat.zeros 0 0
             kern := ⟨rfl, rfl, by
              intro i j
              simp only [addBlock, Ten.sumLeads, hl, fresh, Mat.zeros, add_zero, zero_add]⟩
             wdd := by intro l i j _; simp [Mat.zeros]
             im := rfl, rest := fun _ _ => rfl, sh := sh1
             cases := Or.inl ⟨rfl, rfl, fun _ _ _ => rfl⟩ }⟩
  · simp only [if_true] at h
    obtain ⟨k2, h2, h⟩ := bind_ok_inv h
    obtain ⟨a2, r2, h⟩ := bind_ok_inv h
    have sh2 : a2.mats.sh = shapes s.v := (run_made r2).sh.trans sh1
    unfold addCorr at h
    obtain ⟨w, hw, h⟩ := bind_ok_inv h
    simp only [py_pure, Except.ok.injEq] at h
    subst h
    exact ⟨{ k1 := k1, h1 := h1, a1 := a1, r1 := r1, k2 := k2, a2 := a2, r2 := r2, w := w
             kern := ⟨rfl, rfl, by
              intro i j
              simp only [addBlock, Ten.sumLeads, hl, fresh, Mat.zeros, zero_add]
              split
              · rw [← sum_add_distrib]
              · rfl⟩
             wdd := by intro l i j hl; simp [hl]
             im := rfl
             rest := by intro n hn; simp [hn]
             sh := by
              funext n
              rw [← congrFun sh2 n]
              by_cases hn : n = .Wdd
              · subst hn; simp [Mats.sh]
              · simp [Mats.sh, hn]
             cases := Or.inr ⟨rfl, h2, corrs_inv hw⟩ }⟩

section
variable {s : In} {la : Lab} (h : VOk s.v la)
include h

/-- The second loop does not touch `Wdd`, `WE1` and `WE2`. -/
theorem Steps.second {fct : Nat → Nat → ℝ × ℝ} {off symq : Bool} {st : St} (S : Steps s fct off symq st) {n : Name}
    (h1 : n ≠ .ReWdn) (h2 : n ≠ .ImWdn) (l i j : Nat) : (S.a2.mats.ten n).val l i j = (S.a1.mats.ten n).val l i j := by
  rw [run_val S.r2, sum_zero, add_zero]
  intro k hk
  apply atOf_name
  rcases S.cases with ⟨_, e, _⟩ | ⟨_, e, _⟩
  · rw [e] at hk; simp at hk
  · rcases calls2_name h e k hk with e | e | e <;> rw [e] <;> simp [Ne.symm h1, Ne.symm h2]

theorem Steps.kern_eq {fct : Nat → Nat → ℝ × ℝ} {off symq : Bool} {st : St} (S : Steps s fct off symq st) {i j : Nat}
    (hi : i < s.v.npauli) (hj : j < s.v.npauli) :
    st.kern.val i j = ∑ l ∈ range s.v.nleads, (st.acc.mats.ten .Wdd).val l i j := by
  rw [S.kern.2.2, if_pos ⟨hi, hj⟩]
  refine sum_congr rfl fun l hl => ?_
  rw [S.wdd _ _ _ (mem_range.1 hl), S.second h (by simp) (by simp)]

/-- The columns of `Wdd` sum to zero. -/
theorem Steps.col {fct : Nat → Nat → ℝ × ℝ} {off symq : Bool} {st : St} (S : Steps s fct off symq st) {l : Nat}
    (hl : l < s.v.nleads) (j : Nat) : ∑ i ∈ range s.v.npauli, (st.acc.mats.ten .Wdd).val l i j = 0 := by
  have sh1 : S.a1.mats.sh = shapes s.v := (run_made S.r1).sh.trans (fresh_sh _ _)
  have sh2 : S.a2.mats.sh = shapes s.v := (run_made S.r2).sh.trans sh1
  have rows : (S.a1.mats.ten .Wdd).rows = s.v.npauli := (sh_lead (m := (fresh s.v symq).acc.mats)
    (sh1.trans (fresh_sh _ _).symm) .Wdd).2.1
  have c1 : ∑ i ∈ range s.v.npauli, (S.a1.mats.ten .Wdd).val l i j = 0 := by
    have := run_colSum S.r1 .Wdd l j
    rw [fresh_sh, calls1_col h rfl S.h1 hl j, add_zero] at this
    unfold Mats.colSum at this
    rw [rows] at this
    rw [this]
    exact sum_eq_zero fun i _ => fresh_val _ _ _ _ _ _
  have c2 : ∑ i ∈ range s.v.npauli, (S.w l).val i j = 0 := by
    rcases S.cases with ⟨_, _, hw⟩ | ⟨_, h2, hw⟩
    · exact sum_eq_zero fun i _ => hw _ _ _
    · have hr := congrFun sh2 .ReWdn
      have hi := congrFun sh2 .ImWdn
      simp only [Mats.sh, shapes, Prod.mk.injEq] at hr hi
      have zero : ∀ n, n = .ReWdn ∨ n = .ImWdn → ∀ j, S.a2.mats.colSum n l j = 0 := by
        intro n hn j
        rw [run_colSum S.r2, run_colSum S.r1, sh1, fresh_sh,
          calls2_col h hn (k := 2 * s.v.ndm0 - 2 * s.v.npauli) (by rcases hn with rfl | rfl <;> rfl) hl j h2, sum_zero]
        · simp only [add_zero, Mats.colSum]
          exact sum_eq_zero fun i _ => fresh_val _ _ _ _ _ _
        · intro k hk
          apply colOf_name
          rcases hn with rfl | rfl
          · exact (calls1_name h S.h1 k hk).1
          · exact (calls1_name h S.h1 k hk).2
      exact corr_col (hw l hl) hr.2.1 hi.2.1 (zero _ (Or.inl rfl)) (zero _ (Or.inr rfl)) j
  have e : ∀ i, (st.acc.mats.ten .Wdd).val l i j = (S.a1.mats.ten .Wdd).val l i j + (S.w l).val i j := by
    intro i
    rw [S.wdd _ _ _ hl, S.second h (by simp) (by simp)]
  simp only [e, sum_add_distrib, c1, c2, add_zero]

end

/-! ### The result of `generate_current` -/

theorem dot_inv {a : Mat} {x y : Vec} (h : a.dot x = .ok y) :
    y.size = a.rows ∧ a.cols = x.size ∧ ∀ i, y.val i = ∑ k ∈ range a.cols, a.val i k * x.val k := by
  unfold Mat.dot at h
  split at h
  · rename_i e
    simp only [py_pure, Except.ok.injEq] at h
    subst h; exact ⟨rfl, e, fun _ => rfl⟩
  · simp at h

theorem vdot_inv {x y : Vec} {r : ℝ} (h : x.dot y = .ok r) :
    x.size = y.size ∧ r = ∑ k ∈ range x.size, x.val k * y.val k := by
  unfold Vec.dot at h
  split at h
  · rename_i e
    simp only [py_pure, Except.ok.injEq] at h
    exact ⟨e, h.symm⟩
  · simp at h

theorem dot_some {a : Mat} {x : Vec} (e : a.cols = x.size) : ∃ y, a.dot x = .ok y ∧ y.size = a.rows := by
  unfold Mat.dot
  rw [if_pos e]
  exact ⟨_, rfl, rfl⟩

theorem vdot_some {x y : Vec} (e : x.size = y.size) : ∃ r, x.dot y = .ok r := by
  unfold Vec.dot
  rw [if_pos e]
  exact ⟨_, rfl⟩

/-- The currents of one lead. -/
theorem leadCurrent_inv {s : In} {LN : Vec} {m : Mats} {φ : Vec} {l : Nat} {x : ℝ × ℝ} (hsh : m.sh = shapes s.v)
    (h : leadCurrent s LN m φ l = .ok x) : LN.size = s.v.npauli ∧ s.nmany = s.v.npauli ∧ φ.size = s.v.npauli ∧
      x.1 = 0.5 * ∑ i ∈ range s.v.npauli, LN.val i * ∑ j ∈ range s.v.npauli, (m.ten .Wdd).val l i j * φ.val j ∧
      x.2 = 0.5 * ∑ i ∈ range s.v.npauli, 2 * s.E i * ∑ j ∈ range s.v.npauli, (m.ten .Wdd).val l i j * φ.val j
        - 0.5 * ∑ i ∈ range s.v.npauli, ∑ j ∈ range s.v.npauli, (m.ten .WE1).val l i j * φ.val j
        + 0.5 * ∑ i ∈ range s.v.npauli, ∑ j ∈ range s.v.npauli, (m.ten .WE2).val l i j * φ.val j := by
  have h0 := congrFun hsh .Wdd
  have h1 := congrFun hsh .WE1
  have h2 := congrFun hsh .WE2
  simp only [Mats.sh, shapes, Prod.mk.injEq] at h0 h1 h2
  unfold leadCurrent at h
  obtain ⟨w, hw, h⟩ := bind_ok_inv h
  obtain ⟨x', hx, h⟩ := bind_ok_inv h
  obtain ⟨y, hy, h⟩ := bind_ok_inv h
  obtain ⟨e1, he1, h⟩ := bind_ok_inv h
  obtain ⟨e2, he2, h⟩ := bind_ok_inv h
  simp only [py_pure, Except.ok.injEq] at h
  subst h
  obtain ⟨w1, w2, w3⟩ := dot_inv hw
  obtain ⟨x1, x2⟩ := vdot_inv hx
  obtain ⟨y1, y2⟩ := vdot_inv hy
  obtain ⟨p1, p2, p3⟩ := dot_inv he1
  obtain ⟨q1, q2, q3⟩ := dot_inv he2
  simp only [Ten.lead] at w1 w2 w3 p1 p2 p3 q1 q2 q3 y1 y2
  rw [h0.2.1] at w1
  rw [h0.2.2] at w2 w3
  rw [h1.2.1] at p1
  rw [h1.2.2] at p2 p3
  rw [h2.2.1] at q1
  rw [h2.2.2] at q2 q3
  refine ⟨x1.trans w1, y1.trans w1, w2.symm, ?_, ?_⟩
  · rw [x2, x1, w1]
    simp only [w3]
  · rw [y2, y1, w1]
    simp only [Vec.sum, p1, q1, w3, p3, q3]
    ring

theorem genCurrent_inv {s : In} {LN : Vec} {a : Acc} {φ : Vec} {cur : Currents}
    (h : genCurrent s LN a φ = .ok cur) : ∃ w : Nat → ℝ × ℝ, (∀ l < s.v.nleads, leadCurrent s LN a.mats φ l = .ok (w l)) ∧
      cur = ⟨fun l => (w l).1, fun l => if a.im then none else some (w l).2,
        fun l => if a.im then none else some ((w l).2 - (w l).1 * s.L.mu l)⟩ := by
  unfold genCurrent at h
  obtain ⟨w, hw, h⟩ := bind_ok_inv h
  simp only [py_pure, Except.ok.injEq] at h
  refine ⟨w, ?_, h.symm⟩
  clear h
  revert w
  generalize s.v.nleads = n
  induction n with
  | zero => intro w _ l hl; omega
  | succ n ih =>
    intro w hw
    rw [List.range_succ, List.foldlM_append] at hw
    obtain ⟨w', hw', h⟩ := bind_ok_inv hw
    simp only [List.foldlM_cons, List.foldlM_nil] at h
    obtain ⟨w'', hw'', h⟩ := bind_ok_inv h
    obtain ⟨x, hx, hw''⟩ := bind_ok_inv hw''
    simp only [py_pure, Except.ok.injEq] at h hw''
    subst h hw''
    intro l hl
    by_cases e : l = n
    · subst e; simp [hx]
    · simp only [e, if_false]
      exact ih w' hw' l (by omega)

theorem genCurrent_some {s : In} {LN : Vec} {a : Acc} {φ : Vec} (hsh : a.mats.sh = shapes s.v)
    (h1 : LN.size = s.v.npauli) (h2 : s.nmany = s.v.npauli) (h3 : φ.size = s.v.npauli) :
    ∃ cur, genCurrent s LN a φ = .ok cur := by
  have lc : ∀ l, ∃ x, leadCurrent s LN a.mats φ l = .ok x := by
    intro l
    have h0 := congrFun hsh .Wdd
    have g1 := congrFun hsh .WE1
    have g2 := congrFun hsh .WE2
    simp only [Mats.sh, shapes, Prod.mk.injEq] at h0 g1 g2
    unfold leadCurrent
    obtain ⟨w, hw, w1⟩ := dot_some (a := (a.mats.ten .Wdd).lead l) (x := φ)
      (show (a.mats.ten .Wdd).cols = _ by rw [h0.2.2, h3])
    have w1 : w.size = s.v.npauli := w1.trans h0.2.1
    obtain ⟨x, hx⟩ := vdot_some (x := LN) (y := w) (by rw [w1, h1])
    obtain ⟨y, hy⟩ := vdot_some (x := ⟨s.nmany, fun i => 2 * s.E i⟩) (y := w) (by rw [w1, ← h2])
    obtain ⟨e1, he1, _⟩ := dot_some (a := (a.mats.ten .WE1).lead l) (x := φ)
      (show (a.mats.ten .WE1).cols = _ by rw [g1.2.2, h3])
    obtain ⟨e2, he2, _⟩ := dot_some (a := (a.mats.ten .WE2).lead l) (x := φ)
      (show (a.mats.ten .WE2).cols = _ by rw [g2.2.2, h3])
    simp only
    rw [hw]; simp only [py_bind_ok]
    rw [hx]; simp only [py_bind_ok]
    rw [hy]; simp only [py_bind_ok]
    rw [he1]; simp only [py_bind_ok]
    rw [he2]
    exact ⟨_, rfl⟩
  unfold genCurrent
  have key : ∀ n, ∃ w, (List.range n).foldlM (fun w l => do
      let x ← leadCurrent s LN a.mats φ l
      pure (fun k => if k = l then x else w k)) (fun _ : Nat => ((0, 0) : ℝ × ℝ)) = (.ok w : Py (Nat → ℝ × ℝ)) := by
    intro n
    induction n with
    | zero => exact ⟨_, rfl⟩
    | succ n ih =>
      obtain ⟨w, hw⟩ := ih
      obtain ⟨x, hx⟩ := lc n
      rw [List.range_succ, List.foldlM_append, hw]
      simp only [py_bind_ok, List.foldlM_cons, List.foldlM_nil]
      rw [hx]
      exact ⟨_, rfl⟩
  obtain ⟨w, hw⟩ := key s.v.nleads
  rw [hw]
  exact ⟨_, rfl⟩

end RTD

end

end Verif
