import Verif.Lemmas.RTDCalls

/-! The off-diagonal part of the RTD approach: sums of the columns of `ReWdn` and `ImWdn`. -/

namespace Verif

open Finset
open scoped ComplexConjugate

noncomputable section

theorem py_bind_error {α β : Type} (e : PyErr) (f : α → Py β) : ((Except.error e : Py α) >>= f) = .error e := rfl

namespace RTD

theorem both_ok {β : Type} {p q : Py (List β)} {a b : List β} (hp : p = .ok a) (hq : q = .ok b) :
    both p q = .ok (a ++ b) := by
  unfold both; rw [hp, hq]; rfl

section
variable {v : View} {la : Lab} (h : VOk v la)
include h

theorem upper_ok {c b : Nat} (hb : b ∈ v.row c) (f : List Nat → List Call) (hf : f [] = []) :
    upper v c f = .ok (f (v.row (c + 1))) := by
  have hcl := h.row_lt hb
  unfold upper
  split
  · rw [h.states_succ hcl]; rfl
  · rename_i hn
    have : c + 1 = v.ncharge := by simp only [ne_eq, not_not] at hn; omega
    rw [this, h.last _ le_rfl, hf]; rfl

theorem lower_ok {c b : Nat} (hb : b ∈ v.row c) (f : List Nat → List Call) (hf : f [] = []) :
    lower v c f = .ok (f (v.low c)) := by
  have hcl := h.row_lt hb
  unfold lower
  split
  · rw [h.states_pred (by omega)]; rfl
  · rename_i hn
    have : c = 0 := by simp only [ne_eq, not_not] at hn; omega
    subst this
    simp [View.low, hf]

end

/-- One of the two parts. -/
def pr (n : Name) (w : ℝ × ℝ) : ℝ := match n with
  | .ReWdn | .ReWnd => w.1
  | .ImWdn | .ImWnd => w.2
  | _ => 0

/-- The contributions of the two kinds compensate each other. -/
theorem trans_stay (s : In) (n : Name) (t : ℂ) (E1 E2 sg : ℝ) (l : Nat) :
    pr n (trans s t E1 E2 sg l) + (pr n (stay s t E2 sg 1 l) + pr n (stay s t E1 sg (-1) l)) = 0 := by
  cases n <;> simp only [pr, trans, stay, deltaPhi] <;> ring

section
variable {s : In} {la : Lab} (h : VOk s.v la)
include h

theorem offPos_diag {q a : Nat} (ha : a ∈ s.v.row q) : offPos s.v a a (q : Int) = .ok (la.lab q a a : Nat) := by
  unfold offPos
  rw [ind0_diag h ha]
  simp

/-- A call for a diagonal element adds to one column only. -/
theorem elem_col {sh : Shape} {n : Name} (hn : n = .ReWdn ∨ n = .ImWdn) {k : Nat}
    (hsh : sh n = (s.v.nleads, s.v.npauli, k)) (l j a1 b1 : Nat) (charge : Int) :
    ∃ d : ℝ, ∀ (w : ℝ × ℝ) (l' a2 q : Nat), l' < s.v.nleads → a2 ∈ s.v.row q →
      ((pair w.1 w.2 l' a2 a2 (q : Int) a1 b1 charge .ReWdn .ImWdn).map (colOf s.v sh n l j)).sum =
        if l' = l then d * pr n w else 0 := by
  have key : ∃ d : ℝ, ∀ (x : ℝ) (l' a2 q : Nat), l' < s.v.nleads → a2 ∈ s.v.row q →
      colOf s.v sh n l j (.elem x l' a2 a2 (q : Int) a1 b1 charge n) = if l' = l then d * x else 0 := by
    rcases hp : offPos s.v a1 b1 charge with e | p
    · refine ⟨0, fun x l' a2 q hl ha => ?_⟩
      unfold colOf evsD
      simp only [evs]
      rw [offPos_diag h ha, hp]
      simp [py_bind_error]
    · rcases hc : pyIdx k p with e | c
      · refine ⟨0, fun x l' a2 q hl ha => ?_⟩
        unfold colOf evsD
        simp only [evs]
        rw [offPos_diag h ha, hp]
        simp only [py_bind_ok]
        unfold resolve
        rw [hsh, hc, pyIdx_nat hl, pyIdx_nat (h.lab_diag q a2 ha)]
        simp [py_bind_error]
      · refine ⟨if c = j then 1 else 0, fun x l' a2 q hl ha => ?_⟩
        unfold colOf evsD
        simp only [evs]
        rw [offPos_diag h ha, hp]
        simp only [py_bind_ok]
        unfold resolve
        rw [hsh, hc, pyIdx_nat hl, pyIdx_nat (h.lab_diag q a2 ha)]
        simp only [py_bind_ok, py_pure, List.map_cons, List.map_nil, List.sum_cons, List.sum_nil, Ev.col, true_and]
        by_cases h1 : l' = l <;> by_cases h2 : c = j <;> simp [h1, h2]
  obtain ⟨d, hd⟩ := key
  refine ⟨d, fun w l' a2 q hl ha => ?_⟩
  rcases hn with rfl | rfl
  · simp only [pair, List.map_cons, List.map_nil, List.sum_cons, List.sum_nil, hd w.1 l' a2 q hl ha]
    rw [colOf_name (by simp [Call.name])]
    simp [pr]
  · simp only [pair, List.map_cons, List.map_nil, List.sum_cons, List.sum_nil, hd w.2 l' a2 q hl ha]
    rw [colOf_name (by simp [Call.name])]
    simp [pr]

omit h in
/-- The sum over the leads of groups of calls. -/
theorem sum_leads' {n l : Nat} (hl : l < n) (f : Nat → List Call) (g : Call → ℝ) (x : ℝ)
    (hx : ((f l).map g).sum = x) (hz : ∀ k < n, k ≠ l → ((f k).map g).sum = 0) :
    (((List.range n).flatMap f).map g).sum = x := by
  rw [sum_flatMap', sum_single List.nodup_range (x := l) (by simpa using hl)]
  · exact hx
  · intro y hy hne
    exact hz y (List.mem_range.1 hy) hne

omit h in
theorem sum_app {P Q : List Call} {g : Call → ℝ} {x y : ℝ} (hP : (P.map g).sum = x) (hQ : (Q.map g).sum = y) :
    ((P ++ Q).map g).sum = x + y := by
  rw [List.map_append, List.sum_append, hP, hQ]

/-- `generate_col_nondiag_kern_1st_order_dn` changes the sum of no column. -/
theorem colDn_col {sh : Shape} {n : Name} (hn : n = .ReWdn ∨ n = .ImWdn) {k : Nat}
    (hsh : sh n = (s.v.nleads, s.v.npauli, k)) {l : Nat} (hl : l < s.v.nleads) (j : Nat) {c a1 b1 : Nat}
    (ha : a1 ∈ s.v.row c) (hb : b1 ∈ s.v.row c) {ks : List Call} (hk : colDn s a1 b1 c = .ok ks) :
    (ks.map (colOf s.v sh n l j)).sum = 0 := by
  have hcl := h.row_lt hb
  obtain ⟨d, hd⟩ := elem_col h hn hsh l j a1 b1 (c : Int)
  have lead : ∀ (F : Nat → ℝ × ℝ) (a2 q : Nat), a2 ∈ s.v.row q →
      (((List.range s.v.nleads).flatMap fun l' =>
        pair (F l').1 (F l').2 l' a2 a2 (q : Int) a1 b1 c .ReWdn .ImWdn).map (colOf s.v sh n l j)).sum
        = d * pr n (F l) := by
    intro F a2 q h2
    apply sum_leads' hl
    · rw [hd _ _ _ _ hl h2, if_pos rfl]
    · intro l' hl' hne
      rw [hd _ _ _ _ hl' h2, if_neg hne]
  unfold colDn at hk
  rw [both_ok (both_ok (upper_ok h hb _ (by simp)) (lower_ok h hb _ (by simp)))
    (b := (s.v.row c).flatMap fun a2 => _ ++ _)] at hk
  rotate_left
  · rw [h.states (by omega)]
    simp only [py_bind_ok]
    apply collect_ok
    intro a2 h2
    exact both_ok (upper_ok h hb _ (by simp)) (lower_ok h hb _ (by simp))
  simp only [Except.ok.injEq] at hk
  subst hk
  rw [List.map_append, List.sum_append, List.map_append, List.sum_append]
  rw [sum_flatMap', sum_flatMap', sum_flatMap']
  have e1 : ((s.v.row (c + 1)).map fun a2 => (((List.range s.v.nleads).flatMap fun l' =>
        pair (trans s (s.L.Tba l' a2 a1 * conj (s.L.Tba l' a2 b1)) (s.E a2 - s.E a1) (s.E a2 - s.E b1) 1 l').1
          (trans s (s.L.Tba l' a2 a1 * conj (s.L.Tba l' a2 b1)) (s.E a2 - s.E a1) (s.E a2 - s.E b1) 1 l').2
          l' a2 a2 ((c : Int) + 1) a1 b1 c .ReWdn .ImWdn).map (colOf s.v sh n l j)).sum).sum
      = ((s.v.row (c + 1)).map fun a2 => d * pr n
        (trans s (s.L.Tba l a2 a1 * conj (s.L.Tba l a2 b1)) (s.E a2 - s.E a1) (s.E a2 - s.E b1) 1 l)).sum := by
    congr 1
    apply List.map_congr_left
    intro a2 h2
    rw [show ((c : Int) + 1) = ((c + 1 : Nat) : Int) by omega]
    exact lead (fun l' => trans s (s.L.Tba l' a2 a1 * conj (s.L.Tba l' a2 b1)) (s.E a2 - s.E a1)
      (s.E a2 - s.E b1) 1 l') a2 (c + 1) h2
  have e2 : ((s.v.low c).map fun a2 => (((List.range s.v.nleads).flatMap fun l' =>
        pair (trans s (s.L.Tba l' b1 a2 * conj (s.L.Tba l' a1 a2)) (s.E b1 - s.E a2) (s.E a1 - s.E a2) (-1) l').1
          (trans s (s.L.Tba l' b1 a2 * conj (s.L.Tba l' a1 a2)) (s.E b1 - s.E a2) (s.E a1 - s.E a2) (-1) l').2
          l' a2 a2 ((c : Int) - 1) a1 b1 c .ReWdn .ImWdn).map (colOf s.v sh n l j)).sum).sum
      = ((s.v.low c).map fun a2 => d * pr n
        (trans s (s.L.Tba l b1 a2 * conj (s.L.Tba l a1 a2)) (s.E b1 - s.E a2) (s.E a1 - s.E a2) (-1) l)).sum := by
    congr 1
    apply List.map_congr_left
    intro a2 h2
    obtain ⟨h0, h2', e⟩ := h.low_mem h2
    rw [e]
    exact lead (fun l' => trans s (s.L.Tba l' b1 a2 * conj (s.L.Tba l' a1 a2)) (s.E b1 - s.E a2)
      (s.E a1 - s.E a2) (-1) l') a2 (c - 1) h2'
  rw [e1, e2]
  -- the charge-conserving part
  have stepF : ∀ (P : Prop) [Decidable P] (F : Nat → ℝ × ℝ) (a2 : Nat), a2 ∈ s.v.row c →
      ((if P then (List.range s.v.nleads).flatMap fun l' =>
        pair (F l').1 (F l').2 l' a2 a2 (c : Int) a1 b1 c .ReWdn .ImWdn else []).map (colOf s.v sh n l j)).sum
        = if P then d * pr n (F l) else 0 := by
    intro P _ F a2 h2
    split
    · exact lead F a2 c h2
    · rfl
  have e3 : ∀ a2 ∈ s.v.row c, (((s.v.row (c + 1)).flatMap fun x =>
          (if b1 = a2 then (List.range s.v.nleads).flatMap fun l' =>
            pair (stay s (s.L.Tba l' x a1 * conj (s.L.Tba l' x a2)) (s.E x - s.E a2) 1 1 l').1
              (stay s (s.L.Tba l' x a1 * conj (s.L.Tba l' x a2)) (s.E x - s.E a2) 1 1 l').2
              l' a2 a2 (c : Int) a1 b1 c .ReWdn .ImWdn else []) ++
          (if a1 = a2 then (List.range s.v.nleads).flatMap fun l' =>
            pair (stay s (s.L.Tba l' x a2 * conj (s.L.Tba l' x b1)) (s.E x - s.E a2) 1 (-1) l').1
              (stay s (s.L.Tba l' x a2 * conj (s.L.Tba l' x b1)) (s.E x - s.E a2) 1 (-1) l').2
              l' a2 a2 (c : Int) a1 b1 c .ReWdn .ImWdn else [])).map (colOf s.v sh n l j)).sum
      = ((s.v.row (c + 1)).map fun x =>
          (if b1 = a2 then d * pr n (stay s (s.L.Tba l x a1 * conj (s.L.Tba l x a2)) (s.E x - s.E a2) 1 1 l) else 0) +
          (if a1 = a2 then d * pr n (stay s (s.L.Tba l x a2 * conj (s.L.Tba l x b1)) (s.E x - s.E a2) 1 (-1) l)
            else 0)).sum := by
    intro a2 h2
    rw [sum_flatMap']
    congr 1
    apply List.map_congr_left
    intro x _
    rw [List.map_append, List.sum_append]
    congr 1
    · exact stepF (b1 = a2)
        (fun l' => stay s (s.L.Tba l' x a1 * conj (s.L.Tba l' x a2)) (s.E x - s.E a2) 1 1 l') a2 h2
    · exact stepF (a1 = a2)
        (fun l' => stay s (s.L.Tba l' x a2 * conj (s.L.Tba l' x b1)) (s.E x - s.E a2) 1 (-1) l') a2 h2
  have e4 : ∀ a2 ∈ s.v.row c, (((s.v.low c).flatMap fun x =>
          (if b1 = a2 then (List.range s.v.nleads).flatMap fun l' =>
            pair (stay s (s.L.Tba l' a2 x * conj (s.L.Tba l' a1 x)) (s.E a2 - s.E x) (-1) (-1) l').1
              (stay s (s.L.Tba l' a2 x * conj (s.L.Tba l' a1 x)) (s.E a2 - s.E x) (-1) (-1) l').2
              l' a2 a2 (c : Int) a1 b1 c .ReWdn .ImWdn else []) ++
          (if a1 = a2 then (List.range s.v.nleads).flatMap fun l' =>
            pair (stay s (s.L.Tba l' b1 x * conj (s.L.Tba l' a2 x)) (s.E a2 - s.E x) (-1) 1 l').1
              (stay s (s.L.Tba l' b1 x * conj (s.L.Tba l' a2 x)) (s.E a2 - s.E x) (-1) 1 l').2
              l' a2 a2 (c : Int) a1 b1 c .ReWdn .ImWdn else [])).map (colOf s.v sh n l j)).sum
      = ((s.v.low c).map fun x =>
          (if b1 = a2 then d * pr n (stay s (s.L.Tba l a2 x * conj (s.L.Tba l a1 x)) (s.E a2 - s.E x) (-1) (-1) l)
            else 0) +
          (if a1 = a2 then d * pr n (stay s (s.L.Tba l b1 x * conj (s.L.Tba l a2 x)) (s.E a2 - s.E x) (-1) 1 l)
            else 0)).sum := by
    intro a2 h2
    rw [sum_flatMap']
    congr 1
    apply List.map_congr_left
    intro x _
    rw [List.map_append, List.sum_append]
    congr 1
    · exact stepF (b1 = a2)
        (fun l' => stay s (s.L.Tba l' a2 x * conj (s.L.Tba l' a1 x)) (s.E a2 - s.E x) (-1) (-1) l') a2 h2
    · exact stepF (a1 = a2)
        (fun l' => stay s (s.L.Tba l' b1 x * conj (s.L.Tba l' a2 x)) (s.E a2 - s.E x) (-1) 1 l') a2 h2
  rw [List.map_congr_left (fun a2 h2 => sum_app (e3 a2 h2) (e4 a2 h2))]
  -- turn the sums over lists into sums over sets
  simp only [← List.sum_toFinset _ (h.nodup (c + 1)), ← List.sum_toFinset _ (h.low_nodup c),
    ← List.sum_toFinset _ (h.nodup c)]
  have ha' : a1 ∈ (s.v.row c).toFinset := List.mem_toFinset.2 ha
  have hb' : b1 ∈ (s.v.row c).toFinset := List.mem_toFinset.2 hb
  simp only [sum_add_distrib]
  rw [sum_comm (s := (s.v.row c).toFinset) (t := (s.v.row (c + 1)).toFinset),
    sum_comm (s := (s.v.row c).toFinset) (t := (s.v.row (c + 1)).toFinset),
    sum_comm (s := (s.v.row c).toFinset) (t := (s.v.low c).toFinset),
    sum_comm (s := (s.v.row c).toFinset) (t := (s.v.low c).toFinset)]
  simp only [sum_ite_eq, ha', hb', if_true]
  have f1 := fun x => trans_stay s n (s.L.Tba l x a1 * conj (s.L.Tba l x b1)) (s.E x - s.E a1) (s.E x - s.E b1) 1 l
  have f2 := fun x => trans_stay s n (s.L.Tba l b1 x * conj (s.L.Tba l a1 x)) (s.E b1 - s.E x) (s.E a1 - s.E x) (-1) l
  have g1 : ∑ x ∈ (s.v.row (c + 1)).toFinset, d * pr n
        (trans s (s.L.Tba l x a1 * conj (s.L.Tba l x b1)) (s.E x - s.E a1) (s.E x - s.E b1) 1 l) +
      (∑ x ∈ (s.v.row (c + 1)).toFinset, d * pr n
        (stay s (s.L.Tba l x a1 * conj (s.L.Tba l x b1)) (s.E x - s.E b1) 1 1 l) +
      ∑ x ∈ (s.v.row (c + 1)).toFinset, d * pr n
        (stay s (s.L.Tba l x a1 * conj (s.L.Tba l x b1)) (s.E x - s.E a1) 1 (-1) l)) = 0 := by
    rw [← sum_add_distrib, ← sum_add_distrib]
    refine sum_eq_zero fun x _ => ?_
    linear_combination d * f1 x
  have g2 : ∑ x ∈ (s.v.low c).toFinset, d * pr n
        (trans s (s.L.Tba l b1 x * conj (s.L.Tba l a1 x)) (s.E b1 - s.E x) (s.E a1 - s.E x) (-1) l) +
      (∑ x ∈ (s.v.low c).toFinset, d * pr n
        (stay s (s.L.Tba l b1 x * conj (s.L.Tba l a1 x)) (s.E b1 - s.E x) (-1) (-1) l) +
      ∑ x ∈ (s.v.low c).toFinset, d * pr n
        (stay s (s.L.Tba l b1 x * conj (s.L.Tba l a1 x)) (s.E a1 - s.E x) (-1) 1 l)) = 0 := by
    rw [← sum_add_distrib, ← sum_add_distrib]
    refine sum_eq_zero fun x _ => ?_
    linear_combination d * f2 x
  linarith

end

end RTD

end

end Verif
