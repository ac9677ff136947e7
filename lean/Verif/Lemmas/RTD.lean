import Verif.Lemmas.Pauli
import Verif.Model.RTD

/-! Closed forms for the RTD approach: what a list of calls adds to the matrices, and the lists of calls. -/

namespace Verif

open Finset
open scoped ComplexConjugate

noncomputable section

theorem collect_inv {α β : Type} {l : List α} {f : α → Py (List β)} {r : List β}
    (h : collect l f = .ok r) : ∃ g : α → List β, (∀ x ∈ l, f x = .ok (g x)) ∧ r = l.flatMap g := by
  classical
  have key : ∀ (l : List α) (acc r : List β),
      l.foldlM (fun acc x => do let r ← f x; pure (acc ++ r)) acc = (.ok r : Py (List β)) →
      (∀ x ∈ l, ∃ y, f x = .ok y) := by
    intro l
    induction l with
    | nil => simp
    | cons a l ih =>
      intro acc r h
      rw [List.foldlM_cons] at h
      rcases ha : f a with e | y
      · rw [ha] at h
        exact absurd (show (Except.error e : Py (List β)) = .ok r from h) (by simp)
      · rw [ha] at h
        intro x hx
        rcases List.mem_cons.1 hx with rfl | hx
        · exact ⟨y, ha⟩
        · exact ih (acc ++ y) r h x hx
  have h1 := key l [] r h
  let g : α → List β := fun x => if hx : ∃ y, f x = .ok y then hx.choose else []
  have hg : ∀ x ∈ l, f x = .ok (g x) := by
    intro x hx
    have := h1 x hx
    simp only [g, dif_pos this]
    exact this.choose_spec
  refine ⟨g, hg, ?_⟩
  have := (collect_ok hg).symm.trans h
  simpa using this.symm

theorem bind_ok_inv {α β : Type} {x : Py α} {f : α → Py β} {r : β} (h : (x >>= f) = .ok r) :
    ∃ a, x = .ok a ∧ f a = .ok r := by
  rcases x with e | a
  · exact absurd (show (Except.error e : Py β) = .ok r from h) (by simp)
  · exact ⟨a, rfl, h⟩

namespace RTD

/-! ### Additions to the matrices -/

/-- An addition to one entry of one matrix. -/
structure Ev where
  n : Name
  l : Nat
  r : Nat
  c : Nat
  x : ℝ

/-- What the addition contributes to an entry. -/
def Ev.at (e : Ev) (n : Name) (l r c : Nat) : ℝ := if e.n = n ∧ e.l = l ∧ e.r = r ∧ e.c = c then e.x else 0

/-- What the addition contributes to the sum of a column. -/
def Ev.col (e : Ev) (n : Name) (l c : Nat) : ℝ := if e.n = n ∧ e.l = l ∧ e.c = c then e.x else 0

/-- The shapes of the matrices. -/
abbrev Shape := Name → Nat × Nat × Nat

/-- The addition `mats[n][l, i, j] += x`. -/
def resolve (sh : Shape) (n : Name) (l : Nat) (i j : Int) (x : ℝ) : Py Ev := do
  let k ← pyIdx (sh n).1 l
  let r ← pyIdx (sh n).2.1 i
  let c ← pyIdx (sh n).2.2 j
  pure ⟨n, k, r, c, x⟩

/-- The additions made by a call. -/
def evs (v : View) (sh : Shape) : Call → Py (List Ev)
  | .dd l fm fp bb aa mi => do
    let e1 ← resolve sh mi l bb bb fm
    let e2 ← resolve sh mi l bb aa fp
    pure [e1, e2]
  | .two r fct indx0 indx1 a3 charge3 a4 charge4 => do
    let indx3 ← v.ind0 a3 a3 charge3
    let indx4 ← v.ind0 a4 a4 charge4
    let e1 ← resolve sh .Wdd r indx4 indx0 (2 * fct)
    let e2 ← resolve sh .Wdd r indx3 indx0 (-(2 * fct))
    let e3 ← resolve sh .Wdd r indx4 indx1 (2 * fct)
    let e4 ← resolve sh .Wdd r indx3 indx1 (-(2 * fct))
    pure [e1, e2, e3, e4]
  | .elem fct l b bp bcharge a ap acharge mi => do
    let i ← offPos v b bp bcharge
    let j ← offPos v a ap acharge
    let e1 ← resolve sh mi l i j fct
    pure [e1]
  | .lnn _ _ _ _ => pure []
  | .imGamma => pure []

/-- The shapes of the matrices at hand. -/
def Mats.sh (m : Mats) : Shape := fun n => ((m.ten n).leads, (m.ten n).rows, (m.ten n).cols)

/-- `m'` is `m` with the additions `es` made. -/
structure Made (m m' : Mats) (es : List Ev) : Prop where
  sh : m'.sh = m.sh
  val : ∀ n l r c, (m'.ten n).val l r c = (m.ten n).val l r c + (es.map fun e => e.at n l r c).sum
  bound : ∀ e ∈ es, e.l < (m.ten e.n).leads ∧ e.r < (m.ten e.n).rows ∧ e.c < (m.ten e.n).cols

theorem Made.refl (m : Mats) : Made m m [] := ⟨rfl, by simp, by simp⟩

theorem sh_lead {m m' : Mats} (h : m'.sh = m.sh) (n : Name) :
    (m'.ten n).leads = (m.ten n).leads ∧ (m'.ten n).rows = (m.ten n).rows ∧ (m'.ten n).cols = (m.ten n).cols := by
  have := congrFun h n
  simp only [Mats.sh, Prod.mk.injEq] at this
  exact this

theorem Made.trans {m m' m'' : Mats} {es es' : List Ev} (h : Made m m' es) (h' : Made m' m'' es') :
    Made m m'' (es ++ es') := by
  refine ⟨h'.sh.trans h.sh, ?_, ?_⟩
  · intro n l r c
    rw [h'.val, h.val, List.map_append, List.sum_append]; ring
  · intro e he
    rcases List.mem_append.1 he with he | he
    · exact h.bound e he
    · have := h'.bound e he
      obtain ⟨a, b, c⟩ := sh_lead h.sh e.n
      omega

theorem add_made {m m' : Mats} {n : Name} {l : Nat} {i j : Int} {x : ℝ} (h : m.add n l i j x = .ok m') :
    ∃ e, resolve m.sh n l i j x = .ok e ∧ Made m m' [e] ∧ m'.Lnn = m.Lnn := by
  unfold Mats.add Ten.add at h
  obtain ⟨t, ht, h⟩ := bind_ok_inv h
  obtain ⟨k, hk, ht⟩ := bind_ok_inv ht
  obtain ⟨r, hr, ht⟩ := bind_ok_inv ht
  obtain ⟨c, hc, ht⟩ := bind_ok_inv ht
  simp only [py_pure, Except.ok.injEq] at ht h
  refine ⟨⟨n, k, r, c, x⟩, ?_, ?_, ?_⟩
  · unfold resolve
    simp only [Mats.sh]
    rw [hk, hr, hc]; rfl
  · subst h ht
    refine ⟨?_, ?_, ?_⟩
    · funext n'
      simp only [Mats.sh]
      split
      · rename_i e; subst e; rfl
      · rfl
    · intro n' l' r' c'
      simp only [List.map_cons, List.map_nil, List.sum_cons, List.sum_nil, add_zero, Ev.at]
      by_cases hn : n' = n
      · subst hn
        simp only [if_true, true_and]
        by_cases hh : l' = k ∧ r' = r ∧ c' = c
        · obtain ⟨rfl, rfl, rfl⟩ := hh; simp
        · rw [if_neg hh, if_neg (by rintro ⟨rfl, rfl, rfl⟩; exact hh ⟨rfl, rfl, rfl⟩)]; simp
      · rw [if_neg hn, if_neg (by rintro ⟨e, _⟩; exact hn e.symm)]; simp
    · simp only [List.mem_singleton]
      rintro e rfl
      exact ⟨pyIdx_ok_lt hk, pyIdx_ok_lt hr, pyIdx_ok_lt hc⟩
  · subst h; rfl

theorem add_of_resolve {m : Mats} {n : Name} {l : Nat} {i j : Int} {x : ℝ} {e : Ev}
    (h : resolve m.sh n l i j x = .ok e) : ∃ m', m.add n l i j x = .ok m' := by
  unfold resolve at h
  obtain ⟨k, hk, h⟩ := bind_ok_inv h
  obtain ⟨r, hr, h⟩ := bind_ok_inv h
  obtain ⟨c, hc, h⟩ := bind_ok_inv h
  simp only [Mats.sh] at hk hr hc
  unfold Mats.add Ten.add
  rw [hk, hr, hc]
  exact ⟨_, rfl⟩

/-- The calls within the bounds of `Lnn`. -/
def LnnOk (v : View) (n : Nat) : Call → Prop
  | .lnn a1 b1 charge _ => ∃ i k, v.ind0 a1 b1 charge = .ok i ∧
      pyIdx n (if a1 > b1 then i - v.npauli + (v.ndm0 - v.npauli : Int) else i - v.npauli) = .ok k
  | _ => True

theorem call_made {v : View} {s s' : Acc} {k : Call} (h : call v s k = .ok s') :
    ∃ es, evs v s.mats.sh k = .ok es ∧ Made s.mats s'.mats es := by
  cases k with
  | dd l fm fp bb aa mi =>
    simp only [call] at h
    obtain ⟨m1, h1, h⟩ := bind_ok_inv h
    obtain ⟨m2, h2, h⟩ := bind_ok_inv h
    simp only [py_pure, Except.ok.injEq] at h
    subst h
    obtain ⟨e1, g1, d1, _⟩ := add_made h1
    obtain ⟨e2, g2, d2, _⟩ := add_made h2
    rw [d1.sh] at g2
    refine ⟨[e1, e2], ?_, d1.trans d2⟩
    simp only [evs]
    rw [g1, g2]; rfl
  | two r fct i0 i1 a3 q3 a4 q4 =>
    simp only [call] at h
    obtain ⟨i3, h3, h⟩ := bind_ok_inv h
    obtain ⟨i4, h4, h⟩ := bind_ok_inv h
    obtain ⟨m1, k1, h⟩ := bind_ok_inv h
    obtain ⟨m2, k2, h⟩ := bind_ok_inv h
    obtain ⟨m3, k3, h⟩ := bind_ok_inv h
    obtain ⟨m4, k4, h⟩ := bind_ok_inv h
    simp only [py_pure, Except.ok.injEq] at h
    subst h
    obtain ⟨e1, g1, d1, _⟩ := add_made k1
    obtain ⟨e2, g2, d2, _⟩ := add_made k2
    obtain ⟨e3, g3, d3, _⟩ := add_made k3
    obtain ⟨e4, g4, d4, _⟩ := add_made k4
    rw [d3.sh, d2.sh, d1.sh] at g4
    rw [d2.sh, d1.sh] at g3
    rw [d1.sh] at g2
    refine ⟨[e1, e2, e3, e4], ?_, ((d1.trans d2).trans d3).trans d4⟩
    simp only [evs]
    rw [h3, h4]
    simp only [py_bind_ok]
    rw [g1, g2, g3, g4]; rfl
  | elem fct l b bp q a ap q' mi =>
    simp only [call] at h
    obtain ⟨i, h1, h⟩ := bind_ok_inv h
    obtain ⟨j, h2, h⟩ := bind_ok_inv h
    obtain ⟨m1, k1, h⟩ := bind_ok_inv h
    simp only [py_pure, Except.ok.injEq] at h
    subst h
    obtain ⟨e1, g1, d1, _⟩ := add_made k1
    refine ⟨[e1], ?_, d1⟩
    simp only [evs]
    rw [h1, h2]
    simp only [py_bind_ok]
    rw [g1]; rfl
  | lnn a1 b1 q fct =>
    simp only [call] at h
    obtain ⟨i, h1, h⟩ := bind_ok_inv h
    obtain ⟨t, h2, h⟩ := bind_ok_inv h
    simp only [py_pure, Except.ok.injEq] at h
    subst h
    exact ⟨[], rfl, ⟨rfl, by simp, by simp⟩⟩
  | imGamma =>
    simp only [call, py_pure, Except.ok.injEq] at h
    subst h
    exact ⟨[], rfl, Made.refl _⟩

/-- The additions made by a call, none if it fails. -/
def evsD (v : View) (sh : Shape) (k : Call) : List Ev :=
  match evs v sh k with
  | .ok es => es
  | .error _ => []

/-- The matrices after a list of calls. -/
theorem run_made {v : View} {s s' : Acc} {ks : List Call} (h : run v s ks = .ok s') :
    Made s.mats s'.mats (ks.flatMap (evsD v s.mats.sh)) := by
  induction ks generalizing s with
  | nil =>
    simp only [run, List.foldlM_nil, py_pure, Except.ok.injEq] at h
    subst h; exact Made.refl _
  | cons k ks ih =>
    unfold run at h
    rw [List.foldlM_cons] at h
    obtain ⟨s1, h1, h⟩ := bind_ok_inv h
    obtain ⟨es, g, d⟩ := call_made h1
    have d' := ih h
    rw [d.sh] at d'
    have : evsD v s.mats.sh k = es := by simp [evsD, g]
    rw [List.flatMap_cons, this]
    exact d.trans d'

/-! ### Sums of columns -/

/-- The sum of a column. -/
def Mats.colSum (m : Mats) (n : Name) (l c : Nat) : ℝ := ∑ r ∈ range (m.ten n).rows, (m.ten n).val l r c

theorem Made.colSum {m m' : Mats} {es : List Ev} (h : Made m m' es) (n : Name) (l c : Nat) :
    m'.colSum n l c = m.colSum n l c + (es.map fun e => e.col n l c).sum := by
  unfold Mats.colSum
  rw [(sh_lead h.sh n).2.1]
  simp only [h.val, sum_add_distrib]
  congr 1
  have hb := h.bound
  clear h
  induction es with
  | nil => simp
  | cons e es ih =>
    simp only [List.map_cons, List.sum_cons, sum_add_distrib]
    rw [ih (fun e he => hb e (by simp [he]))]
    congr 1
    have := (hb e (by simp)).2.1
    simp only [Ev.at, Ev.col]
    by_cases hc : e.n = n ∧ e.l = l ∧ e.c = c
    · obtain ⟨rfl, rfl, rfl⟩ := hc
      simp [this]
    · rw [if_neg hc]
      apply sum_eq_zero
      intro r _
      rw [if_neg]
      rintro ⟨a, b, _, d⟩
      exact hc ⟨a, b, d⟩

/-- What a call contributes to the sum of a column. -/
def colOf (v : View) (sh : Shape) (n : Name) (l c : Nat) (k : Call) : ℝ :=
  ((evsD v sh k).map fun e => e.col n l c).sum

theorem run_colSum {v : View} {s s' : Acc} {ks : List Call} (h : run v s ks = .ok s') (n : Name) (l c : Nat) :
    s'.mats.colSum n l c = s.mats.colSum n l c + (ks.map (colOf v s.mats.sh n l c)).sum := by
  rw [(run_made h).colSum, sum_flatMap']
  rfl

theorem resolve_inv {sh : Shape} {n : Name} {l : Nat} {i j : Int} {x : ℝ} {e : Ev}
    (h : resolve sh n l i j x = .ok e) : e.n = n ∧ e.l = l ∧ l < (sh n).1 ∧ pyIdx (sh n).2.1 i = .ok e.r ∧
      pyIdx (sh n).2.2 j = .ok e.c ∧ e.x = x := by
  unfold resolve at h
  obtain ⟨k, hk, h⟩ := bind_ok_inv h
  obtain ⟨r, hr, h⟩ := bind_ok_inv h
  obtain ⟨c, hc, h⟩ := bind_ok_inv h
  simp only [py_pure, Except.ok.injEq] at h
  have hl : l < (sh n).1 := by
    by_contra hl
    rw [pyIdx_nat_err (by omega)] at hk
    simp at hk
  rw [pyIdx_nat hl] at hk
  simp only [Except.ok.injEq] at hk
  subst h hk
  exact ⟨rfl, rfl, hl, hr, hc, rfl⟩

theorem resolve_ok {sh : Shape} {n : Name} {l r c : Nat} {x : ℝ} (hl : l < (sh n).1) (hr : r < (sh n).2.1)
    (hc : c < (sh n).2.2) : resolve sh n l r c x = .ok ⟨n, l, r, c, x⟩ := by
  unfold resolve
  rw [pyIdx_nat hl, pyIdx_nat hr, pyIdx_nat hc]; rfl

/-- A second-order call does not change the sum of any column. -/
theorem colOf_two (v : View) (sh : Shape) (n : Name) (l c r : Nat) (f : ℝ) (i0 i1 : Int) (a3 : Nat) (q3 : Int)
    (a4 : Nat) (q4 : Int) : colOf v sh n l c (.two r f i0 i1 a3 q3 a4 q4) = 0 := by
  unfold colOf evsD
  rcases h : evs v sh (.two r f i0 i1 a3 q3 a4 q4) with e | es
  · simp
  · simp only [evs] at h
    obtain ⟨i3, h3, h⟩ := bind_ok_inv h
    obtain ⟨i4, h4, h⟩ := bind_ok_inv h
    obtain ⟨e1, k1, h⟩ := bind_ok_inv h
    obtain ⟨e2, k2, h⟩ := bind_ok_inv h
    obtain ⟨e3, k3, h⟩ := bind_ok_inv h
    obtain ⟨e4, k4, h⟩ := bind_ok_inv h
    simp only [py_pure, Except.ok.injEq] at h
    subst h
    obtain ⟨n1, l1, _, _, c1, x1⟩ := resolve_inv k1
    obtain ⟨n2, l2, _, _, c2, x2⟩ := resolve_inv k2
    obtain ⟨n3, l3, _, _, c3, x3⟩ := resolve_inv k3
    obtain ⟨n4, l4, _, _, c4, x4⟩ := resolve_inv k4
    have e12 : e1.c = e2.c := by rw [c1] at c2; simpa using c2
    have e34 : e3.c = e4.c := by rw [c3] at c4; simpa using c4
    simp only [List.map_cons, List.map_nil, List.sum_cons, List.sum_nil, Ev.col, n1, n2, n3, n4, l1, l2, l3, l4,
      e12, e34, x1, x2, x3, x4]
    split <;> split <;> ring

end RTD

end

end Verif
