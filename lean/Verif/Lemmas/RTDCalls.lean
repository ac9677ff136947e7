import Verif.Lemmas.RTD

/-! The calls made by the generators of the RTD approach. -/

namespace Verif

open Finset
open scoped ComplexConjugate

noncomputable section

theorem collect_forall {α β : Type} {l : List α} {f : α → Py (List β)} {r : List β} {P : β → Prop}
    (h : collect l f = .ok r) (hf : ∀ x ∈ l, ∀ y, f x = .ok y → ∀ k ∈ y, P k) : ∀ k ∈ r, P k := by
  obtain ⟨g, hg, rfl⟩ := collect_inv h
  intro k hk
  obtain ⟨x, hx, hk⟩ := List.mem_flatMap.1 hk
  exact hf x hx _ (hg x hx) k hk

namespace RTD

theorem both_forall {β : Type} {p q : Py (List β)} {r : List β} {P : β → Prop} (h : both p q = .ok r)
    (hp : ∀ y, p = .ok y → ∀ k ∈ y, P k) (hq : ∀ y, q = .ok y → ∀ k ∈ y, P k) : ∀ k ∈ r, P k := by
  unfold both at h
  obtain ⟨a, ha, h⟩ := bind_ok_inv h
  obtain ⟨b, hb, h⟩ := bind_ok_inv h
  simp only [py_pure, Except.ok.injEq] at h
  subst h
  intro k hk
  rcases List.mem_append.1 hk with hk | hk
  · exact hp a ha k hk
  · exact hq b hb k hk

/-! ### Second order -/

theorem maxT_cut3 (s : In) : 0 ≤ s.cut3 := by
  unfold In.cut3; positivity

/-- All integrals vanish. -/
def Lib.Zero (lib : Lib) : Prop :=
  (∀ p a b c d, lib.dEq p a b c d = 0) ∧ (∀ p a b c d, lib.xEq p a b c d = 0) ∧
    (∀ o p a b c d e f g x, lib.dOz o p a b c d e f g x = 0) ∧ ∀ o p a b c d e f g x, lib.xOz o p a b c d e f g x = 0

theorem integralD_zero {lib : Lib} (hz : lib.Zero) {poles : Option lib.Poles} {p1 eta1 : Int}
    {E1 E2 E3 T1 T2 mu1 mu2 D : ℝ} {im : Bool} {z : ℂ}
    (h : integralD lib poles p1 eta1 E1 E2 E3 T1 T2 mu1 mu2 D im = .ok z) : z = 0 := by
  unfold integralD at h
  split at h
  · simp only [py_pure, Except.ok.injEq] at h
    rw [← h, hz.1]; simp
  · split at h
    · simp at h
    · simp only [py_pure, Except.ok.injEq] at h
      rw [← h, hz.2.2.1]; simp

theorem integralX_zero {lib : Lib} (hz : lib.Zero) {poles : Option lib.Poles} {p1 eta1 : Int}
    {E1 E2 E3 T1 T2 mu1 mu2 D : ℝ} {im : Bool} {z : ℂ}
    (h : integralX lib poles p1 eta1 E1 E2 E3 T1 T2 mu1 mu2 D im = .ok z) : z = 0 := by
  unfold integralX at h
  split at h
  · simp only [py_pure, Except.ok.injEq] at h
    rw [← h, hz.2.1]; simp
  · split at h
    · simp at h
    · simp only [py_pure, Except.ok.injEq] at h
      rw [← h, hz.2.2.2]; simp

theorem addD_inv {s : In} {x : Vert} {t2 : ℂ} {p1 eta1 : Int} {E2 E3 : ℝ} {a3 : Nat} {q3 : Int} {a4 : Nat}
    {q4 : Int} {r : List Call} (h : addD s x t2 p1 eta1 E2 E3 a3 q3 a4 q4 = .ok r) :
    ∀ k ∈ r, t2 ≠ 0 ∧ ∃ f, k = .two x.r0 f x.indx0 x.indx1 a3 q3 a4 q4 ∧ (s.lib.Zero → f = 0) := by
  unfold addD at h
  split at h
  · rename_i ht
    obtain ⟨i, hi, h⟩ := bind_ok_inv h
    simp only [py_pure, Except.ok.injEq] at h
    subst h
    intro k hk
    simp only [List.mem_singleton] at hk
    refine ⟨?_, _, hk, fun hz => by rw [integralD_zero hz hi]; simp⟩
    rintro rfl
    have := maxT_cut3 s
    simp at ht
    linarith
  · simp only [py_pure, Except.ok.injEq] at h
    subst h; simp

theorem addX_inv {s : In} {x : Vert} {t2 : ℂ} {p1 eta1 : Int} {E2 E3 : ℝ} {a3 : Nat} {q3 : Int} {a4 : Nat}
    {q4 : Int} {r : List Call} (h : addX s x t2 p1 eta1 E2 E3 a3 q3 a4 q4 = .ok r) :
    ∀ k ∈ r, t2 ≠ 0 ∧ ∃ f, k = .two x.r1 f x.indx0 x.indx1 a3 q3 a4 q4 ∧ (s.lib.Zero → f = 0) := by
  unfold addX at h
  split at h
  · rename_i ht
    obtain ⟨i, hi, h⟩ := bind_ok_inv h
    simp only [py_pure, Except.ok.injEq] at h
    subst h
    intro k hk
    simp only [List.mem_singleton] at hk
    refine ⟨?_, _, hk, fun hz => by rw [integralX_zero hz hi]; simp⟩
    rintro rfl
    have := maxT_cut3 s
    simp at ht
    linarith
  · simp only [py_pure, Except.ok.injEq] at h
    subst h; simp

/-- A considered state of charge `q`. -/
def View.mem (v : View) (a : Nat) (q : Int) : Prop := ∃ l, v.states q = .ok l ∧ a ∈ l

/-- What is known about a second-order call made for the initial state `a0` of charge `q`. -/
def TwoOk (s : In) (a0 : Nat) (q : Int) (k : Call) : Prop :=
  ∃ r f i0 i1 a1 a3 q3 a4 q4, k = .two r f i0 i1 a3 q3 a4 q4 ∧ r < s.v.nleads ∧ (∃ x y, s.L.Tba r x y ≠ 0) ∧
    s.v.ind0 a0 a0 q = .ok i0 ∧ s.v.ind0 a1 a1 (q + 1) = .ok i1 ∧ View.mem s.v a1 (q + 1) ∧
    View.mem s.v a3 q3 ∧ View.mem s.v a4 q4 ∧ q - 1 ≤ q3 ∧ q3 ≤ q + 2 ∧ q - 1 ≤ q4 ∧ q4 ≤ q + 2 ∧
    (s.lib.Zero → f = 0)

/-- The circumstances in which the blocks are run. -/
structure VertOk (s : In) (x : Vert) (t : ℂ) (a0 a1 : Nat) (q : Int) : Prop where
  r0 : x.r0 < s.v.nleads
  r1 : x.r1 < s.v.nleads
  i0 : s.v.ind0 a0 a0 q = .ok x.indx0
  i1 : s.v.ind0 a1 a1 (q + 1) = .ok x.indx1
  m0 : View.mem s.v a0 q
  m1 : View.mem s.v a1 (q + 1)
  amp : t = s.L.Tba x.r0 a1 a0
  nz : t ≠ 0

theorem VertOk.d {s : In} {x : Vert} {t : ℂ} {a0 a1 : Nat} {q : Int} (h : VertOk s x t a0 a1 q) {a3 a4 : Nat}
    {q3 q4 : Int} (h3 : View.mem s.v a3 q3) (h4 : View.mem s.v a4 q4) (b3 : q - 1 ≤ q3 ∧ q3 ≤ q + 2)
    (b4 : q - 1 ≤ q4 ∧ q4 ≤ q + 2) {t2 : ℂ} {p1 eta1 : Int} {E2 E3 : ℝ} {y : List Call}
    (hy : addD s x t2 p1 eta1 E2 E3 a3 q3 a4 q4 = .ok y) : ∀ k ∈ y, TwoOk s a0 q k := by
  intro k hk
  obtain ⟨_, f, rfl, hz0⟩ := addD_inv hy k hk
  exact ⟨x.r0, f, x.indx0, x.indx1, a1, a3, q3, a4, q4, rfl, h.r0, ⟨a1, a0, by rw [← h.amp]; exact h.nz⟩, h.i0,
    h.i1, h.m1, h3, h4, b3.1, b3.2, b4.1, b4.2, hz0⟩

theorem VertOk.x {s : In} {x : Vert} {t : ℂ} {a0 a1 : Nat} {q : Int} (h : VertOk s x t a0 a1 q) {a3 a4 : Nat}
    {q3 q4 : Int} (h3 : View.mem s.v a3 q3) (h4 : View.mem s.v a4 q4) (b3 : q - 1 ≤ q3 ∧ q3 ≤ q + 2)
    (b4 : q - 1 ≤ q4 ∧ q4 ≤ q + 2) {t2 : ℂ} {p1 eta1 : Int} {E2 E3 : ℝ} {y : List Call}
    (hz : t2 ≠ 0 → ∃ u w, s.L.Tba x.r1 u w ≠ 0)
    (hy : addX s x t2 p1 eta1 E2 E3 a3 q3 a4 q4 = .ok y) : ∀ k ∈ y, TwoOk s a0 q k := by
  intro k hk
  obtain ⟨hn, f, rfl, hz0⟩ := addX_inv hy k hk
  exact ⟨x.r1, f, x.indx0, x.indx1, a1, a3, q3, a4, q4, rfl, h.r1, hz hn, h.i0,
    h.i1, h.m1, h3, h4, b3.1, b3.2, b4.1, b4.2, hz0⟩

theorem nz1 {t z w w' : ℂ} (h : t * z * w * w' ≠ 0) : z ≠ 0 := by rintro rfl; simp at h
theorem nz1' {t z w w' : ℂ} (h : t * conj z * w * w' ≠ 0) : z ≠ 0 := by rintro rfl; simp at h

theorem blockUp_ok {s : In} {x : Vert} {t : ℂ} {a0 a1 : Nat} {q : Int} (h : VertOk s x t a0 a1 q)
    {ks : List Call} (hk : blockUp s x t a0 a1 q = .ok ks) : ∀ k ∈ ks, TwoOk s a0 q k := by
  unfold blockUp at hk
  obtain ⟨l2, h2, hk⟩ := bind_ok_inv hk
  refine collect_forall hk ?_
  intro a2 ha2 y hy
  have m2 : View.mem s.v a2 (q + 2) := ⟨l2, h2, ha2⟩
  simp only at hy
  split at hy
  · simp only [py_pure, Except.ok.injEq] at hy
    subst hy; simp
  · refine both_forall hy ?_ ?_
    · intro y hy
      obtain ⟨l3, h3, hy⟩ := bind_ok_inv hy
      refine collect_forall hy ?_
      intro a3 ha3 y hy
      have m3 : View.mem s.v a3 (q + 1) := ⟨l3, h3, ha3⟩
      refine both_forall hy (fun y hy => ?_) (fun y hy => ?_)
      · exact h.d m3 h.m0 (by omega) (by omega) hy
      · exact h.x m3 h.m0 (by omega) (by omega) (fun hz => ⟨_, _, nz1 hz⟩) hy
    · intro y hy
      obtain ⟨l3, h3, hy⟩ := bind_ok_inv hy
      refine collect_forall hy ?_
      intro a3 ha3 y hy
      have m3 : View.mem s.v a3 (q + 1) := ⟨l3, h3, ha3⟩
      refine both_forall hy (fun y hy => ?_) (fun y hy => ?_)
      · exact h.d m2 m3 (by omega) (by omega) hy
      · exact h.x m2 m3 (by omega) (by omega) (fun hz => ⟨_, _, nz1 hz⟩) hy

theorem blockDown_ok {s : In} {x : Vert} {t : ℂ} {a0 a1 : Nat} {q : Int} (h : VertOk s x t a0 a1 q)
    {ks : List Call} (hk : blockDown s x t a0 a1 q = .ok ks) : ∀ k ∈ ks, TwoOk s a0 q k := by
  unfold blockDown at hk
  obtain ⟨l2, h2, hk⟩ := bind_ok_inv hk
  refine collect_forall hk ?_
  intro a2 ha2 y hy
  have m2 : View.mem s.v a2 (q - 1) := ⟨l2, h2, ha2⟩
  simp only at hy
  split at hy
  · simp only [py_pure, Except.ok.injEq] at hy
    subst hy; simp
  · refine both_forall hy ?_ ?_
    · intro y hy
      obtain ⟨l3, h3, hy⟩ := bind_ok_inv hy
      refine collect_forall hy ?_
      intro a3 ha3 y hy
      have m3 : View.mem s.v a3 q := ⟨l3, h3, ha3⟩
      refine both_forall hy (fun y hy => ?_) (fun y hy => ?_)
      · exact h.d m3 m2 (by omega) (by omega) hy
      · exact h.x m3 m2 (by omega) (by omega) (fun hz => ⟨_, _, nz1 hz⟩) hy
    · intro y hy
      obtain ⟨l3, h3, hy⟩ := bind_ok_inv hy
      refine collect_forall hy ?_
      intro a3 ha3 y hy
      have m3 : View.mem s.v a3 q := ⟨l3, h3, ha3⟩
      refine both_forall hy (fun y hy => ?_) (fun y hy => ?_)
      · exact h.d h.m1 m3 (by omega) (by omega) hy
      · exact h.x h.m1 m3 (by omega) (by omega) (fun hz => ⟨_, _, nz1 hz⟩) hy

theorem blockSame_ok {s : In} {x : Vert} {t : ℂ} {a0 a1 : Nat} {q : Int} (h : VertOk s x t a0 a1 q)
    {ks : List Call} (hk : blockSame s x t a0 a1 q = .ok ks) : ∀ k ∈ ks, TwoOk s a0 q k := by
  unfold blockSame at hk
  obtain ⟨l2, h2, hk⟩ := bind_ok_inv hk
  refine collect_forall hk ?_
  intro a2 ha2 y hy
  have m2 : View.mem s.v a2 q := ⟨l2, h2, ha2⟩
  simp only at hy
  split at hy
  · simp only [py_pure, Except.ok.injEq] at hy
    subst hy; simp
  · refine both_forall hy (fun y hy => both_forall hy ?_ ?_) (fun y hy => both_forall hy ?_ ?_)
    · intro y hy
      obtain ⟨l3, h3, hy⟩ := bind_ok_inv hy
      refine collect_forall hy ?_
      intro a3 ha3 y hy
      exact h.d ⟨l3, h3, ha3⟩ h.m0 (by omega) (by omega) hy
    · intro y hy
      obtain ⟨l3, h3, hy⟩ := bind_ok_inv hy
      refine collect_forall hy ?_
      intro a3 ha3 y hy
      exact h.x ⟨l3, h3, ha3⟩ h.m0 (by omega) (by omega) (fun hz => ⟨_, _, nz1' hz⟩) hy
    · intro y hy
      obtain ⟨l3, h3, hy⟩ := bind_ok_inv hy
      refine collect_forall hy ?_
      intro a3 ha3 y hy
      exact h.d m2 ⟨l3, h3, ha3⟩ (by omega) (by omega) hy
    · intro y hy
      obtain ⟨l3, h3, hy⟩ := bind_ok_inv hy
      refine collect_forall hy ?_
      intro a3 ha3 y hy
      exact h.x m2 ⟨l3, h3, ha3⟩ (by omega) (by omega) (fun hz => ⟨_, _, nz1' hz⟩) hy

theorem blockNext_ok {s : In} {x : Vert} {t : ℂ} {a0 a1 : Nat} {q : Int} (h : VertOk s x t a0 a1 q)
    {ks : List Call} (hk : blockNext s x t a0 a1 q = .ok ks) : ∀ k ∈ ks, TwoOk s a0 q k := by
  unfold blockNext at hk
  obtain ⟨l2, h2, hk⟩ := bind_ok_inv hk
  refine collect_forall hk ?_
  intro a2 ha2 y hy
  have m2 : View.mem s.v a2 (q + 1) := ⟨l2, h2, ha2⟩
  simp only at hy
  refine both_forall hy (fun y hy => both_forall hy ?_ ?_) (fun y hy => both_forall hy ?_ ?_)
  · intro y hy
    obtain ⟨l3, h3, hy⟩ := bind_ok_inv hy
    refine collect_forall hy ?_
    intro a3 ha3 y hy
    exact h.d ⟨l3, h3, ha3⟩ m2 (by omega) (by omega) hy
  · intro y hy
    obtain ⟨l3, h3, hy⟩ := bind_ok_inv hy
    refine collect_forall hy ?_
    intro a3 ha3 y hy
    exact h.x ⟨l3, h3, ha3⟩ m2 (by omega) (by omega) (fun hz => ⟨_, _, nz1' hz⟩) hy
  · intro y hy
    obtain ⟨l3, h3, hy⟩ := bind_ok_inv hy
    refine collect_forall hy ?_
    intro a3 ha3 y hy
    exact h.d h.m1 ⟨l3, h3, ha3⟩ (by omega) (by omega) hy
  · intro y hy
    obtain ⟨l3, h3, hy⟩ := bind_ok_inv hy
    refine collect_forall hy ?_
    intro a3 ha3 y hy
    exact h.x h.m1 ⟨l3, h3, ha3⟩ (by omega) (by omega) (fun hz => ⟨_, _, nz1' hz⟩) hy

/-- The calls made by `generate_col_diag_kern_2nd_order`. -/
theorem col2_calls {s : In} {a0 : Nat} {q : Int} (hm : View.mem s.v a0 q) {ks : List Call}
    (hk : col2 s a0 q = .ok ks) : ∀ k ∈ ks, TwoOk s a0 q k := by
  unfold col2 at hk
  obtain ⟨i0, h0, hk⟩ := bind_ok_inv hk
  refine collect_forall hk ?_
  rintro ⟨r0, r1⟩ hr y hy
  obtain ⟨hr0, hr1⟩ := prod2_mem hr
  obtain ⟨l1, h1, hy⟩ := bind_ok_inv hy
  refine collect_forall hy ?_
  intro a1 ha1 y hy
  unfold vertex at hy
  simp only at hy
  split at hy
  · simp only [py_pure, Except.ok.injEq] at hy
    subst hy; simp
  · rename_i hn
    obtain ⟨i1, h2, hy⟩ := bind_ok_inv hy
    have hv : VertOk s ⟨r0, r1, i0, i1, s.E a1 - s.E a0⟩ (s.L.Tba r0 a1 a0) a0 a1 q :=
      ⟨List.mem_range.1 hr0, List.mem_range.1 hr1, h0, h2, hm, ⟨l1, h1, ha1⟩, rfl, by simpa using hn⟩
    exact both_forall hy
      (fun y hy => both_forall hy (fun y hy => blockUp_ok hv hy) (fun y hy => blockDown_ok hv hy))
      (fun y hy => both_forall hy (fun y hy => blockSame_ok hv hy) (fun y hy => blockNext_ok hv hy))

/-! ### Names -/

/-- The matrix a call writes to (none for `Lnn`). -/
def Call.name : Call → Option Name
  | .dd _ _ _ _ _ mi => some mi
  | .two .. => some .Wdd
  | .elem _ _ _ _ _ _ _ _ mi => some mi
  | .lnn .. => none
  | .imGamma => none

theorem evs_name {v : View} {sh : Shape} {k : Call} {es : List Ev} (h : evs v sh k = .ok es) :
    ∀ e ∈ es, some e.n = k.name := by
  cases k with
  | dd l fm fp bb aa mi =>
    simp only [evs] at h
    obtain ⟨e1, k1, h⟩ := bind_ok_inv h
    obtain ⟨e2, k2, h⟩ := bind_ok_inv h
    simp only [py_pure, Except.ok.injEq] at h
    subst h
    simp [Call.name, (resolve_inv k1).1, (resolve_inv k2).1]
  | two r fct i0 i1 a3 q3 a4 q4 =>
    simp only [evs] at h
    obtain ⟨i3, h3, h⟩ := bind_ok_inv h
    obtain ⟨i4, h4, h⟩ := bind_ok_inv h
    obtain ⟨e1, k1, h⟩ := bind_ok_inv h
    obtain ⟨e2, k2, h⟩ := bind_ok_inv h
    obtain ⟨e3, k3, h⟩ := bind_ok_inv h
    obtain ⟨e4, k4, h⟩ := bind_ok_inv h
    simp only [py_pure, Except.ok.injEq] at h
    subst h
    simp [Call.name, (resolve_inv k1).1, (resolve_inv k2).1, (resolve_inv k3).1, (resolve_inv k4).1]
  | elem fct l b bp q a ap q' mi =>
    simp only [evs] at h
    obtain ⟨i, h1, h⟩ := bind_ok_inv h
    obtain ⟨j, h2, h⟩ := bind_ok_inv h
    obtain ⟨e1, k1, h⟩ := bind_ok_inv h
    simp only [py_pure, Except.ok.injEq] at h
    subst h
    simp [Call.name, (resolve_inv k1).1]
  | lnn a1 b1 q fct =>
    simp only [evs, py_pure, Except.ok.injEq] at h
    subst h; simp
  | imGamma =>
    simp only [evs, py_pure, Except.ok.injEq] at h
    subst h; simp

theorem evsD_name {v : View} {sh : Shape} {k : Call} : ∀ e ∈ evsD v sh k, some e.n = k.name := by
  unfold evsD
  split
  · rename_i es h; exact evs_name h
  · simp

theorem colOf_name {v : View} {sh : Shape} {n : Name} {l c : Nat} {k : Call} (h : k.name ≠ some n) :
    colOf v sh n l c k = 0 := by
  unfold colOf
  apply List.sum_eq_zero
  intro x hx
  obtain ⟨e, he, rfl⟩ := List.mem_map.1 hx
  have := evsD_name e he
  unfold Ev.col
  rw [if_neg]
  rintro ⟨e1, _⟩
  rw [e1] at this
  exact h this.symm

theorem at_name {v : View} {sh : Shape} {n : Name} {l r c : Nat} {k : Call} (h : k.name ≠ some n) :
    ((evsD v sh k).map fun e => e.at n l r c).sum = 0 := by
  apply List.sum_eq_zero
  intro x hx
  obtain ⟨e, he, rfl⟩ := List.mem_map.1 hx
  have := evsD_name e he
  unfold Ev.at
  rw [if_neg]
  rintro ⟨e1, _⟩
  rw [e1] at this
  exact h this.symm

theorem TwoOk.name {s : In} {a0 : Nat} {q : Int} {k : Call} (h : TwoOk s a0 q k) : k.name = some .Wdd := by
  obtain ⟨r, f, i0, i1, a1, a3, q3, a4, q4, rfl, _⟩ := h
  rfl

theorem energy1_name {s : In} {a b : Nat} {bb aa : Int} {l : Nat} :
    ∀ k ∈ energy1 s a b bb aa l, k.name = some .WE1 ∨ k.name = none := by
  intro k hk
  simp only [energy1, List.mem_append, List.mem_singleton] at hk
  rcases hk with hk | rfl
  · split at hk
    · simp only [List.mem_singleton] at hk; subst hk; right; rfl
    · simp at hk
  · left; rfl

theorem energy2_name {s : In} {a b : Nat} {bb aa : Int} {l : Nat} :
    ∀ k ∈ energy2 s a b bb aa l, k.name = some .WE2 ∨ k.name = none := by
  intro k hk
  simp only [energy2, List.mem_append, List.mem_singleton, List.mem_flatMap] at hk
  rcases hk with ⟨lp, _, hk⟩ | rfl
  · split at hk
    · simp only [List.mem_singleton] at hk; subst hk; right; rfl
    · simp at hk
  · left; rfl

theorem rowE1_name {s : In} {b : Nat} {q : Int} {ks : List Call} (h : rowE1 s b q = .ok ks) :
    ∀ k ∈ ks, k.name = some .WE1 ∨ k.name = none := by
  unfold rowE1 at h
  obtain ⟨bb, _, h⟩ := bind_ok_inv h
  obtain ⟨As, _, h⟩ := bind_ok_inv h
  obtain ⟨r1, h1, h⟩ := bind_ok_inv h
  obtain ⟨Cs, _, h⟩ := bind_ok_inv h
  obtain ⟨r2, h2, h⟩ := bind_ok_inv h
  simp only [py_pure, Except.ok.injEq] at h
  subst h
  intro k hk
  rcases List.mem_append.1 hk with hk | hk
  · refine collect_forall (P := fun k => k.name = some .WE1 ∨ k.name = none) h1 ?_ k hk
    intro a _ y hy
    obtain ⟨aa, _, hy⟩ := bind_ok_inv hy
    simp only [py_pure, Except.ok.injEq] at hy
    subst hy
    intro k hk
    obtain ⟨l, _, hk⟩ := List.mem_flatMap.1 hk
    exact energy1_name k hk
  · refine collect_forall (P := fun k => k.name = some .WE1 ∨ k.name = none) h2 ?_ k hk
    intro a _ y hy
    obtain ⟨aa, _, hy⟩ := bind_ok_inv hy
    simp only [py_pure, Except.ok.injEq] at hy
    subst hy
    intro k hk
    obtain ⟨l, _, hk⟩ := List.mem_flatMap.1 hk
    exact energy1_name k hk

theorem rowE2_name {s : In} {b : Nat} {q : Int} {ks : List Call} (h : rowE2 s b q = .ok ks) :
    ∀ k ∈ ks, k.name = some .WE2 ∨ k.name = none := by
  unfold rowE2 at h
  obtain ⟨bb, _, h⟩ := bind_ok_inv h
  obtain ⟨As, _, h⟩ := bind_ok_inv h
  obtain ⟨r1, h1, h⟩ := bind_ok_inv h
  obtain ⟨Cs, _, h⟩ := bind_ok_inv h
  obtain ⟨r2, h2, h⟩ := bind_ok_inv h
  simp only [py_pure, Except.ok.injEq] at h
  subst h
  intro k hk
  rcases List.mem_append.1 hk with hk | hk
  · refine collect_forall (P := fun k => k.name = some .WE2 ∨ k.name = none) h1 ?_ k hk
    intro a _ y hy
    obtain ⟨aa, _, hy⟩ := bind_ok_inv hy
    simp only [py_pure, Except.ok.injEq] at hy
    subst hy
    intro k hk
    obtain ⟨l, _, hk⟩ := List.mem_flatMap.1 hk
    exact energy2_name k hk
  · refine collect_forall (P := fun k => k.name = some .WE2 ∨ k.name = none) h2 ?_ k hk
    intro a _ y hy
    obtain ⟨aa, _, hy⟩ := bind_ok_inv hy
    simp only [py_pure, Except.ok.injEq] at hy
    subst hy
    intro k hk
    obtain ⟨l, _, hk⟩ := List.mem_flatMap.1 hk
    exact energy2_name k hk

/-! ### First order, diagonal -/

section
variable {v : View} {la : Lab} (h : VOk v la)
include h

/-- The calls made by `generate_row_1st_order_kernel`. -/
def group1 (v : View) (la : Lab) (fct : Nat → Nat → ℝ × ℝ) (c b : Nat) : List Call :=
  ((v.low c).flatMap fun a => (List.range v.nleads).flatMap fun l =>
    [Call.dd l (-(fct l (la.ix1 (c - 1) b a)).2) (fct l (la.ix1 (c - 1) b a)).1 (la.lab c b b : Nat)
      (la.lab (c - 1) a a : Nat) .Wdd]) ++
  ((v.row (c + 1)).flatMap fun x => (List.range v.nleads).flatMap fun l =>
    [Call.dd l (-(fct l (la.ix1 c x b)).1) (fct l (la.ix1 c x b)).2 (la.lab c b b : Nat)
      (la.lab (c + 1) x x : Nat) .Wdd])

theorem row1_ok (fct : Nat → Nat → ℝ × ℝ) {c b : Nat} (hb : b ∈ v.row c) :
    row1 v fct b (c : Int) = .ok (group1 v la fct c b) := by
  have hcl := h.row_lt hb
  unfold row1
  rw [ind0_diag h hb, h.states_pred (by omega), h.states_succ hcl]
  simp only [py_bind_ok]
  rw [collect_ok (g := fun a => (List.range v.nleads).flatMap fun l =>
      [Call.dd l (-(fct l (la.ix1 (c - 1) b a)).2) (fct l (la.ix1 (c - 1) b a)).1 (la.lab c b b : Nat)
        (la.lab (c - 1) a a : Nat) .Wdd]),
    collect_ok (g := fun x => (List.range v.nleads).flatMap fun l =>
      [Call.dd l (-(fct l (la.ix1 c x b)).1) (fct l (la.ix1 c x b)).2 (la.lab c b b : Nat)
        (la.lab (c + 1) x x : Nat) .Wdd])]
  · rfl
  · intro x hx
    rw [show ((c : Int) + 1) = ((c + 1 : Nat) : Int) by omega, ind0_diag h hx, h.ind1 c x b hx hb]
    simp only [py_bind_ok]
    apply collect_ok
    intro l _
    rw [rd_ok h fct l hx hb]
    rfl
  · intro a ha
    obtain ⟨h0, ha', e⟩ := h.low_mem ha
    have hb' : b ∈ v.row (c - 1 + 1) := by rw [Nat.sub_add_cancel h0]; exact hb
    rw [e, ind0_diag h ha', h.ind1 (c - 1) b a hb' ha']
    simp only [py_bind_ok]
    apply collect_ok
    intro l _
    rw [rd_ok h fct l hb' ha']
    rfl

omit h in
theorem evs_dd {sh : Shape} {l fm fp} {i j : Nat} {mi : Name} (hl : l < (sh mi).1)
    (hi : i < (sh mi).2.1) (hi' : i < (sh mi).2.2) (hj : j < (sh mi).2.2) :
    evsD v sh (.dd l fm fp i j mi) = [⟨mi, l, i, i, fm⟩, ⟨mi, l, i, j, fp⟩] := by
  unfold evsD
  simp only [evs]
  rw [resolve_ok hl hi hi', resolve_ok hl hi hj]
  rfl

/-- The sum over the leads of a group of calls that are all alike. -/
theorem sum_leads {n l : Nat} (hl : l < n) (f : Nat → Call) (g : Call → ℝ) (x : ℝ) (hx : g (f l) = x)
    (hz : ∀ k < n, k ≠ l → g (f k) = 0) :
    (((List.range n).flatMap fun k => [f k]).map g).sum = x := by
  rw [sum_flatMap', sum_single List.nodup_range (x := l) (by simpa using hl)]
  · simpa using hx
  · intro y hy hne
    simpa using hz y (List.mem_range.1 hy) hne

/-- The first-order calls change the sum of no column. -/
theorem group1_col {sh : Shape} (hsh : sh .Wdd = (v.nleads, v.npauli, v.npauli)) (fct : Nat → Nat → ℝ × ℝ)
    {l : Nat} (hl : l < v.nleads) (j : Nat) :
    ∑ q ∈ range v.ncharge, ∑ b ∈ v.R q, ((group1 v la fct q b).map (colOf v sh .Wdd l j)).sum = 0 := by
  have hb := balance h
    (D := fun q x b => (if la.lab (q + 1) x x = j then -(fct l (la.ix1 q x b)).2 else 0) +
      (if la.lab q b b = j then (fct l (la.ix1 q x b)).1 else 0))
    (U := fun q x b => (if la.lab q b b = j then -(fct l (la.ix1 q x b)).1 else 0) +
      (if la.lab (q + 1) x x = j then (fct l (la.ix1 q x b)).2 else 0))
  refine Eq.trans (sum_congr rfl fun q _ => sum_congr rfl fun b hb => ?_) (hb.trans ?_)
  · have hb' := (mem_R h).1 hb
    have lb := h.lab_diag q b hb'
    unfold group1
    rw [List.map_append, List.sum_append, sum_flatMap', sum_flatMap', View.Lo, View.R,
      List.sum_toFinset _ (h.low_nodup q), List.sum_toFinset _ (h.nodup (q + 1))]
    congr 2
    · apply List.map_congr_left
      intro a ha
      obtain ⟨h0, ha', _⟩ := h.low_mem ha
      have lb' := h.lab_diag (q - 1) a ha'
      apply sum_leads h hl
      · unfold colOf
        rw [evs_dd (by rw [hsh]; exact hl) (by rw [hsh]; exact lb) (by rw [hsh]; exact lb) (by rw [hsh]; exact lb')]
        simp only [List.map_cons, List.map_nil, List.sum_cons, List.sum_nil, Ev.col, true_and, add_zero,
          Nat.sub_add_cancel h0]
      · intro k hk hne
        unfold colOf
        rw [evs_dd (by rw [hsh]; exact hk) (by rw [hsh]; exact lb) (by rw [hsh]; exact lb) (by rw [hsh]; exact lb')]
        simp [Ev.col, hne]
    · apply List.map_congr_left
      intro x hx
      have lb' := h.lab_diag (q + 1) x hx
      apply sum_leads h hl
      · unfold colOf
        rw [evs_dd (by rw [hsh]; exact hl) (by rw [hsh]; exact lb) (by rw [hsh]; exact lb) (by rw [hsh]; exact lb')]
        simp only [List.map_cons, List.map_nil, List.sum_cons, List.sum_nil, Ev.col, true_and, add_zero]
      · intro k hk hne
        unfold colOf
        rw [evs_dd (by rw [hsh]; exact hk) (by rw [hsh]; exact lb) (by rw [hsh]; exact lb) (by rw [hsh]; exact lb')]
        simp [Ev.col, hne]
  · refine sum_eq_zero fun q _ => sum_eq_zero fun x _ => sum_eq_zero fun b _ => ?_
    split <;> split <;> ring

end

end RTD

end

end Verif
