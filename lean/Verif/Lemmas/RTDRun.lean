import Verif.Lemmas.RTDKern

/-! The RTD generators run without an exception. -/

namespace Verif

open Finset
open scoped ComplexConjugate

noncomputable section

theorem collect_some {α β : Type} {l : List α} {f : α → Py (List β)} (h : ∀ x ∈ l, ∃ y, f x = .ok y) :
    ∃ r, collect l f = .ok r := by
  classical
  let g : α → List β := fun x => if hx : ∃ y, f x = .ok y then hx.choose else []
  refine ⟨_, collect_ok (g := g) fun x hx => ?_⟩
  have := h x hx
  simp only [g, dif_pos this]
  exact this.choose_spec

namespace RTD

theorem both_some {β : Type} {p q : Py (List β)} (hp : ∃ a, p = .ok a) (hq : ∃ a, q = .ok a) :
    ∃ a, both p q = .ok a := by
  obtain ⟨a, ha⟩ := hp
  obtain ⟨b, hb⟩ := hq
  exact ⟨_, both_ok ha hb⟩

/-- What the integrals need: the poles are there, or the temperatures are equal and the amplitude is real. -/
def Fine (s : In) (t2 : ℂ) : Prop := s.poles.isSome ∨ ((∀ l, l < s.v.nleads → s.L.T l = s.L.T 0) ∧ t2.im = 0)

theorem addD_some {s : In} {x : Vert} {t2 : ℂ} (h0 : x.r0 < s.v.nleads) (h1 : x.r1 < s.v.nleads) (hf : Fine s t2)
    (p1 eta1 : Int) (E2 E3 : ℝ) (a3 : Nat) (q3 : Int) (a4 : Nat) (q4 : Int) :
    ∃ r, addD s x t2 p1 eta1 E2 E3 a3 q3 a4 q4 = .ok r := by
  unfold addD
  split
  · unfold integralD
    split
    · exact ⟨_, rfl⟩
    · rename_i hn
      rcases hf with hf | ⟨hT, him⟩
      · obtain ⟨b, hb⟩ := Option.isSome_iff_exists.1 hf
        rw [hb]; exact ⟨_, rfl⟩
      · exfalso
        apply hn
        have := maxT_cut3 s
        rw [hT _ h0, hT _ h1, him]
        refine ⟨by norm_num, ?_⟩
        simp only [abs_zero, decide_eq_false_iff_not, gt_iff_lt, not_lt]
        exact this
  · exact ⟨_, rfl⟩

theorem addX_some {s : In} {x : Vert} {t2 : ℂ} (h0 : x.r0 < s.v.nleads) (h1 : x.r1 < s.v.nleads) (hf : Fine s t2)
    (p1 eta1 : Int) (E2 E3 : ℝ) (a3 : Nat) (q3 : Int) (a4 : Nat) (q4 : Int) :
    ∃ r, addX s x t2 p1 eta1 E2 E3 a3 q3 a4 q4 = .ok r := by
  unfold addX
  split
  · unfold integralX
    split
    · exact ⟨_, rfl⟩
    · rename_i hn
      rcases hf with hf | ⟨hT, him⟩
      · obtain ⟨b, hb⟩ := Option.isSome_iff_exists.1 hf
        rw [hb]; exact ⟨_, rfl⟩
      · exfalso
        apply hn
        have := maxT_cut3 s
        rw [hT _ h0, hT _ h1, him]
        refine ⟨by norm_num, ?_⟩
        simp only [abs_zero, decide_eq_false_iff_not, gt_iff_lt, not_lt]
        exact this
  · exact ⟨_, rfl⟩

/-- The numerical routines can be evaluated for all amplitudes of the system: the poles have been made, or the
temperatures are equal and the tunnelling amplitudes real. -/
def Evaluable (s : In) : Prop :=
  s.poles.isSome ∨ ((∀ l, l < s.v.nleads → s.L.T l = s.L.T 0) ∧ ∀ l a b, (s.L.Tba l a b).im = 0)

theorem im_mul {a b : ℂ} (ha : a.im = 0) (hb : b.im = 0) : (a * b).im = 0 := by simp [ha, hb]
theorem im_conj {a : ℂ} (ha : a.im = 0) : (conj a).im = 0 := by simp [ha]

/-- A product of four amplitudes or their conjugates. -/
theorem Evaluable.fine {s : In} (h : Evaluable s) {z w x y : ℂ}
    (hz : (∀ l a b, (s.L.Tba l a b).im = 0) → z.im = 0) (hw : (∀ l a b, (s.L.Tba l a b).im = 0) → w.im = 0)
    (hx : (∀ l a b, (s.L.Tba l a b).im = 0) → x.im = 0) (hy : (∀ l a b, (s.L.Tba l a b).im = 0) → y.im = 0) :
    Fine s (z * w * x * y) := by
  rcases h with h | ⟨hT, hi⟩
  · exact Or.inl h
  · exact Or.inr ⟨hT, im_mul (im_mul (im_mul (hz hi) (hw hi)) (hx hi)) (hy hi)⟩

section
variable {s : In} {la : Lab} (h : VOk s.v la)
include h

theorem states_some {q : Int} (h0 : -1 ≤ q) (h1 : q ≤ s.v.ncharge) : ∃ l, s.v.states q = .ok l := by
  rcases lt_or_ge q 0 with hq | hq
  · have : q = -1 := by omega
    subst this
    exact ⟨_, h.states_neg⟩
  · obtain ⟨c, rfl⟩ := Int.eq_ofNat_of_zero_le hq
    exact ⟨_, h.states (by omega)⟩

/-- A loop over the states of a charge. -/
theorem loop_some {q : Int} (h0 : -1 ≤ q) (h1 : q ≤ s.v.ncharge) {f : Nat → Py (List Call)}
    (hf : ∀ x, ∃ y, f x = .ok y) : ∃ r, (s.v.states q >>= fun l => collect l f) = .ok r := by
  obtain ⟨l, hl⟩ := states_some h h0 h1
  rw [hl]
  exact collect_some fun x _ => hf x

theorem block_some (he : Evaluable s) {x : Vert} {t : ℂ} {a0 a1 q : Nat} (hv : VertOk s x t a0 a1 q)
    (hq : q + 1 < s.v.ncharge) :
    (∃ r, blockUp s x t a0 a1 q = .ok r) ∧ (∃ r, blockDown s x t a0 a1 q = .ok r) ∧
    (∃ r, blockSame s x t a0 a1 q = .ok r) ∧ (∃ r, blockNext s x t a0 a1 q = .ok r) := by
  have ht : (∀ l a b, (s.L.Tba l a b).im = 0) → t.im = 0 := by intro hi; rw [hv.amp]; exact hi _ _ _
  have hT : ∀ l a b, (∀ l a b, (s.L.Tba l a b).im = 0) → (s.L.Tba l a b).im = 0 := fun l a b hi => hi l a b
  have hC : ∀ l a b, (∀ l a b, (s.L.Tba l a b).im = 0) → (conj (s.L.Tba l a b)).im = 0 :=
    fun l a b hi => im_conj (hi l a b)
  refine ⟨?_, ?_, ?_, ?_⟩
  · unfold blockUp
    refine loop_some h (by omega) (by omega) fun a2 => ?_
    simp only
    split
    · exact ⟨_, rfl⟩
    · refine both_some (loop_some h (by omega) (by omega) fun a3 => both_some ?_ ?_)
        (loop_some h (by omega) (by omega) fun a3 => both_some ?_ ?_)
      · exact addD_some hv.r0 hv.r1 (he.fine ht (hT _ _ _) (hC _ _ _) (hC _ _ _)) ..
      · exact addX_some hv.r0 hv.r1 (he.fine ht (hT _ _ _) (hC _ _ _) (hC _ _ _)) ..
      · exact addD_some hv.r0 hv.r1 (he.fine ht (hT _ _ _) (hC _ _ _) (hC _ _ _)) ..
      · exact addX_some hv.r0 hv.r1 (he.fine ht (hT _ _ _) (hC _ _ _) (hC _ _ _)) ..
  · unfold blockDown
    refine loop_some h (by omega) (by omega) fun a2 => ?_
    simp only
    split
    · exact ⟨_, rfl⟩
    · refine both_some (loop_some h (by omega) (by omega) fun a3 => both_some ?_ ?_)
        (loop_some h (by omega) (by omega) fun a3 => both_some ?_ ?_)
      · exact addD_some hv.r0 hv.r1 (he.fine ht (hT _ _ _) (hC _ _ _) (hC _ _ _)) ..
      · exact addX_some hv.r0 hv.r1 (he.fine ht (hT _ _ _) (hC _ _ _) (hC _ _ _)) ..
      · exact addD_some hv.r0 hv.r1 (he.fine ht (hT _ _ _) (hC _ _ _) (hC _ _ _)) ..
      · exact addX_some hv.r0 hv.r1 (he.fine ht (hT _ _ _) (hC _ _ _) (hC _ _ _)) ..
  · unfold blockSame
    refine loop_some h (by omega) (by omega) fun a2 => ?_
    simp only
    split
    · exact ⟨_, rfl⟩
    · refine both_some (both_some (loop_some h (by omega) (by omega) fun a3 => ?_)
          (loop_some h (by omega) (by omega) fun a3 => ?_))
        (both_some (loop_some h (by omega) (by omega) fun a3 => ?_) (loop_some h (by omega) (by omega) fun a3 => ?_))
      · exact addD_some hv.r0 hv.r1 (he.fine ht (hC _ _ _) (hT _ _ _) (hC _ _ _)) ..
      · exact addX_some hv.r0 hv.r1 (he.fine ht (hC _ _ _) (hC _ _ _) (hT _ _ _)) ..
      · exact addD_some hv.r0 hv.r1 (he.fine ht (hC _ _ _) (hT _ _ _) (hC _ _ _)) ..
      · exact addX_some hv.r0 hv.r1 (he.fine ht (hC _ _ _) (hC _ _ _) (hT _ _ _)) ..
  · unfold blockNext
    refine loop_some h (by omega) (by omega) fun a2 => ?_
    simp only
    refine both_some (both_some (loop_some h (by omega) (by omega) fun a3 => ?_)
        (loop_some h (by omega) (by omega) fun a3 => ?_))
      (both_some (loop_some h (by omega) (by omega) fun a3 => ?_) (loop_some h (by omega) (by omega) fun a3 => ?_))
    · exact addD_some hv.r0 hv.r1 (he.fine ht (hC _ _ _) (hT _ _ _) (hC _ _ _)) ..
    · exact addX_some hv.r0 hv.r1 (he.fine ht (hC _ _ _) (hC _ _ _) (hT _ _ _)) ..
    · exact addD_some hv.r0 hv.r1 (he.fine ht (hC _ _ _) (hT _ _ _) (hC _ _ _)) ..
    · exact addX_some hv.r0 hv.r1 (he.fine ht (hC _ _ _) (hC _ _ _) (hT _ _ _)) ..

theorem col2_some (he : Evaluable s) {q a0 : Nat} (ha : a0 ∈ s.v.row q) : ∃ r, col2 s a0 q = .ok r := by
  have hq := h.row_lt ha
  unfold col2
  rw [ind0_diag h ha]
  simp only [py_bind_ok]
  refine collect_some ?_
  rintro ⟨r0, r1⟩ hr
  obtain ⟨hr0, hr1⟩ := prod2_mem hr
  rw [h.states_succ hq]
  simp only [py_bind_ok]
  refine collect_some fun a1 ha1 => ?_
  have hq1 := h.row_lt ha1
  unfold vertex
  simp only
  split
  · exact ⟨_, rfl⟩
  · rename_i hn
    rw [show ((q : Int) + 1) = ((q + 1 : Nat) : Int) by omega, ind0_diag h ha1]
    simp only [py_bind_ok]
    have hv : VertOk s ⟨r0, r1, (la.lab q a0 a0 : Nat), (la.lab (q + 1) a1 a1 : Nat), s.E a1 - s.E a0⟩
        (s.L.Tba r0 a1 a0) a0 a1 q :=
      ⟨List.mem_range.1 hr0, List.mem_range.1 hr1, ind0_diag h ha,
        by rw [show ((q : Int) + 1) = ((q + 1 : Nat) : Int) by omega]; exact ind0_diag h ha1, view_mem h ha,
        by rw [show ((q : Int) + 1) = ((q + 1 : Nat) : Int) by omega]; exact view_mem h ha1, rfl, by simpa using hn⟩
    obtain ⟨b1, b2, b3, b4⟩ := block_some h he hv hq1
    exact both_some (both_some b1 b2) (both_some b3 b4)

theorem colNd_some {q a : Nat} (ha : a ∈ s.v.row q) : ∃ r, colNd s a q = .ok r := by
  have hq := h.row_lt ha
  unfold colNd
  refine both_some (both_some ⟨_, upper_ok h ha _ (by simp)⟩ ⟨_, lower_ok h ha _ (by simp)⟩) ?_
  rw [h.states (by omega)]
  simp only [py_bind_ok]
  refine collect_some fun a2 _ => collect_some fun b2 _ => ?_
  split
  · exact ⟨_, rfl⟩
  · exact both_some ⟨_, upper_ok h ha _ (by simp)⟩ ⟨_, lower_ok h ha _ (by simp)⟩

theorem colDn_some {q a b : Nat} (ha : a ∈ s.v.row q) : ∃ r, colDn s a b q = .ok r := by
  have hq := h.row_lt ha
  unfold colDn
  refine both_some (both_some ⟨_, upper_ok h ha _ (by simp)⟩ ⟨_, lower_ok h ha _ (by simp)⟩) ?_
  rw [h.states (by omega)]
  simp only [py_bind_ok]
  exact collect_some fun a2 _ => both_some ⟨_, upper_ok h ha _ (by simp)⟩ ⟨_, lower_ok h ha _ (by simp)⟩

theorem calls1_some (he : Evaluable s) (fct : Nat → Nat → ℝ × ℝ) (off : Bool) :
    ∃ ks, calls1 s fct off = .ok ks := by
  unfold calls1
  refine collect_some fun q hq => ?_
  have hq := List.mem_range.1 hq
  rw [h.states (by omega)]
  simp only [py_bind_ok]
  refine collect_some fun b hb => ?_
  unfold View.isUnique
  rw [h.bool0 q b b hb hb (h.inc_diag q b hb), h.can_diag q b hb]
  simp only [py_bind_ok, if_true]
  obtain ⟨k2, h2⟩ := col2_some h he hb
  have h5 : ∃ k5, nd s off b q = .ok k5 := by
    unfold nd; split
    · exact colNd_some h hb
    · exact ⟨_, rfl⟩
  obtain ⟨k5, h5⟩ := h5
  rw [row1_ok h fct hb, h2, rowE1_ok h hb, rowE2_ok h hb, h5]
  exact ⟨_, rfl⟩

theorem calls2_some : ∃ ks, calls2 s = .ok ks := by
  unfold calls2
  refine collect_some fun q hq => ?_
  have hq := List.mem_range.1 hq
  rw [h.states (by omega)]
  simp only [py_bind_ok]
  refine collect_some fun b hb => collect_some fun bp hbp => ?_
  split
  · exact ⟨_, rfl⟩
  · obtain ⟨k, hk⟩ := colDn_some h (b := bp) hb
    rw [hk]; exact ⟨_, rfl⟩

/-! ### Execution of the calls -/

omit h in
/-- A call whose additions are within the bounds succeeds. -/
theorem call_some {v : View} {a : Acc} {k : Call} (he : ∃ es, evs v a.mats.sh k = .ok es)
    (hl : LnnOk v a.mats.Lnn.rows k) (hsq : a.mats.Lnn.cols = a.mats.Lnn.rows) :
    ∃ a', call v a k = .ok a' ∧ a'.mats.Lnn.rows = a.mats.Lnn.rows ∧ a'.mats.Lnn.cols = a.mats.Lnn.rows := by
  obtain ⟨es, he⟩ := he
  cases k with
  | dd l fm fp bb aa mi =>
    simp only [evs] at he
    obtain ⟨e1, k1, he⟩ := bind_ok_inv he
    obtain ⟨e2, k2, he⟩ := bind_ok_inv he
    obtain ⟨m1, h1⟩ := add_of_resolve k1
    obtain ⟨_, _, d1, L1⟩ := add_made h1
    obtain ⟨m2, h2⟩ := add_of_resolve (m := m1) (by rw [d1.sh]; exact k2)
    obtain ⟨_, _, d2, L2⟩ := add_made h2
    refine ⟨{ a with mats := m2 }, ?_, ?_, ?_⟩
    · simp only [call]; rw [h1]; simp only [py_bind_ok]; rw [h2]; rfl
    · simp [L2, L1]
    · simp [L2, L1, hsq]
  | two r fct i0 i1 a3 q3 a4 q4 =>
    simp only [evs] at he
    obtain ⟨i3, h3, he⟩ := bind_ok_inv he
    obtain ⟨i4, h4, he⟩ := bind_ok_inv he
    obtain ⟨e1, k1, he⟩ := bind_ok_inv he
    obtain ⟨e2, k2, he⟩ := bind_ok_inv he
    obtain ⟨e3, k3, he⟩ := bind_ok_inv he
    obtain ⟨e4, k4, he⟩ := bind_ok_inv he
    obtain ⟨m1, g1⟩ := add_of_resolve k1
    obtain ⟨_, _, d1, L1⟩ := add_made g1
    obtain ⟨m2, g2⟩ := add_of_resolve (m := m1) (by rw [d1.sh]; exact k2)
    obtain ⟨_, _, d2, L2⟩ := add_made g2
    obtain ⟨m3, g3⟩ := add_of_resolve (m := m2) (by rw [d2.sh, d1.sh]; exact k3)
    obtain ⟨_, _, d3, L3⟩ := add_made g3
    obtain ⟨m4, g4⟩ := add_of_resolve (m := m3) (by rw [d3.sh, d2.sh, d1.sh]; exact k4)
    obtain ⟨_, _, d4, L4⟩ := add_made g4
    refine ⟨{ a with mats := m4 }, ?_, ?_, ?_⟩
    · simp only [call]; rw [h3, h4]; simp only [py_bind_ok]; rw [g1]; simp only [py_bind_ok]; rw [g2]
      simp only [py_bind_ok]; rw [g3]; simp only [py_bind_ok]; rw [g4]; rfl
    · simp [L4, L3, L2, L1]
    · simp [L4, L3, L2, L1, hsq]
  | elem fct l b bp q a' ap q' mi =>
    simp only [evs] at he
    obtain ⟨i, h1, he⟩ := bind_ok_inv he
    obtain ⟨j, h2, he⟩ := bind_ok_inv he
    obtain ⟨e1, k1, he⟩ := bind_ok_inv he
    obtain ⟨m1, g1⟩ := add_of_resolve k1
    obtain ⟨_, _, d1, L1⟩ := add_made g1
    refine ⟨{ a with mats := m1 }, ?_, ?_, ?_⟩
    · simp only [call]; rw [h1, h2]; simp only [py_bind_ok]; rw [g1]; rfl
    · simp [L1]
    · simp [L1, hsq]
  | lnn a1 b1 q fct =>
    obtain ⟨i, k, h1, h2⟩ := hl
    refine ⟨{ a with mats := { a.mats with Lnn := ⟨a.mats.Lnn.rows, a.mats.Lnn.cols, fun r' c' =>
      if r' = k ∧ c' = k then a.mats.Lnn.val r' c' + fct else a.mats.Lnn.val r' c'⟩ } }, ?_, rfl, hsq⟩
    simp only [call]
    rw [h1]
    simp only [py_bind_ok, Mat.add]
    rw [hsq, h2]
    simp only [py_bind_ok, py_pure]
  | imGamma => exact ⟨{ a with im := true }, rfl, rfl, hsq⟩

omit h in
theorem run_some {v : View} {a : Acc} {ks : List Call} (he : ∀ k ∈ ks, ∃ es, evs v a.mats.sh k = .ok es)
    (hl : ∀ k ∈ ks, LnnOk v a.mats.Lnn.rows k) (hsq : a.mats.Lnn.cols = a.mats.Lnn.rows) :
    ∃ a', run v a ks = .ok a' ∧ a'.mats.Lnn.rows = a.mats.Lnn.rows ∧ a'.mats.Lnn.cols = a.mats.Lnn.rows := by
  induction ks generalizing a with
  | nil => exact ⟨a, rfl, rfl, hsq⟩
  | cons k ks ih =>
    obtain ⟨a1, h1, r1, c1⟩ := call_some (he k (by simp)) (hl k (by simp)) hsq
    obtain ⟨_, _, d⟩ := call_made h1
    obtain ⟨a2, h2, r2, c2⟩ := ih (a := a1) (by rw [d.sh]; exact fun k hk => he k (by simp [hk]))
      (by rw [r1]; exact fun k hk => hl k (by simp [hk])) (by rw [c1, r1])
    refine ⟨a2, ?_, r2.trans r1, by rw [c2, r1]⟩
    unfold run
    rw [List.foldlM_cons, h1]
    exact h2

/-- The shapes of the arrays made by `prepare_arrays`. -/
def shapes (v : View) : Shape := fun m => match m with
  | .Wdd | .WE1 | .WE2 => (v.nleads, v.npauli, v.npauli)
  | .ReWdn | .ImWdn => (v.nleads, v.npauli, 2 * v.ndm0 - 2 * v.npauli)
  | .ReWnd | .ImWnd => (v.nleads, 2 * v.ndm0 - 2 * v.npauli, v.npauli)

omit h in
theorem fresh_sh (v : View) (symq : Bool) : (fresh v symq).acc.mats.sh = shapes v := by
  funext n
  cases n <;> rfl

/-- A considered state. -/
theorem mem_inv {a : Nat} {q : Int} (hm : View.mem s.v a q) (h0 : -1 ≤ q) (h1 : q ≤ s.v.ncharge) :
    ∃ c : Nat, q = c ∧ a ∈ s.v.row c := by
  obtain ⟨l, hl, ha⟩ := hm
  rcases lt_or_ge q 0 with hq | hq
  · have : q = -1 := by omega
    subst this
    rw [h.states_neg] at hl
    simp only [Except.ok.injEq] at hl
    subst hl; simp at ha
  · obtain ⟨c, rfl⟩ := Int.eq_ofNat_of_zero_le hq
    have hl' := h.states (c := c) (by omega)
    have := hl'.symm.trans hl
    simp only [Except.ok.injEq] at this
    subst this
    exact ⟨c, rfl, ha⟩

/-- The states and labels of a second-order call, as natural numbers. -/
theorem TwoOk.nat {a0 q : Nat} (ha : a0 ∈ s.v.row q) {k : Call} (hk : TwoOk s a0 q k) :
    ∃ r f a1 a3 c3 a4 c4, k = .two r f (la.lab q a0 a0 : Nat) (la.lab (q + 1) a1 a1 : Nat) a3 (c3 : Nat) a4 (c4 : Nat) ∧
      r < s.v.nleads ∧ (∃ x y, s.L.Tba r x y ≠ 0) ∧ a1 ∈ s.v.row (q + 1) ∧ a3 ∈ s.v.row c3 ∧ a4 ∈ s.v.row c4 ∧
      q ≤ c3 + 1 ∧ c3 ≤ q + 2 ∧ q ≤ c4 + 1 ∧ c4 ≤ q + 2 ∧ (s.lib.Zero → f = 0) := by
  obtain ⟨r, f, i0, i1, a1, a3, q3, a4, q4, rfl, hr, hz, h0, h1, m1, m3, m4, b1, b2, b3, b4, hz0⟩ := hk
  have hq := h.row_lt ha
  obtain ⟨c1, e1, ha1⟩ := mem_inv h m1 (by omega) (by omega)
  have : c1 = q + 1 := by omega
  subst this
  have hq1 := h.row_lt ha1
  obtain ⟨c3, e3, ha3⟩ := mem_inv h m3 (by omega) (by omega)
  obtain ⟨c4, e4, ha4⟩ := mem_inv h m4 (by omega) (by omega)
  rw [ind0_diag h ha] at h0
  rw [e1, ind0_diag h ha1] at h1
  simp only [Except.ok.injEq] at h0 h1
  subst h0 h1 e3 e4
  exact ⟨r, f, a1, a3, c3, a4, c4, rfl, hr, hz, ha1, ha3, ha4, by omega, by omega, by omega, by omega, hz0⟩

/-- The additions of a second-order call. -/
theorem evs_two {sh : Shape} (hsh : sh .Wdd = (s.v.nleads, s.v.npauli, s.v.npauli)) {r : Nat} (hr : r < s.v.nleads)
    (f : ℝ) {i0 i1 : Nat} (h0 : i0 < s.v.npauli) (h1 : i1 < s.v.npauli) {a3 c3 a4 c4 : Nat}
    (h3 : a3 ∈ s.v.row c3) (h4 : a4 ∈ s.v.row c4) :
    evs s.v sh (.two r f i0 i1 a3 c3 a4 c4) = .ok
      [⟨.Wdd, r, la.lab c4 a4 a4, i0, 2 * f⟩, ⟨.Wdd, r, la.lab c3 a3 a3, i0, -(2 * f)⟩,
        ⟨.Wdd, r, la.lab c4 a4 a4, i1, 2 * f⟩, ⟨.Wdd, r, la.lab c3 a3 a3, i1, -(2 * f)⟩] := by
  simp only [evs]
  rw [ind0_diag h h3, ind0_diag h h4]
  simp only [py_bind_ok]
  have l3 := h.lab_diag c3 a3 h3
  have l4 := h.lab_diag c4 a4 h4
  rw [resolve_ok (by rw [hsh]; exact hr) (by rw [hsh]; exact l4) (by rw [hsh]; exact h0),
    resolve_ok (by rw [hsh]; exact hr) (by rw [hsh]; exact l3) (by rw [hsh]; exact h0),
    resolve_ok (by rw [hsh]; exact hr) (by rw [hsh]; exact l4) (by rw [hsh]; exact h1),
    resolve_ok (by rw [hsh]; exact hr) (by rw [hsh]; exact l3) (by rw [hsh]; exact h1)]
  rfl

/-- All coherences between considered states of equal charge are included. -/
def AllCoherences (v : View) (la : Lab) : Prop := ∀ c b bp, b ∈ v.row c → bp ∈ v.row c → la.inc c b bp = true

theorem offPos_ok (hall : AllCoherences s.v la) {c a b : Nat} (ha : a ∈ s.v.row c) (hb : b ∈ s.v.row c) (hne : a ≠ b) :
    ∃ p : Nat, p < 2 * s.v.ndm0 - 2 * s.v.npauli ∧ offPos s.v a b c = .ok (p : Int) := by
  obtain ⟨l1, l2⟩ := h.lab_off c a b ha hb hne (hall c a b ha hb)
  unfold offPos
  rw [h.ind0 c a b ha hb, hall c a b ha hb]
  simp only [py_bind_ok, if_true, py_pure, Except.ok.injEq]
  rw [if_pos hne]
  split
  · exact ⟨la.lab c a b - s.v.npauli + (s.v.ndm0 - s.v.npauli), by omega, by omega⟩
  · exact ⟨la.lab c a b - s.v.npauli, by omega, by omega⟩

theorem evs_dd_some {sh : Shape} {mi : Name} (hsh : sh mi = (s.v.nleads, s.v.npauli, s.v.npauli)) {l : Nat}
    (hl : l < s.v.nleads) (x y : ℝ) {c c' a a' : Nat} (ha : a ∈ s.v.row c) (ha' : a' ∈ s.v.row c') :
    ∃ es, evs s.v sh (.dd l x y (la.lab c a a : Nat) (la.lab c' a' a' : Nat) mi) = .ok es := by
  have l1 := h.lab_diag c a ha
  have l2 := h.lab_diag c' a' ha'
  simp only [evs]
  rw [resolve_ok (by rw [hsh]; exact hl) (by rw [hsh]; exact l1) (by rw [hsh]; exact l1),
    resolve_ok (by rw [hsh]; exact hl) (by rw [hsh]; exact l1) (by rw [hsh]; exact l2)]
  exact ⟨_, rfl⟩

theorem groupE_evs {e : Nat → Nat → Int → Int → Nat → List Call} {P : Call → Prop}
    (he : ∀ c a c' a' l x y, a ∈ s.v.row c → a' ∈ s.v.row c' → l < s.v.nleads →
      ∀ k ∈ e x y (la.lab c a a : Nat) (la.lab c' a' a' : Nat) l, P k) {c b : Nat} (hb : b ∈ s.v.row c) :
    ∀ k ∈ groupE s.v la e c b, P k := by
  intro k hk
  rcases List.mem_append.1 hk with hk | hk
  · obtain ⟨a, ha, hk⟩ := List.mem_flatMap.1 hk
    obtain ⟨l, hl, hk⟩ := List.mem_flatMap.1 hk
    obtain ⟨_, ha', _⟩ := h.low_mem ha
    exact he c b (c - 1) a l _ _ hb ha' (List.mem_range.1 hl) k hk
  · obtain ⟨a, ha, hk⟩ := List.mem_flatMap.1 hk
    obtain ⟨l, hl, hk⟩ := List.mem_flatMap.1 hk
    exact he c b (c + 1) a l _ _ hb ha (List.mem_range.1 hl) k hk

/-- All calls of the first loop stay within the bounds. -/
theorem calls1_evs {fct : Nat → Nat → ℝ × ℝ} {off : Bool} (hall : off = true → AllCoherences s.v la) {ks : List Call}
    (hk : calls1 s fct off = .ok ks) (n : Nat) :
    ∀ k ∈ ks, (∃ es, evs s.v (shapes s.v) k = .ok es) ∧ LnnOk s.v n k := by
  obtain ⟨key, rfl⟩ := calls1_inv h hk
  intro k hk
  obtain ⟨q, hq, hk⟩ := List.mem_flatMap.1 hk
  obtain ⟨b, hb, hk⟩ := List.mem_flatMap.1 hk
  have hq := h.row_lt hb
  simp only [one, List.mem_append] at hk
  rcases hk with (((hk | hk) | hk) | hk) | hk
  · simp only [group1, List.mem_append, List.mem_flatMap, List.mem_singleton] at hk
    rcases hk with ⟨a, ha, l, hl, rfl⟩ | ⟨a, ha, l, hl, rfl⟩
    · exact ⟨evs_dd_some h rfl (List.mem_range.1 hl) _ _ hb (h.low_mem ha).2.1, trivial⟩
    · exact ⟨evs_dd_some h rfl (List.mem_range.1 hl) _ _ hb ha, trivial⟩
  · obtain ⟨r, f, a1, a3, c3, a4, c4, rfl, hr, _, ha1, ha3, ha4, _⟩ :=
      TwoOk.nat h hb (col2_calls (view_mem h hb) (key q b hb).1 k hk)
    exact ⟨⟨_, evs_two h rfl hr f (h.lab_diag _ _ hb) (h.lab_diag _ _ ha1) ha3 ha4⟩, trivial⟩
  · refine groupE_evs h (P := fun k => (∃ es, evs s.v (shapes s.v) k = .ok es) ∧ LnnOk s.v n k) ?_ hb k hk
    intro c a c' a' l x y ha ha' hl k hk
    simp only [energy1, List.mem_append, List.mem_singleton] at hk
    rcases hk with hk | rfl
    · split at hk
      · simp only [List.mem_singleton] at hk; subst hk; exact ⟨⟨_, rfl⟩, trivial⟩
      · simp at hk
    · exact ⟨evs_dd_some h rfl hl _ _ ha ha', trivial⟩
  · refine groupE_evs h (P := fun k => (∃ es, evs s.v (shapes s.v) k = .ok es) ∧ LnnOk s.v n k) ?_ hb k hk
    intro c a c' a' l x y ha ha' hl k hk
    simp only [energy2, List.mem_append, List.mem_singleton, List.mem_flatMap] at hk
    rcases hk with ⟨_, _, hk⟩ | rfl
    · split at hk
      · simp only [List.mem_singleton] at hk; subst hk; exact ⟨⟨_, rfl⟩, trivial⟩
      · simp at hk
    · exact ⟨evs_dd_some h rfl hl _ _ ha ha', trivial⟩
  · have h5 := (key q b hb).2
    rcases off with _ | _
    · simp [nd, valD] at hk
    · unfold nd at h5 hk
      simp only [if_true] at h5 hk
      obtain ⟨x, l, a2, b2, q2, mi, rfl, hmi, hl, hne, ⟨r, hr, m1, m2⟩, b1, b3⟩ := colNd_calls h5 k hk
      obtain ⟨c, rfl, ha2⟩ := mem_inv h ⟨r, hr, m1⟩ (by omega) (by omega)
      obtain ⟨c', e, hb2⟩ := mem_inv h ⟨r, hr, m2⟩ (by omega) (by omega)
      have : c' = c := by omega
      subst this
      obtain ⟨p, hp, e⟩ := offPos_ok h (hall rfl) ha2 hb2 hne
      have l1 := h.lab_diag q b hb
      refine ⟨?_, trivial⟩
      simp only [evs]
      rw [e, offPos_diag h hb]
      simp only [py_bind_ok]
      have hs : shapes s.v mi = (s.v.nleads, 2 * s.v.ndm0 - 2 * s.v.npauli, s.v.npauli) := by
        rcases hmi with rfl | rfl <;> rfl
      rw [resolve_ok (by rw [hs]; exact hl) (by rw [hs]; exact hp) (by rw [hs]; exact l1)]
      exact ⟨_, rfl⟩

/-- All calls of the second loop stay within the bounds. -/
theorem calls2_evs (hall : AllCoherences s.v la) {ks : List Call} (hk : calls2 s = .ok ks) :
    ∀ k ∈ ks, (∃ es, evs s.v (shapes s.v) k = .ok es) ∧ LnnOk s.v (2 * s.v.ndm0 - 2 * s.v.npauli) k := by
  obtain ⟨key, rfl⟩ := calls2_inv h hk
  intro k hk
  obtain ⟨q, hq, hk⟩ := List.mem_flatMap.1 hk
  obtain ⟨b, hb, hk⟩ := List.mem_flatMap.1 hk
  obtain ⟨bp, hbp, hk⟩ := List.mem_flatMap.1 hk
  have hq := h.row_lt hb
  split at hk
  · simp at hk
  · rename_i hne
    obtain ⟨p, hp, e⟩ := offPos_ok h hall hb hbp hne
    rcases List.mem_append.1 hk with hk | hk
    · obtain ⟨x, l, a2, q2, mi, rfl, hmi, hl, m2, b1, b2, _⟩ := colDn_calls (key q b bp hb hbp hne) k hk
      obtain ⟨c, rfl, ha2⟩ := mem_inv h m2 (by omega) (by omega)
      have l1 := h.lab_diag c a2 ha2
      refine ⟨?_, trivial⟩
      simp only [evs]
      rw [e, offPos_diag h ha2]
      simp only [py_bind_ok]
      have hs : shapes s.v mi = (s.v.nleads, s.v.npauli, 2 * s.v.ndm0 - 2 * s.v.npauli) := by
        rcases hmi with rfl | rfl <;> rfl
      rw [resolve_ok (by rw [hs]; exact hl) (by rw [hs]; exact l1) (by rw [hs]; exact hp)]
      exact ⟨_, rfl⟩
    · simp only [rowL, List.mem_singleton] at hk
      subst hk
      refine ⟨⟨_, rfl⟩, la.lab q b bp, p, ?_, ?_⟩
      · rw [h.ind0 q b bp hb hbp, hall q b bp hb hbp]; rfl
      · unfold offPos at e
        rw [h.ind0 q b bp hb hbp, hall q b bp hb hbp] at e
        simp only [py_bind_ok, if_true, py_pure, Except.ok.injEq] at e
        rw [if_pos hne] at e
        rw [e, pyIdx_nat hp]

omit h in
theorem mul_some {a b : Mat} (e : a.cols = b.rows) : ∃ x, a.mul b = .ok x ∧ x.rows = a.rows ∧ x.cols = b.cols := by
  unfold Mat.mul
  rw [if_pos e]
  exact ⟨_, rfl, rfl, rfl⟩

omit h in
theorem corr_some {m : Mats} {n k : Nat} (l : Nat) (h1 : m.sh = shapes s.v) (hn : s.v.npauli = n)
    (hk : 2 * s.v.ndm0 - 2 * s.v.npauli = k) (hr : m.Lnn.rows = k) (hc : m.Lnn.cols = k) : ∃ x, corr m l = .ok x := by
  have a1 := congrFun h1 .ReWdn
  have a2 := congrFun h1 .ImWdn
  have a3 := congrFun h1 .ReWnd
  have a4 := congrFun h1 .ImWnd
  simp only [Mats.sh, shapes, Prod.mk.injEq] at a1 a2 a3 a4
  unfold corr
  obtain ⟨x1, e1, r1, c1⟩ := mul_some (a := (m.ten .ReWdn).lead l) (b := m.Lnn)
    (show (m.ten .ReWdn).cols = _ by rw [a1.2.2, hk, hr])
  obtain ⟨x2, e2, r2, c2⟩ := mul_some (a := x1) (b := (m.ten .ImWnd).sumLeads)
    (show _ = (m.ten .ImWnd).rows by rw [c1, hc, a4.2.1, hk])
  obtain ⟨x3, e3, r3, c3⟩ := mul_some (a := (m.ten .ImWdn).lead l) (b := m.Lnn)
    (show (m.ten .ImWdn).cols = _ by rw [a2.2.2, hk, hr])
  obtain ⟨x4, e4, r4, c4⟩ := mul_some (a := x3) (b := (m.ten .ReWnd).sumLeads)
    (show _ = (m.ten .ReWnd).rows by rw [c3, hc, a3.2.1, hk])
  rw [e1]; simp only [py_bind_ok]
  rw [e2]; simp only [py_bind_ok]
  rw [e3]; simp only [py_bind_ok]
  rw [e4]
  exact ⟨_, rfl⟩

omit h in
theorem corrs_some {m : Mats} (hm : ∀ l, ∃ x, corr m l = .ok x) (n : Nat) : ∃ w, corrs m n = .ok w := by
  induction n with
  | zero => exact ⟨_, rfl⟩
  | succ n ih =>
    obtain ⟨w, hw⟩ := ih
    obtain ⟨x, hx⟩ := hm n
    unfold corrs at hw ⊢
    rw [List.range_succ, List.foldlM_append, hw]
    simp only [py_bind_ok, List.foldlM_cons, List.foldlM_nil]
    rw [hx]
    exact ⟨_, rfl⟩

/-- `generate_kern` succeeds on the arrays made by `prepare_arrays`. -/
theorem genKern_some (he : Evaluable s) (fct : Nat → Nat → ℝ × ℝ) (off symq : Bool)
    (hall : off = true → AllCoherences s.v la) : ∃ st, genKern s fct off (fresh s.v symq) = .ok st := by
  obtain ⟨k1, h1⟩ := calls1_some h he fct off
  obtain ⟨a1, r1, n1, c1⟩ := run_some (v := s.v) (a := (fresh s.v symq).acc) (ks := k1)
    (by rw [fresh_sh]; exact fun k hk => (calls1_evs h hall h1 0 k hk).1)
    (fun k hk => (calls1_evs h hall h1 _ k hk).2) rfl
  have sh1 : a1.mats.sh = shapes s.v := (run_made r1).sh.trans (fresh_sh _ _)
  unfold genKern
  rw [h1]
  simp only [py_bind_ok]
  rw [r1]
  simp only [py_bind_ok]
  split
  · rename_i hoff
    obtain ⟨k2, h2⟩ := calls2_some h
    have n1' : a1.mats.Lnn.rows = 2 * s.v.ndm0 - 2 * s.v.npauli := n1
    obtain ⟨a2, r2, n2, c2⟩ := run_some (v := s.v) (a := a1) (ks := k2)
      (by rw [sh1]; exact fun k hk => (calls2_evs h (hall hoff) h2 k hk).1)
      (by rw [n1']; exact fun k hk => (calls2_evs h (hall hoff) h2 k hk).2) (by rw [c1, n1])
    have sh2 : a2.mats.sh = shapes s.v := (run_made r2).sh.trans sh1
    rw [h2]
    simp only [py_bind_ok]
    rw [r2]
    simp only [py_bind_ok]
    unfold addCorr
    obtain ⟨w, hw⟩ := corrs_some (m := a2.mats) (fun l => corr_some l sh2 rfl rfl (by rw [n2, n1']) (by rw [c2, n1']))
      s.v.nleads
    simp only
    rw [hw]
    exact ⟨_, rfl⟩
  · exact ⟨_, rfl⟩

end

end RTD

end

end Verif
