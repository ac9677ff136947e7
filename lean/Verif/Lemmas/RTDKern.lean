import Verif.Lemmas.RTDOff

/-! The calls made by `generate_kern` of the RTD approach. -/

namespace Verif

open Finset
open scoped ComplexConjugate

noncomputable section

namespace RTD

/-- The list, empty if there is an error. -/
def valD {β : Type} : Py (List β) → List β
  | .ok l => l
  | .error _ => []

/-! ### Names in the off-diagonal part -/

theorem pair_name {w1 w2 : ℝ} {l b bp : Nat} {q : Int} {a ap : Nat} {q' : Int} {re im : Name} :
    ∀ k ∈ pair w1 w2 l b bp q a ap q' re im, k.name = some re ∨ k.name = some im := by
  intro k hk
  simp only [pair, List.mem_cons, List.not_mem_nil, or_false] at hk
  rcases hk with rfl | rfl
  · left; rfl
  · right; rfl

theorem upper_forall {v : View} {q : Int} {f : List Nat → List Call} {P : Call → Prop} {r : List Call}
    (h : upper v q f = .ok r) (hf : ∀ l, (q ≠ (v.ncharge : Int) - 1) → v.states (q + 1) = .ok l → ∀ k ∈ f l, P k) :
    ∀ k ∈ r, P k := by
  unfold upper at h
  split at h
  · rename_i hn
    obtain ⟨l, hl, h⟩ := bind_ok_inv h
    simp only [py_pure, Except.ok.injEq] at h
    subst h
    exact hf l hn hl
  · simp only [py_pure, Except.ok.injEq] at h
    subst h; simp

theorem lower_forall {v : View} {q : Int} {f : List Nat → List Call} {P : Call → Prop} {r : List Call}
    (h : lower v q f = .ok r) (hf : ∀ l, q ≠ 0 → v.states (q - 1) = .ok l → ∀ k ∈ f l, P k) : ∀ k ∈ r, P k := by
  unfold lower at h
  split at h
  · rename_i hn
    obtain ⟨l, hl, h⟩ := bind_ok_inv h
    simp only [py_pure, Except.ok.injEq] at h
    subst h
    exact hf l hn hl
  · simp only [py_pure, Except.ok.injEq] at h
    subst h; simp

/-- What is known about a call made for an off-diagonal element: `(a2, b2)` of charge `q2` is the row, `(a1, b1)`
of charge `q1` the column. -/
theorem colDn_calls {s : In} {a1 b1 : Nat} {q : Int} {ks : List Call} (h : colDn s a1 b1 q = .ok ks) :
    ∀ k ∈ ks, ∃ x l a2 q2 mi, k = .elem x l a2 a2 q2 a1 b1 q mi ∧ (mi = .ReWdn ∨ mi = .ImWdn) ∧
      l < s.v.nleads ∧ View.mem s.v a2 q2 ∧ q - 1 ≤ q2 ∧ q2 ≤ q + 1 ∧
      ((∀ a b, s.L.Tba l a b = 0) → x = 0) := by
  have put : ∀ (w : Nat → ℝ × ℝ) (a2 : Nat) (q2 : Int), View.mem s.v a2 q2 → q - 1 ≤ q2 → q2 ≤ q + 1 →
      (∀ l, (∀ a b, s.L.Tba l a b = 0) → w l = (0, 0)) → ∀ k ∈ (List.range s.v.nleads).flatMap fun l => pair (w l).1 (w l).2 l a2 a2 q2 a1 b1 q .ReWdn .ImWdn,
      ∃ x l a2 q2 mi, k = .elem x l a2 a2 q2 a1 b1 q mi ∧ (mi = .ReWdn ∨ mi = .ImWdn) ∧
      l < s.v.nleads ∧ View.mem s.v a2 q2 ∧ q - 1 ≤ q2 ∧ q2 ≤ q + 1 ∧
      ((∀ a b, s.L.Tba l a b = 0) → x = 0) := by
    intro w a2 q2 hm h1 h2 hw k hk
    obtain ⟨l, hl, hk⟩ := List.mem_flatMap.1 hk
    have hl := List.mem_range.1 hl
    simp only [pair, List.mem_cons, List.not_mem_nil, or_false] at hk
    rcases hk with rfl | rfl
    · exact ⟨_, l, a2, q2, .ReWdn, rfl, Or.inl rfl, hl, hm, h1, h2, fun hz => by rw [hw l hz]⟩
    · exact ⟨_, l, a2, q2, .ImWdn, rfl, Or.inr rfl, hl, hm, h1, h2, fun hz => by rw [hw l hz]⟩
  unfold colDn at h
  refine both_forall h (fun y hy => both_forall hy (fun y hy => ?_) (fun y hy => ?_)) (fun y hy => ?_)
  · refine upper_forall hy fun l2 _ hl2 k hk => ?_
    obtain ⟨a2, ha2, hk⟩ := List.mem_flatMap.1 hk
    exact put _ a2 (q + 1) ⟨l2, hl2, ha2⟩ (by omega) (by omega) (fun l hz => by simp [trans, stay, hz]) k hk
  · refine lower_forall hy fun l2 _ hl2 k hk => ?_
    obtain ⟨a2, ha2, hk⟩ := List.mem_flatMap.1 hk
    exact put _ a2 (q - 1) ⟨l2, hl2, ha2⟩ (by omega) (by omega) (fun l hz => by simp [trans, stay, hz]) k hk
  · obtain ⟨l2, hl2, hy⟩ := bind_ok_inv hy
    refine collect_forall hy fun a2 ha2 y hy => both_forall hy (fun y hy => ?_) (fun y hy => ?_)
    · refine upper_forall hy fun l3 _ hl3 k hk => ?_
      obtain ⟨x, _, hk⟩ := List.mem_flatMap.1 hk
      rcases List.mem_append.1 hk with hk | hk
      · split at hk
        · exact put _ a2 q ⟨l2, hl2, ha2⟩ (by omega) (by omega) (fun l hz => by simp [trans, stay, hz]) k hk
        · simp at hk
      · split at hk
        · exact put _ a2 q ⟨l2, hl2, ha2⟩ (by omega) (by omega) (fun l hz => by simp [trans, stay, hz]) k hk
        · simp at hk
    · refine lower_forall hy fun l3 _ hl3 k hk => ?_
      obtain ⟨x, _, hk⟩ := List.mem_flatMap.1 hk
      rcases List.mem_append.1 hk with hk | hk
      · split at hk
        · exact put _ a2 q ⟨l2, hl2, ha2⟩ (by omega) (by omega) (fun l hz => by simp [trans, stay, hz]) k hk
        · simp at hk
      · split at hk
        · exact put _ a2 q ⟨l2, hl2, ha2⟩ (by omega) (by omega) (fun l hz => by simp [trans, stay, hz]) k hk
        · simp at hk

theorem colNd_calls {s : In} {a1 : Nat} {q : Int} {ks : List Call} (h : colNd s a1 q = .ok ks) :
    ∀ k ∈ ks, ∃ x l a2 b2 q2 mi, k = .elem x l a2 b2 q2 a1 a1 q mi ∧ (mi = .ReWnd ∨ mi = .ImWnd) ∧
      l < s.v.nleads ∧ a2 ≠ b2 ∧ (∃ r, s.v.states q2 = .ok r ∧ a2 ∈ r ∧ b2 ∈ r) ∧ q - 1 ≤ q2 ∧ q2 ≤ q + 1 := by
  have put : ∀ (w : Nat → ℝ × ℝ) (a2 b2 : Nat) (q2 : Int), a2 ≠ b2 →
      (∃ r, s.v.states q2 = .ok r ∧ a2 ∈ r ∧ b2 ∈ r) → q - 1 ≤ q2 → q2 ≤ q + 1 →
      ∀ k ∈ (List.range s.v.nleads).flatMap fun l => pair (w l).1 (w l).2 l a2 b2 q2 a1 a1 q .ReWnd .ImWnd,
      ∃ x l a2 b2 q2 mi, k = .elem x l a2 b2 q2 a1 a1 q mi ∧ (mi = .ReWnd ∨ mi = .ImWnd) ∧
      l < s.v.nleads ∧ a2 ≠ b2 ∧ (∃ r, s.v.states q2 = .ok r ∧ a2 ∈ r ∧ b2 ∈ r) ∧ q - 1 ≤ q2 ∧ q2 ≤ q + 1 := by
    intro w a2 b2 q2 hne hm h1 h2 k hk
    obtain ⟨l, hl, hk⟩ := List.mem_flatMap.1 hk
    have hl := List.mem_range.1 hl
    simp only [pair, List.mem_cons, List.not_mem_nil, or_false] at hk
    rcases hk with rfl | rfl
    · exact ⟨_, l, a2, b2, q2, .ReWnd, rfl, Or.inl rfl, hl, hne, hm, h1, h2⟩
    · exact ⟨_, l, a2, b2, q2, .ImWnd, rfl, Or.inr rfl, hl, hne, hm, h1, h2⟩
  unfold colNd at h
  refine both_forall h (fun y hy => both_forall hy (fun y hy => ?_) (fun y hy => ?_)) (fun y hy => ?_)
  · refine upper_forall hy fun l2 _ hl2 k hk => ?_
    obtain ⟨a2, ha2, hk⟩ := List.mem_flatMap.1 hk
    obtain ⟨b2, hb2, hk⟩ := List.mem_flatMap.1 hk
    split at hk
    · simp at hk
    · rename_i hne
      exact put _ a2 b2 (q + 1) hne ⟨l2, hl2, ha2, hb2⟩ (by omega) (by omega) k hk
  · refine lower_forall hy fun l2 _ hl2 k hk => ?_
    obtain ⟨a2, ha2, hk⟩ := List.mem_flatMap.1 hk
    obtain ⟨b2, hb2, hk⟩ := List.mem_flatMap.1 hk
    split at hk
    · simp at hk
    · rename_i hne
      exact put _ a2 b2 (q - 1) (Ne.symm hne) ⟨l2, hl2, ha2, hb2⟩ (by omega) (by omega) k hk
  · obtain ⟨l2, hl2, hy⟩ := bind_ok_inv hy
    refine collect_forall hy fun a2 ha2 y hy => collect_forall hy fun b2 hb2 y hy => ?_
    split at hy
    · simp only [py_pure, Except.ok.injEq] at hy
      subst hy; simp
    · rename_i hne
      refine both_forall hy (fun y hy => ?_) (fun y hy => ?_)
      · refine upper_forall hy fun l3 _ hl3 k hk => ?_
        obtain ⟨x, _, hk⟩ := List.mem_flatMap.1 hk
        rcases List.mem_append.1 hk with hk | hk
        · split at hk
          · exact put _ a2 b2 q hne ⟨l2, hl2, ha2, hb2⟩ (by omega) (by omega) k hk
          · simp at hk
        · split at hk
          · exact put _ a2 b2 q hne ⟨l2, hl2, ha2, hb2⟩ (by omega) (by omega) k hk
          · simp at hk
      · refine lower_forall hy fun l3 _ hl3 k hk => ?_
        obtain ⟨x, _, hk⟩ := List.mem_flatMap.1 hk
        rcases List.mem_append.1 hk with hk | hk
        · split at hk
          · exact put _ a2 b2 q hne ⟨l2, hl2, ha2, hb2⟩ (by omega) (by omega) k hk
          · simp at hk
        · split at hk
          · exact put _ a2 b2 q hne ⟨l2, hl2, ha2, hb2⟩ (by omega) (by omega) k hk
          · simp at hk

theorem nd_name {s : In} {off : Bool} {a1 : Nat} {q : Int} {ks : List Call} (h : nd s off a1 q = .ok ks) :
    ∀ k ∈ ks, k.name = some .ReWnd ∨ k.name = some .ImWnd := by
  unfold nd at h
  split at h
  · intro k hk
    obtain ⟨x, l, a2, b2, q2, mi, rfl, hm, _⟩ := colNd_calls h k hk
    rcases hm with rfl | rfl
    · left; rfl
    · right; rfl
  · simp only [py_pure, Except.ok.injEq] at h
    subst h; simp

/-! ### Energy kernels -/

section
variable {s : In} {la : Lab} (h : VOk s.v la)
include h

/-- The calls of `generate_row_1st_energy_kernel` and `generate_row_2nd_energy_kernel`. -/
def groupE (v : View) (la : Lab) (e : Nat → Nat → Int → Int → Nat → List Call) (c b : Nat) : List Call :=
  ((v.low c).flatMap fun a => (List.range v.nleads).flatMap fun l =>
    e a b (la.lab c b b : Nat) (la.lab (c - 1) a a : Nat) l) ++
  ((v.row (c + 1)).flatMap fun x => (List.range v.nleads).flatMap fun l =>
    e b x (la.lab c b b : Nat) (la.lab (c + 1) x x : Nat) l)

theorem rowE1_ok {c b : Nat} (hb : b ∈ s.v.row c) : rowE1 s b c = .ok (groupE s.v la (energy1 s) c b) := by
  have hcl := h.row_lt hb
  unfold rowE1
  rw [ind0_diag h hb, h.states_pred (by omega), h.states_succ hcl]
  simp only [py_bind_ok]
  rw [collect_ok (g := fun a => (List.range s.v.nleads).flatMap fun l =>
      energy1 s a b (la.lab c b b : Nat) (la.lab (c - 1) a a : Nat) l),
    collect_ok (g := fun x => (List.range s.v.nleads).flatMap fun l =>
      energy1 s b x (la.lab c b b : Nat) (la.lab (c + 1) x x : Nat) l)]
  · rfl
  · intro x hx
    rw [show ((c : Int) + 1) = ((c + 1 : Nat) : Int) by omega, ind0_diag h hx]
    rfl
  · intro a ha
    obtain ⟨h0, ha', e⟩ := h.low_mem ha
    rw [e, ind0_diag h ha']
    rfl

theorem rowE2_ok {c b : Nat} (hb : b ∈ s.v.row c) : rowE2 s b c = .ok (groupE s.v la (energy2 s) c b) := by
  have hcl := h.row_lt hb
  unfold rowE2
  rw [ind0_diag h hb, h.states_pred (by omega), h.states_succ hcl]
  simp only [py_bind_ok]
  rw [collect_ok (g := fun a => (List.range s.v.nleads).flatMap fun l =>
      energy2 s a b (la.lab c b b : Nat) (la.lab (c - 1) a a : Nat) l),
    collect_ok (g := fun x => (List.range s.v.nleads).flatMap fun l =>
      energy2 s b x (la.lab c b b : Nat) (la.lab (c + 1) x x : Nat) l)]
  · rfl
  · intro x hx
    rw [show ((c : Int) + 1) = ((c + 1 : Nat) : Int) by omega, ind0_diag h hx]
    rfl
  · intro a ha
    obtain ⟨h0, ha', e⟩ := h.low_mem ha
    rw [e, ind0_diag h ha']
    rfl

/-! ### All calls -/

/-- The calls of the first loop for one state. -/
def one (s : In) (la : Lab) (fct : Nat → Nat → ℝ × ℝ) (off : Bool) (q b : Nat) : List Call :=
  group1 s.v la fct q b ++ valD (col2 s b q) ++ groupE s.v la (energy1 s) q b ++ groupE s.v la (energy2 s) q b ++
    valD (nd s off b q)

/-- The calls of the first loop. -/
theorem calls1_inv {fct : Nat → Nat → ℝ × ℝ} {off : Bool} {ks : List Call} (hk : calls1 s fct off = .ok ks) :
    (∀ q b, b ∈ s.v.row q → col2 s b q = .ok (valD (col2 s b q)) ∧ nd s off b q = .ok (valD (nd s off b q))) ∧
      ks = (List.range s.v.ncharge).flatMap fun q => (s.v.row q).flatMap fun b => one s la fct off q b := by
  unfold calls1 at hk
  obtain ⟨g, hg, rfl⟩ := collect_inv hk
  have key : ∀ q b, b ∈ s.v.row q → col2 s b q = .ok (valD (col2 s b q)) ∧
      nd s off b q = .ok (valD (nd s off b q)) := by
    intro q b hb
    have hq := h.row_lt hb
    have := hg q (List.mem_range.2 hq)
    rw [h.states (by omega)] at this
    simp only [py_bind_ok] at this
    obtain ⟨g', hg', _⟩ := collect_inv this
    have := hg' b hb
    unfold View.isUnique at this
    rw [h.bool0 q b b hb hb (h.inc_diag q b hb), h.can_diag q b hb] at this
    simp only [py_bind_ok, if_true] at this
    obtain ⟨k1, _, this⟩ := bind_ok_inv this
    obtain ⟨k2, h2, this⟩ := bind_ok_inv this
    obtain ⟨k3, _, this⟩ := bind_ok_inv this
    obtain ⟨k4, _, this⟩ := bind_ok_inv this
    obtain ⟨k5, h5, this⟩ := bind_ok_inv this
    rw [h2, h5]
    exact ⟨rfl, rfl⟩
  refine ⟨key, ?_⟩
  have hv : ∀ q ∈ List.range s.v.ncharge, g q = (s.v.row q).flatMap fun b => one s la fct off q b := by
    intro q hq
    have h1 := hg q hq
    have hq := List.mem_range.1 hq
    rw [h.states (by omega)] at h1
    simp only [py_bind_ok] at h1
    rw [collect_ok (g := fun b => one s la fct off q b)] at h1
    · simpa using h1.symm
    · intro b hb
      obtain ⟨h2, h5⟩ := key q b hb
      unfold View.isUnique
      rw [h.bool0 q b b hb hb (h.inc_diag q b hb), h.can_diag q b hb]
      simp only [py_bind_ok, if_true]
      rw [row1_ok h fct hb, h2, rowE1_ok h hb, rowE2_ok h hb, h5]
      rfl
  exact List.flatMap_congr hv

/-- The calls of the second loop. -/
theorem calls2_inv {ks : List Call} (hk : calls2 s = .ok ks) :
    (∀ q b bp, b ∈ s.v.row q → bp ∈ s.v.row q → b ≠ bp → colDn s b bp q = .ok (valD (colDn s b bp q))) ∧
      ks = (List.range s.v.ncharge).flatMap fun (q : Nat) => (s.v.row q).flatMap fun b => (s.v.row q).flatMap fun bp =>
        if b = bp then [] else valD (colDn s b bp q) ++ rowL s b bp q := by
  unfold calls2 at hk
  obtain ⟨g, hg, rfl⟩ := collect_inv hk
  have key : ∀ q b bp, b ∈ s.v.row q → bp ∈ s.v.row q → b ≠ bp → colDn s b bp q = .ok (valD (colDn s b bp q)) := by
    intro q b bp hb hbp hne
    have hq := h.row_lt hb
    have := hg q (List.mem_range.2 hq)
    rw [h.states (by omega)] at this
    simp only [py_bind_ok] at this
    obtain ⟨g', hg', _⟩ := collect_inv this
    obtain ⟨g'', hg'', _⟩ := collect_inv (hg' b hb)
    have := hg'' bp hbp
    rw [if_neg hne] at this
    obtain ⟨k1, h1, this⟩ := bind_ok_inv this
    rw [h1]
    rfl
  refine ⟨key, ?_⟩
  have hv : ∀ q ∈ List.range s.v.ncharge, g q = (s.v.row q).flatMap fun b => (s.v.row q).flatMap fun bp =>
        if b = bp then [] else valD (colDn s b bp q) ++ rowL s b bp q := by
    intro q hq
    have h1 := hg q hq
    have hq := List.mem_range.1 hq
    rw [h.states (by omega)] at h1
    simp only [py_bind_ok] at h1
    rw [collect_ok (g := fun b => (s.v.row q).flatMap fun bp =>
        if b = bp then [] else valD (colDn s b bp q) ++ rowL s b bp q)] at h1
    · simpa using h1.symm
    · intro b hb
      apply collect_ok
      intro bp hbp
      split
      · rfl
      · rename_i hne
        rw [key q b bp hb hbp hne]; rfl
  exact List.flatMap_congr hv

/-! ### Sums of columns -/

theorem view_mem {q b : Nat} (hb : b ∈ s.v.row q) : View.mem s.v b (q : Int) :=
  ⟨s.v.row q, h.states (by have := h.row_lt hb; omega), hb⟩

omit h in
theorem sum_zero {ks : List Call} {g : Call → ℝ} (hz : ∀ k ∈ ks, g k = 0) : (ks.map g).sum = 0 := by
  apply List.sum_eq_zero
  intro x hx
  obtain ⟨k, hk, rfl⟩ := List.mem_map.1 hx
  exact hz k hk

omit h in
theorem groupE_name {e : Nat → Nat → Int → Int → Nat → List Call} {n : Name}
    (he : ∀ a b bb aa l, ∀ k ∈ e a b bb aa l, k.name = some n ∨ k.name = none) (c b : Nat) :
    ∀ k ∈ groupE s.v la e c b, k.name = some n ∨ k.name = none := by
  intro k hk
  rcases List.mem_append.1 hk with hk | hk
  · obtain ⟨a, _, hk⟩ := List.mem_flatMap.1 hk
    obtain ⟨l, _, hk⟩ := List.mem_flatMap.1 hk
    exact he _ _ _ _ _ k hk
  · obtain ⟨a, _, hk⟩ := List.mem_flatMap.1 hk
    obtain ⟨l, _, hk⟩ := List.mem_flatMap.1 hk
    exact he _ _ _ _ _ k hk

/-- The sum over all calls of the first loop of a function that vanishes for the calls to other matrices. -/
theorem calls1_sum {fct : Nat → Nat → ℝ × ℝ} {off : Bool} {ks : List Call} (hk : calls1 s fct off = .ok ks)
    (g : Call → ℝ) : (ks.map g).sum = ∑ q ∈ range s.v.ncharge, ∑ b ∈ s.v.R q,
      ((one s la fct off q b).map g).sum := by
  obtain ⟨_, rfl⟩ := calls1_inv h hk
  rw [sum_flatMap']
  have : ∀ q, (((s.v.row q).flatMap fun b => one s la fct off q b).map g).sum =
      ∑ b ∈ s.v.R q, ((one s la fct off q b).map g).sum := by
    intro q
    rw [sum_flatMap', View.R, List.sum_toFinset _ (h.nodup q)]
  simp only [this]
  rw [Finset.sum_range, ← List.sum_ofFn, List.ofFn_eq_map, ← List.map_coe_finRange_eq_range, List.map_map]
  rfl

theorem calls1_col {sh : Shape} (hsh : sh .Wdd = (s.v.nleads, s.v.npauli, s.v.npauli))
    {fct : Nat → Nat → ℝ × ℝ} {off : Bool} {ks : List Call} (hk : calls1 s fct off = .ok ks) {l : Nat}
    (hl : l < s.v.nleads) (j : Nat) : (ks.map (colOf s.v sh .Wdd l j)).sum = 0 := by
  have key := (calls1_inv h hk).1
  rw [calls1_sum h hk, ← group1_col h hsh fct hl j]
  refine sum_congr rfl fun q _ => sum_congr rfl fun b hb => ?_
  have hb := (mem_R h).1 hb
  unfold one
  simp only [List.map_append, List.sum_append]
  rw [sum_zero (ks := valD (col2 s b q)), sum_zero (ks := groupE s.v la (energy1 s) q b),
    sum_zero (ks := groupE s.v la (energy2 s) q b), sum_zero (ks := valD (nd s off b q))]
  · simp
  · intro k hk
    apply colOf_name
    rcases nd_name (key q b hb).2 k hk with e | e <;> rw [e] <;> simp
  · intro k hk
    apply colOf_name
    rcases groupE_name (n := .WE2) (fun _ _ _ _ _ => energy2_name) q b k hk with e | e <;> rw [e] <;> simp
  · intro k hk
    apply colOf_name
    rcases groupE_name (n := .WE1) (fun _ _ _ _ _ => energy1_name) q b k hk with e | e <;> rw [e] <;> simp
  · intro k hk
    obtain ⟨r, f, i0, i1, a1, a3, q3, a4, q4, rfl, _⟩ := col2_calls (view_mem h hb) (key q b hb).1 k hk
    apply colOf_two

theorem calls1_name {fct : Nat → Nat → ℝ × ℝ} {off : Bool} {ks : List Call} (hk : calls1 s fct off = .ok ks) :
    ∀ k ∈ ks, k.name ≠ some .ReWdn ∧ k.name ≠ some .ImWdn := by
  obtain ⟨key, rfl⟩ := calls1_inv h hk
  intro k hk
  obtain ⟨q, hq, hk⟩ := List.mem_flatMap.1 hk
  obtain ⟨b, hb, hk⟩ := List.mem_flatMap.1 hk
  simp only [one, List.mem_append] at hk
  rcases hk with (((hk | hk) | hk) | hk) | hk
  · simp only [group1, List.mem_append, List.mem_flatMap, List.mem_singleton] at hk
    rcases hk with ⟨_, _, _, _, rfl⟩ | ⟨_, _, _, _, rfl⟩ <;> simp [Call.name]
  · rw [(col2_calls (view_mem h hb) (key q b hb).1 k hk).name]; simp
  · rcases groupE_name (n := .WE1) (fun _ _ _ _ _ => energy1_name) q b k hk with e | e <;> rw [e] <;> simp
  · rcases groupE_name (n := .WE2) (fun _ _ _ _ _ => energy2_name) q b k hk with e | e <;> rw [e] <;> simp
  · rcases nd_name (key q b hb).2 k hk with e | e <;> rw [e] <;> simp

theorem calls2_name {ks : List Call} (hk : calls2 s = .ok ks) :
    ∀ k ∈ ks, k.name = some .ReWdn ∨ k.name = some .ImWdn ∨ k.name = none := by
  obtain ⟨key, rfl⟩ := calls2_inv h hk
  intro k hk
  obtain ⟨q, hq, hk⟩ := List.mem_flatMap.1 hk
  obtain ⟨b, hb, hk⟩ := List.mem_flatMap.1 hk
  obtain ⟨bp, hbp, hk⟩ := List.mem_flatMap.1 hk
  split at hk
  · simp at hk
  · rename_i hne
    rcases List.mem_append.1 hk with hk | hk
    · obtain ⟨x, l, a2, q2, mi, rfl, hm, _⟩ := colDn_calls (key q b bp hb hbp hne) k hk
      rcases hm with rfl | rfl
      · left; rfl
      · right; left; rfl
    · simp only [rowL, List.mem_singleton] at hk
      subst hk; right; right; rfl

theorem calls2_col {sh : Shape} {n : Name} (hn : n = .ReWdn ∨ n = .ImWdn) {k : Nat}
    (hsh : sh n = (s.v.nleads, s.v.npauli, k)) {l : Nat} (hl : l < s.v.nleads) (j : Nat)
    {ks : List Call} (hk : calls2 s = .ok ks) : (ks.map (colOf s.v sh n l j)).sum = 0 := by
  obtain ⟨key, rfl⟩ := calls2_inv h hk
  rw [sum_flatMap']
  apply List.sum_eq_zero
  intro x hx
  obtain ⟨q, hq, rfl⟩ := List.mem_map.1 hx
  rw [sum_flatMap']
  apply List.sum_eq_zero
  intro x hx
  obtain ⟨b, hb, rfl⟩ := List.mem_map.1 hx
  rw [sum_flatMap']
  apply List.sum_eq_zero
  intro x hx
  obtain ⟨bp, hbp, rfl⟩ := List.mem_map.1 hx
  split
  · rfl
  · rename_i hne
    rw [List.map_append, List.sum_append, colDn_col h hn hsh hl j hb hbp (key q b bp hb hbp hne), zero_add]
    apply sum_zero
    intro k hk
    simp only [rowL, List.mem_singleton] at hk
    subst hk
    apply colOf_name
    simp [Call.name]

end

end RTD

end

end Verif
