import Verif.Model.Neumann2Terms
import Verif.Spec.Neumann2
import Verif.Lemmas.Neumann2Kern
import Verif.Props.Neumann2Grid

/-! The equations for `Phi[1](k)` in closed form. -/

namespace Verif

open Finset

noncomputable section

namespace VN2

/-! ### Loops -/

theorem collect_sum {α β ι : Type} {l : List α} {f : α → Py (List β)} (w : ι → β → ℂ) (P : β → Prop) (g : ι → α → ℂ)
    (h : ∀ a ∈ l, ∃ L, f a = .ok L ∧ (∀ e ∈ L, P e) ∧ ∀ x, (L.map (w x)).sum = g x a) :
    ∃ L, collect l f = .ok L ∧ (∀ e ∈ L, P e) ∧ ∀ x, (L.map (w x)).sum = (l.map (g x)).sum := by
  classical
  have h' : ∀ a, ∃ L, a ∈ l → f a = .ok L ∧ (∀ e ∈ L, P e) ∧ ∀ x, (L.map (w x)).sum = g x a := by
    intro a
    by_cases ha : a ∈ l
    · obtain ⟨L, hL⟩ := h a ha; exact ⟨L, fun _ => hL⟩
    · exact ⟨[], fun h => absurd h ha⟩
  choose G hG using h'
  refine ⟨_, collect_ok fun a ha => (hG a ha).1, ?_, ?_⟩
  · intro e he
    obtain ⟨a, ha, he⟩ := List.mem_flatMap.1 he
    exact (hG a ha).2.1 e he
  · intro x
    rw [sum_flatMap']
    congr 1
    refine List.map_congr_left fun a ha => ?_
    exact (hG a ha).2.2 x

theorem collect_range {β ι : Type} {n : Nat} {f : Nat → Py (List β)} (w : ι → β → ℂ) (P : β → Prop) (g : ι → Nat → ℂ)
    (h : ∀ a < n, ∃ L, f a = .ok L ∧ (∀ e ∈ L, P e) ∧ ∀ x, (L.map (w x)).sum = g x a) :
    ∃ L, collect (List.range n) f = .ok L ∧ (∀ e ∈ L, P e) ∧ ∀ x, (L.map (w x)).sum = ∑ a ∈ range n, g x a := by
  obtain ⟨L, h1, h2, h3⟩ := collect_sum (l := List.range n) w P g fun a ha => h a (by simpa using ha)
  refine ⟨L, h1, h2, fun x => ?_⟩
  rw [h3, ← List.sum_toFinset _ List.nodup_range]
  exact sum_congr (by ext; simp) fun _ _ => rfl

theorem collect_list {β ι : Type} {l : List Nat} (hl : l.Nodup) {f : Nat → Py (List β)} (w : ι → β → ℂ) (P : β → Prop)
    (g : ι → Nat → ℂ) (h : ∀ a ∈ l, ∃ L, f a = .ok L ∧ (∀ e ∈ L, P e) ∧ ∀ x, (L.map (w x)).sum = g x a) :
    ∃ L, collect l f = .ok L ∧ (∀ e ∈ L, P e) ∧ ∀ x, (L.map (w x)).sum = ∑ a ∈ l.toFinset, g x a := by
  obtain ⟨L, h1, h2, h3⟩ := collect_sum w P g h
  refine ⟨L, h1, h2, fun x => ?_⟩
  rw [h3, ← List.sum_toFinset _ hl]

theorem collect_prod {β ι : Type} {l l' : List Nat} (hl : l.Nodup) (hl' : l'.Nodup) {f : Nat × Nat → Py (List β)}
    (w : ι → β → ℂ) (P : β → Prop) (g : ι → Nat → Nat → ℂ)
    (h : ∀ a ∈ l, ∀ b ∈ l', ∃ L, f (a, b) = .ok L ∧ (∀ e ∈ L, P e) ∧ ∀ x, (L.map (w x)).sum = g x a b) :
    ∃ L, collect (prod2 l l') f = .ok L ∧ (∀ e ∈ L, P e) ∧
      ∀ x, (L.map (w x)).sum = ∑ a ∈ l.toFinset, ∑ b ∈ l'.toFinset, g x a b := by
  obtain ⟨L, h1, h2, h3⟩ := collect_sum (l := prod2 l l') w P (fun x p => g x p.1 p.2) fun p hp => by
    obtain ⟨a, b⟩ := p
    have := prod2_mem hp
    exact h a this.1 b this.2
  refine ⟨L, h1, h2, fun x => ?_⟩
  rw [h3, sum_prod2 hl hl']

/-- One element of a loop. -/
theorem one_sum {β ι : Type} (w : ι → β → ℂ) (P : β → Prop) (e : β) (he : P e) (g : ι → ℂ) (hg : ∀ x, w x e = g x) :
    ∃ L, (pure [e] : Py (List β)) = .ok L ∧ (∀ e ∈ L, P e) ∧ ∀ x, (L.map (w x)).sum = g x :=
  ⟨[e], rfl, by simpa using he, fun x => by simp [hg]⟩

/-! ### Matrices of increments -/

/-- The increment has indices within the matrix. -/
def Ent.ok (r c : Nat) (e : Ent) : Prop := (0 ≤ e.i ∧ e.i < r) ∧ 0 ≤ e.j ∧ e.j < c

theorem addEnts_val {l : List Ent} {m : CMat} (h : ∀ e ∈ l, e.ok m.rows m.cols) :
    ∃ m', addEnts m l = .ok m' ∧ m'.rows = m.rows ∧ m'.cols = m.cols ∧
      ∀ a b : Nat, m'.val a b = m.val a b + (l.map fun e => if (e.i = (a : Int) ∧ e.j = (b : Int)) then e.x else 0).sum := by
  induction l generalizing m with
  | nil => exact ⟨m, rfl, rfl, rfl, by simp⟩
  | cons e l ih =>
    obtain ⟨⟨i0, i1⟩, j0, j1⟩ := h e (by simp)
    have e1 : m.add e.i e.j e.x = .ok { m with val := fun a b => if a = e.i.toNat ∧ b = e.j.toNat then m.val a b + e.x else m.val a b } := by
      unfold CMat.add
      rw [pyIdx_ok i0 i1, pyIdx_ok j0 j1]
      rfl
    obtain ⟨m', g1, g2, g3, g4⟩ := ih (m := { m with val := fun a b => if a = e.i.toNat ∧ b = e.j.toNat then m.val a b + e.x else m.val a b })
      (fun o ho => h o (by simp [ho]))
    refine ⟨m', ?_, g2, g3, fun a b => ?_⟩
    · show (e :: l).foldlM _ m = _
      rw [List.foldlM_cons, e1]
      exact g1
    · rw [g4]
      simp only [List.map_cons, List.sum_cons]
      have : (a = e.i.toNat ∧ b = e.j.toNat) ↔ (e.i = a ∧ e.j = b) := by omega
      simp only [this]
      split
      · ring
      · ring

/-- The matrix of increments applied to a vector. -/
theorem addEnts_act {r c : Nat} {l : List Ent} (h : ∀ e ∈ l, e.ok r c) :
    ∃ m, addEnts (CMat.zeros r c) l = .ok m ∧ m.rows = r ∧ m.cols = c ∧
      ∀ (i : Nat) (x : Nat → ℂ), ∑ j ∈ range c, m.val i j * x j =
        (l.map fun e => if e.i = (i : Int) then e.x * x e.j.toNat else 0).sum := by
  obtain ⟨m, h1, h2, h3, h4⟩ := addEnts_val (m := CMat.zeros r c) h
  refine ⟨m, h1, h2, h3, fun i x => ?_⟩
  simp only [h4, CMat.zeros, zero_add]
  clear h4 h1
  induction l with
  | nil => simp
  | cons e l ih =>
    simp only [List.map_cons, List.sum_cons, add_mul, sum_add_distrib]
    rw [ih fun o ho => h o (by simp [ho])]
    congr 1
    obtain ⟨_, j0, j1⟩ := h e (by simp)
    by_cases hi : e.i = i
    · simp only [hi, true_and, if_true]
      have : ∀ j ∈ range c, (if e.j = (j : Int) then e.x else 0) * x j = if j = e.j.toNat then e.x * x e.j.toNat else 0 := by
        intro j _
        by_cases hj : j = e.j.toNat
        · rw [if_pos (by omega), if_pos hj, hj]
        · rw [if_neg (by omega), if_neg hj, zero_mul]
      rw [sum_congr rfl this, sum_ite_eq']
      simp only [mem_range]
      rw [if_pos (by omega)]
    · simp [hi]

/-- What is added by an increment. -/
def Ent.act (x : Nat → ℂ) (e : Ent) : ℂ := e.x * x e.j.toNat

section

variable {s : Terms} {lab ix1 : Nat → Nat → Nat → Nat}

/-- Collecting over all elements. -/
theorem elems_ok {β ι : Type} (h : VOkC s.v lab ix1) {f : Int → Nat → Nat → Py (List β)} (w : ι → β → ℂ) (P : β → Prop)
    (g : ι → Nat → Nat → Nat → ℂ)
    (hf : ∀ q c b : Nat, c ∈ s.v.row (q + 1) → b ∈ s.v.row q →
      ∃ L, f q c b = .ok L ∧ (∀ e ∈ L, P e) ∧ ∀ x, (L.map (w x)).sum = g x q c b) :
    ∃ L, s.elems f = .ok L ∧ (∀ e ∈ L, P e) ∧ ∀ x, (L.map (w x)).sum =
      ∑ q ∈ range (s.v.ncharge - 1), ∑ c ∈ s.v.R (q + 1), ∑ b ∈ s.v.R q, g x q c b := by
  unfold Terms.elems
  refine collect_range w P (fun x q => ∑ c ∈ s.v.R (q + 1), ∑ b ∈ s.v.R q, g x q c b) fun q hq => ?_
  rw [h.states_succ (by omega), h.states (by omega)]
  simp only [py_bind_ok]
  exact collect_prod (h.nodup _) (h.nodup _) w P (fun x c b => g x q c b) fun c hc b hb => hf q c b hc hb

/-- The sum over elements with one label. -/
theorem sum_label (h : VOkC s.v lab ix1) {q c b : Nat} (hc : c ∈ s.v.row (q + 1)) (hb : b ∈ s.v.row q)
    (g : Nat → Nat → Nat → ℂ) :
    ∑ q' ∈ range (s.v.ncharge - 1), ∑ c' ∈ s.v.R (q' + 1), ∑ b' ∈ s.v.R q',
      (if ix1 q' c' b' = ix1 q c b then g q' c' b' else 0) = g q c b := by
  have hq := h.row_lt hc
  rw [sum_eq_single q, sum_eq_single c, sum_eq_single b]
  · simp
  · intro b' hb' hne
    rw [if_neg]
    intro e
    exact hne (h.ix1_inj _ _ _ _ _ _ hc (h.mem_R.1 hb') hc hb e).2.2
  · intro hn; exact absurd (h.mem_R.2 hb) hn
  · intro c' hc' hne
    refine sum_eq_zero fun b' hb' => ?_
    rw [if_neg]
    intro e
    exact hne (h.ix1_inj _ _ _ _ _ _ (h.mem_R.1 hc') (h.mem_R.1 hb') hc hb e).2.1
  · intro hn; exact absurd (h.mem_R.2 hc) hn
  · intro q' _ hne
    refine sum_eq_zero fun c' hc' => sum_eq_zero fun b' hb' => ?_
    rw [if_neg]
    intro e
    exact hne (h.ix1_inj _ _ _ _ _ _ (h.mem_R.1 hc') (h.mem_R.1 hb') hc hb e).1
  · intro hn; exact absurd (mem_range.2 (by omega)) hn

/-- The matrix with increments for each element. -/
theorem elems_mat (h : VOkC s.v lab ix1) {n : Nat} {f : Int → Nat → Nat → Py (List Ent)} (g : (Nat → ℂ) → Nat → Nat → Nat → ℂ)
    (hf : ∀ q c b : Nat, c ∈ s.v.row (q + 1) → b ∈ s.v.row q →
      ∃ L, f q c b = .ok L ∧ (∀ e ∈ L, e.i = ix1 q c b ∧ 0 ≤ e.j ∧ e.j < n) ∧ ∀ x, (L.map (Ent.act x)).sum = g x q c b) :
    ∃ L m, s.elems f = .ok L ∧ addEnts (CMat.zeros s.v.ndm1 n) L = .ok m ∧ m.rows = s.v.ndm1 ∧ m.cols = n ∧
      ∀ (q c b : Nat), c ∈ s.v.row (q + 1) → b ∈ s.v.row q → ∀ x : Nat → ℂ,
        ∑ j ∈ range n, m.val (ix1 q c b) j * x j = g x q c b := by
  obtain ⟨L, h1, h2, h3⟩ := elems_ok h (f := f) (ι := Nat × (Nat → ℂ)) (fun p e => if e.i = (p.1 : Int) then e.act p.2 else 0)
    (fun e => e.ok s.v.ndm1 n) (fun p q c b => if ix1 q c b = p.1 then g p.2 q c b else 0) fun q c b hc hb => by
      obtain ⟨L, a1, a2, a3⟩ := hf q c b hc hb
      refine ⟨L, a1, fun e he => ?_, fun p => ?_⟩
      · obtain ⟨b1, b2, b3⟩ := a2 e he
        have := h.ix1_lt q c b hc hb
        exact ⟨by omega, b2, b3⟩
      · by_cases hp : ix1 q c b = p.1
        · rw [if_pos hp, ← a3]
          congr 1
          refine List.map_congr_left fun e he => ?_
          rw [if_pos (by rw [(a2 e he).1, hp])]
        · rw [if_neg hp]
          apply List.sum_eq_zero
          intro z hz
          obtain ⟨e, he, rfl⟩ := List.mem_map.1 hz
          rw [if_neg]
          rw [(a2 e he).1]
          exact_mod_cast hp
  obtain ⟨m, m1, m2, m3, m4⟩ := addEnts_act h2
  refine ⟨L, m, h1, m1, m2, m3, fun q c b hc hb x => ?_⟩
  rw [m4]
  have := h3 (ix1 q c b, x)
  rw [sum_label h hc hb] at this
  exact this

/-- The interpolated transforms of the distributions. -/
structure TermsOk (s : Terms) (lab ix1 : Nat → Nat → Nat → Nat) (F G : Nat → ℝ → ℂ) : Prop where
  ok : VOkC s.v lab ix1
  fnp : ∀ l < s.v.nleads, ∀ E plus, s.fn s.hfkp E l plus = .ok (cjIf (!plus) (F l E))
  fnm : ∀ l < s.v.nleads, ∀ E plus, s.fn s.hfkm E l plus = .ok (cjIf (!plus) (G l E))

theorem states_two (h : VOkC s.v lab ix1) {q c : Nat} (hc : c ∈ s.v.row (q + 1)) :
    s.v.states ((q : Int) + 2) = .ok (s.v.row (q + 2)) := by
  have := h.row_lt hc
  have := h.states (c := q + 2) (by omega)
  push_cast at this
  exact this

/-- The increments of `kern0`. -/
theorem src_ok (h : VOkC s.v lab ix1) (l : Nat) (fp fm : ℂ) {q c b : Nat} (hc : c ∈ s.v.row (q + 1)) (hb : b ∈ s.v.row q) :
    ∃ L, s.src l fp fm q c b = .ok L ∧ (∀ e ∈ L, e.i = ix1 q c b ∧ 0 ≤ e.j ∧ e.j < s.v.ndm0) ∧
      ∀ x, (L.map (Ent.act x)).sum = ∑ b1 ∈ s.v.R q, s.T l c b1 * fp * x (lab q b1 b) +
        ∑ c1 ∈ s.v.R (q + 1), -s.T l c1 b * fm * x (lab (q + 1) c c1) := by
  have hq := h.row_lt hc
  obtain ⟨X, x1, x2, x3⟩ := collect_list (h.nodup q) (f := fun b1 => do
    let b1b ← s.v.ind0 b1 b q
    pure [(⟨ix1 q c b, b1b, s.T l c b1 * fp⟩ : Ent)]) Ent.act (fun e => e.i = ix1 q c b ∧ 0 ≤ e.j ∧ e.j < s.v.ndm0)
    (fun x b1 => s.T l c b1 * fp * x (lab q b1 b)) fun b1 hb1 => by
      rw [h.ind0 q b1 b hb1 hb]
      have := h.lab_lt q b1 b hb1 hb
      exact one_sum Ent.act _ _ ⟨rfl, by simp, by simpa using this⟩ _ fun x => by simp [Ent.act]
  obtain ⟨Y, y1, y2, y3⟩ := collect_list (h.nodup (q + 1)) (f := fun c1 => do
    let cc1 ← s.v.ind0 c c1 ((q : Int) + 1)
    pure [(⟨ix1 q c b, cc1, -s.T l c1 b * fm⟩ : Ent)]) Ent.act (fun e => e.i = ix1 q c b ∧ 0 ≤ e.j ∧ e.j < s.v.ndm0)
    (fun x c1 => -s.T l c1 b * fm * x (lab (q + 1) c c1)) fun c1 hc1 => by
      have e := h.ind0 (q + 1) c c1 hc hc1
      push_cast at e
      rw [e]
      have := h.lab_lt (q + 1) c c1 hc hc1
      exact one_sum Ent.act _ _ ⟨rfl, by simp, by simpa using this⟩ _ fun x => by simp [Ent.act]
  refine ⟨X ++ Y, ?_, ?_, ?_⟩
  · unfold Terms.src
    rw [h.ind1 q c b hc hb, h.states (by omega), h.states_succ (by omega)]
    simp only [py_bind_ok]
    rw [x1, y1]
    rfl
  · intro e he
    rcases List.mem_append.1 he with he | he
    · exact x2 e he
    · exact y2 e he
  · intro x
    rw [List.map_append, List.sum_append, x3, y3]
    rfl

theorem bind_ex {α β : Type} {m : Py α} {k : α → Py β} {A : α → Prop} {R : β → Prop} (h1 : ∃ a, m = .ok a ∧ A a)
    (h2 : ∀ a, A a → ∃ b, k a = .ok b ∧ R b) : ∃ b, (m >>= k) = .ok b ∧ R b := by
  obtain ⟨a, e, ha⟩ := h1
  rw [e]
  exact h2 a ha

/-- The labels of elements below. -/
theorem ind1_low (h : VOkC s.v lab ix1) {q b a : Nat} (hb : b ∈ s.v.row q) (ha : a ∈ s.v.low q) :
    s.v.ind1 b a ((q : Int) - 1) = .ok (ix1 (q - 1) b a) ∧ ix1 (q - 1) b a < s.v.ndm1 := by
  obtain ⟨h0, h1, h2⟩ := h.low_mem ha
  have hb' : b ∈ s.v.row (q - 1 + 1) := by rwa [Nat.sub_add_cancel h0]
  rw [h2]
  exact ⟨h.ind1 _ _ _ hb' h1, h.ix1_lt _ _ _ hb' h1⟩

theorem ind1_up (h : VOkC s.v lab ix1) {q d c : Nat} (hd : d ∈ s.v.row (q + 2)) (hc : c ∈ s.v.row (q + 1)) :
    s.v.ind1 d c ((q : Int) + 1) = .ok (ix1 (q + 1) d c) ∧ ix1 (q + 1) d c < s.v.ndm1 := by
  have := h.ind1 (q + 1) d c hd hc
  push_cast at this
  exact ⟨this, h.ix1_lt _ _ _ hd hc⟩

/-- What `kern1` does to a vector of first order elements, as in the code. -/
def locSum (s : Terms) (ix1 : Nat → Nat → Nat → Nat) (F G : Nat → ℝ → ℂ) (Ek : ℝ) (x : Nat → ℂ) (q c b : Nat) : ℂ :=
  ((Ek - s.E c + s.E b : ℝ) : ℂ) * x (ix1 q c b) +
  (∑ b1 ∈ s.v.R q, ∑ a1 ∈ s.v.Lo q, ∑ l1 ∈ range s.v.nleads, -(s.T l1 c b1 * s.T l1 a1 b *
      (F l1 (Ek - s.E b1 + s.E b) - (starRingEnd ℂ) (F l1 (-(Ek - s.E c + s.E a1))))) * x (ix1 (q - 1) b1 a1) +
  ∑ b1 ∈ s.v.R q, ∑ l1 ∈ range s.v.nleads,
    (∑ c1 ∈ s.v.R (q + 1), -(s.T l1 b1 c1 * s.T l1 c1 b * F l1 (Ek - s.E c + s.E c1)) * x (ix1 q c b1) +
     ∑ a1 ∈ s.v.Lo q, -(-s.T l1 b1 a1 * s.T l1 a1 b * (starRingEnd ℂ) (G l1 (-(Ek - s.E c + s.E a1)))) * x (ix1 q c b1)) +
  ∑ c1 ∈ s.v.R (q + 1), ∑ l1 ∈ range s.v.nleads,
    (∑ b1 ∈ s.v.R q, -(s.T l1 c b1 * s.T l1 b1 c1 * G l1 (Ek - s.E b1 + s.E b)) * x (ix1 q c1 b) +
     ∑ d1 ∈ s.v.R (q + 2), -(-s.T l1 c d1 * s.T l1 d1 c1 * (starRingEnd ℂ) (F l1 (-(Ek - s.E d1 + s.E b)))) * x (ix1 q c1 b)) +
  ∑ d1 ∈ s.v.R (q + 2), ∑ c1 ∈ s.v.R (q + 1), ∑ l1 ∈ range s.v.nleads, -(s.T l1 c d1 * s.T l1 c1 b *
      (G l1 (Ek - s.E c + s.E c1) - (starRingEnd ℂ) (G l1 (-(Ek - s.E d1 + s.E b))))) * x (ix1 (q + 1) d1 c1))

theorem loc_ok {F G : Nat → ℝ → ℂ} (ht : TermsOk s lab ix1 F G) (Ek : ℝ) {q c b : Nat} (hc : c ∈ s.v.row (q + 1))
    (hb : b ∈ s.v.row q) : ∃ L, s.loc Ek q c b = .ok L ∧ (∀ e ∈ L, e.i = ix1 q c b ∧ 0 ≤ e.j ∧ e.j < s.v.ndm1) ∧
      ∀ x, (L.map (Ent.act x)).sum = locSum s ix1 F G Ek x q c b := by
  have h := ht.ok
  have hq := h.row_lt hc
  unfold Terms.loc
  rw [h.ind1 q c b hc hb, h.states (by omega), h.states_succ (by omega), h.states_pred (by omega), states_two h hc]
  simp only [py_bind_ok]
  let P : Ent → Prop := fun e => e.i = ix1 q c b ∧ 0 ≤ e.j ∧ e.j < s.v.ndm1
  refine bind_ex (collect_prod (h.nodup q) (h.low_nodup q) Ent.act P
    (fun x b1 a1 => ∑ l1 ∈ range s.v.nleads, -(s.T l1 c b1 * s.T l1 a1 b *
      (F l1 (Ek - s.E b1 + s.E b) - (starRingEnd ℂ) (F l1 (-(Ek - s.E c + s.E a1))))) * x (ix1 (q - 1) b1 a1)) ?_) ?_
  · intro b1 hb1 a1 ha1
    obtain ⟨i1, i2⟩ := ind1_low h hb1 ha1
    simp only [i1, py_bind_ok]
    refine collect_range Ent.act P _ fun l1 hl1 => ?_
    rw [ht.fnp l1 hl1, ht.fnp l1 hl1]
    simp only [py_bind_ok]
    exact one_sum Ent.act P _ ⟨rfl, by simp, by simpa using i2⟩ _ fun x => by simp [Ent.act, cjIf]
  rintro t27 ⟨p27, s27⟩
  refine bind_ex (collect_list (h.nodup q) Ent.act P
    (fun x b1 => ∑ l1 ∈ range s.v.nleads,
    (∑ c1 ∈ s.v.R (q + 1), -(s.T l1 b1 c1 * s.T l1 c1 b * F l1 (Ek - s.E c + s.E c1)) * x (ix1 q c b1) +
     ∑ a1 ∈ s.v.Lo q, -(-s.T l1 b1 a1 * s.T l1 a1 b * (starRingEnd ℂ) (G l1 (-(Ek - s.E c + s.E a1)))) * x (ix1 q c b1))) ?_) ?_
  · intro b1 hb1
    have i1 := h.ind1 q c b1 hc hb1
    have i2 := h.ix1_lt q c b1 hc hb1
    simp only [i1, py_bind_ok]
    refine collect_range Ent.act P _ fun l1 hl1 => ?_
    refine bind_ex (collect_list (h.nodup (q + 1)) Ent.act P
      (fun x c1 => -(s.T l1 b1 c1 * s.T l1 c1 b * F l1 (Ek - s.E c + s.E c1)) * x (ix1 q c b1)) ?_) ?_
    · intro c1 hc1
      rw [ht.fnp l1 hl1]
      exact one_sum Ent.act P _ ⟨rfl, by simp, by simpa using i2⟩ _ fun x => by simp [Ent.act, cjIf]
    rintro p ⟨p1, p2⟩
    refine bind_ex (collect_list (h.low_nodup q) Ent.act P
      (fun x a1 => -(-s.T l1 b1 a1 * s.T l1 a1 b * (starRingEnd ℂ) (G l1 (-(Ek - s.E c + s.E a1)))) * x (ix1 q c b1)) ?_) ?_
    · intro a1 ha1
      rw [ht.fnm l1 hl1]
      exact one_sum Ent.act P _ ⟨rfl, by simp, by simpa using i2⟩ _ fun x => by simp [Ent.act, cjIf]
    rintro r ⟨r1, r2⟩
    refine ⟨p ++ r, rfl, ?_, fun x => by rw [List.map_append, List.sum_append, p2, r2]; rfl⟩
    intro e he
    rcases List.mem_append.1 he with he | he
    · exact p1 e he
    · exact r1 e he
  rintro t68 ⟨p68, s68⟩
  refine bind_ex (collect_list (h.nodup (q + 1)) Ent.act P
    (fun x c1 => ∑ l1 ∈ range s.v.nleads,
    (∑ b1 ∈ s.v.R q, -(s.T l1 c b1 * s.T l1 b1 c1 * G l1 (Ek - s.E b1 + s.E b)) * x (ix1 q c1 b) +
     ∑ d1 ∈ s.v.R (q + 2), -(-s.T l1 c d1 * s.T l1 d1 c1 * (starRingEnd ℂ) (F l1 (-(Ek - s.E d1 + s.E b)))) * x (ix1 q c1 b))) ?_) ?_
  · intro c1 hc1
    have i1 := h.ind1 q c1 b hc1 hb
    have i2 := h.ix1_lt q c1 b hc1 hb
    simp only [i1, py_bind_ok]
    refine collect_range Ent.act P _ fun l1 hl1 => ?_
    refine bind_ex (collect_list (h.nodup q) Ent.act P
      (fun x b1 => -(s.T l1 c b1 * s.T l1 b1 c1 * G l1 (Ek - s.E b1 + s.E b)) * x (ix1 q c1 b)) ?_) ?_
    · intro b1 hb1
      rw [ht.fnm l1 hl1]
      exact one_sum Ent.act P _ ⟨rfl, by simp, by simpa using i2⟩ _ fun x => by simp [Ent.act, cjIf]
    rintro p ⟨p1, p2⟩
    refine bind_ex (collect_list (h.nodup (q + 2)) Ent.act P
      (fun x d1 => -(-s.T l1 c d1 * s.T l1 d1 c1 * (starRingEnd ℂ) (F l1 (-(Ek - s.E d1 + s.E b)))) * x (ix1 q c1 b)) ?_) ?_
    · intro d1 hd1
      rw [ht.fnp l1 hl1]
      exact one_sum Ent.act P _ ⟨rfl, by simp, by simpa using i2⟩ _ fun x => by simp [Ent.act, cjIf]
    rintro r ⟨r1, r2⟩
    refine ⟨p ++ r, rfl, ?_, fun x => by rw [List.map_append, List.sum_append, p2, r2]; rfl⟩
    intro e he
    rcases List.mem_append.1 he with he | he
    · exact p1 e he
    · exact r1 e he
  rintro t13 ⟨p13, s13⟩
  refine bind_ex (collect_prod (h.nodup (q + 2)) (h.nodup (q + 1)) Ent.act P
    (fun x d1 c1 => ∑ l1 ∈ range s.v.nleads, -(s.T l1 c d1 * s.T l1 c1 b *
      (G l1 (Ek - s.E c + s.E c1) - (starRingEnd ℂ) (G l1 (-(Ek - s.E d1 + s.E b))))) * x (ix1 (q + 1) d1 c1)) ?_) ?_
  · intro d1 hd1 c1 hc1
    obtain ⟨i1, i2⟩ := ind1_up h hd1 hc1
    simp only [i1, py_bind_ok]
    refine collect_range Ent.act P _ fun l1 hl1 => ?_
    rw [ht.fnm l1 hl1, ht.fnm l1 hl1]
    simp only [py_bind_ok]
    exact one_sum Ent.act P _ ⟨rfl, by simp, by simpa using i2⟩ _ fun x => by simp [Ent.act, cjIf]
  rintro t54 ⟨p54, s54⟩
  refine ⟨_, rfl, ?_, fun x => ?_⟩
  · intro e he
    rcases List.mem_cons.1 he with rfl | he
    · exact ⟨rfl, by simp, by simpa using h.ix1_lt q c b hc hb⟩
    · simp only [List.mem_append] at he
      rcases he with ((he | he) | he) | he
      · exact p27 e he
      · exact p68 e he
      · exact p13 e he
      · exact p54 e he
  · rw [List.map_cons, List.sum_cons, List.map_append, List.map_append, List.map_append, List.sum_append, List.sum_append,
      List.sum_append, s27, s68, s13, s54]
    simp only [Ent.act, Int.toNat_natCast]
    rfl

/-- The interpolated values of the previous correction: `W` and its Hilbert transform `H`, for lead, element and column. -/
def OldOk (s : Terms) (o : Old) (W H : Nat → Nat → Nat → ℝ → ℂ) : Prop :=
  ∀ l < s.v.nleads, ∀ cb < s.v.ndm1, ∀ (E : ℝ) (cj : Bool), ∃ r, s.at1 o E l cb cj = .ok r ∧
    ∀ j < s.v.ndm0, r j = (Real.pi * cjIf cj (H l cb j E), Real.pi * cjIf cj (W l cb j E))

/-- The value `hu - 1j*u` of the conjugated elements. -/
def advU (W H : Nat → Nat → Nat → ℝ → ℂ) (j l cb : Nat) (E : ℝ) : ℂ :=
  Real.pi * ((starRingEnd ℂ) (H l cb j E) - Complex.I * (starRingEnd ℂ) (W l cb j E))

/-- The value `hu + 1j*u`. -/
def advV (W H : Nat → Nat → Nat → ℝ → ℂ) (j l cb : Nat) (E : ℝ) : ℂ :=
  Real.pi * (H l cb j E + Complex.I * W l cb j E)

/-- The sum of the eight terms, as in the code. -/
def itrSum (s : Terms) (ix1 : Nat → Nat → Nat → Nat) (U V : Nat → Nat → ℝ → ℂ) (Ek : ℝ) (l : Nat) (fp fm : ℂ) (q c b : Nat) : ℂ :=
  ∑ a1 ∈ s.v.Lo q, ∑ b1 ∈ s.v.R q, ∑ l1 ∈ range s.v.nleads,
    -s.T l1 c b1 * s.T l b1 a1 * fp * U l1 (ix1 (q - 1) b a1) (Ek - s.E b1 + s.E b) +
  ∑ b1 ∈ s.v.R q, ∑ c1 ∈ s.v.R (q + 1), ∑ l1 ∈ range s.v.nleads,
    (-s.T l1 c b1 * U l1 (ix1 q c1 b1) (Ek - s.E b1 + s.E b) * fm * s.T l c1 b +
     -s.T l c b1 * fp * U l1 (ix1 q c1 b1) (Ek - s.E c + s.E c1) * s.T l1 c1 b) +
  ∑ c1 ∈ s.v.R (q + 1), ∑ d1 ∈ s.v.R (q + 2), ∑ l1 ∈ range s.v.nleads,
    s.T l1 c d1 * s.T l d1 c1 * fp * V l1 (ix1 q c1 b) (-(Ek - s.E d1 + s.E b)) +
  ∑ d1 ∈ s.v.R (q + 2), ∑ c1 ∈ s.v.R (q + 1), ∑ l1 ∈ range s.v.nleads,
    s.T l1 c d1 * V l1 (ix1 (q + 1) d1 c1) (-(Ek - s.E d1 + s.E b)) * fm * s.T l c1 b +
  ∑ d1 ∈ s.v.R (q + 2), ∑ c1 ∈ s.v.R (q + 1), ∑ l1 ∈ range s.v.nleads,
    -U l1 (ix1 (q + 1) d1 c) (Ek - s.E c + s.E c1) * fm * s.T l d1 c1 * s.T l1 c1 b +
  ∑ b1 ∈ s.v.R q, ∑ a1 ∈ s.v.Lo q, ∑ l1 ∈ range s.v.nleads,
    s.T l c b1 * fp * V l1 (ix1 (q - 1) b1 a1) (-(Ek - s.E c + s.E a1)) * s.T l1 a1 b +
  ∑ b1 ∈ s.v.R q, ∑ a1 ∈ s.v.Lo q, ∑ l1 ∈ range s.v.nleads,
    V l1 (ix1 q c b1) (-(Ek - s.E c + s.E a1)) * fm * s.T l b1 a1 * s.T l1 a1 b

theorem at1_tt {o : Old} {W H : Nat → Nat → Nat → ℝ → ℂ} (ho : OldOk s o W H) {l cb : Nat} (hl : l < s.v.nleads)
    (hcb : cb < s.v.ndm1) (E : ℝ) : ∃ r, s.at1 o E l cb true = .ok r ∧
      ∀ j : Fin s.v.ndm0, (r j).1 - Complex.I * (r j).2 = advU W H j l cb E := by
  obtain ⟨r, h1, h2⟩ := ho l hl cb hcb E true
  refine ⟨r, h1, fun j => ?_⟩
  rw [h2 j j.2]
  simp only [cjIf, advU, if_true]
  ring

theorem at1_ff {o : Old} {W H : Nat → Nat → Nat → ℝ → ℂ} (ho : OldOk s o W H) {l cb : Nat} (hl : l < s.v.nleads)
    (hcb : cb < s.v.ndm1) (E : ℝ) : ∃ r, s.at1 o E l cb false = .ok r ∧
      ∀ j : Fin s.v.ndm0, (r j).1 + Complex.I * (r j).2 = advV W H j l cb E := by
  obtain ⟨r, h1, h2⟩ := ho l hl cb hcb E false
  refine ⟨r, h1, fun j => ?_⟩
  rw [h2 j j.2]
  simp only [cjIf, advV, Bool.false_eq_true, if_false]
  ring

theorem itr_ok (h : VOkC s.v lab ix1) {o : Old} {W H : Nat → Nat → Nat → ℝ → ℂ} (ho : OldOk s o W H) (Ek : ℝ) (l : Nat)
    (fp fm : ℂ) {q c b : Nat} (hc : c ∈ s.v.row (q + 1)) (hb : b ∈ s.v.row q) :
    ∃ L, s.itr o Ek l fp fm q c b = .ok L ∧ ∀ j < s.v.ndm0, (L.map fun f => f j).sum =
      itrSum s ix1 (advU W H j) (advV W H j) Ek l fp fm q c b := by
  have hq := h.row_lt hc
  let w : Fin s.v.ndm0 → (Nat → ℂ) → ℂ := fun j f => f j
  let P : (Nat → ℂ) → Prop := fun _ => True
  suffices hs : ∃ L, s.itr o Ek l fp fm q c b = .ok L ∧ ∀ j : Fin s.v.ndm0, (L.map (w j)).sum =
      itrSum s ix1 (advU W H j) (advV W H j) Ek l fp fm q c b by
    obtain ⟨L, h1, h2⟩ := hs
    exact ⟨L, h1, fun j hj => h2 ⟨j, hj⟩⟩
  unfold Terms.itr
  rw [h.states (by omega), h.states_succ (by omega), h.states_pred (by omega), states_two h hc]
  simp only [py_bind_ok]
  -- 1st
  refine bind_ex (collect_list (h.low_nodup q) w P (fun j a1 => ∑ b1 ∈ s.v.R q, ∑ l1 ∈ (List.range s.v.nleads).toFinset,
    -s.T l1 c b1 * s.T l b1 a1 * fp * advU W H j l1 (ix1 (q - 1) b a1) (Ek - s.E b1 + s.E b)) ?_) ?_
  · intro a1 ha1
    obtain ⟨i1, i2⟩ := ind1_low h hb ha1
    simp only [i1, py_bind_ok]
    refine collect_prod (h.nodup q) List.nodup_range w P _ fun b1 hb1 l1 hl1 => ?_
    obtain ⟨r, e, hr⟩ := at1_tt ho (List.mem_range.1 hl1) i2 (Ek - s.E b1 + s.E b)
    simp only [e, py_bind_ok]
    exact one_sum w P _ trivial _ fun j => by simp only [w, hr]
  rintro t1 ⟨_, s1⟩
  -- 2nd and 5th
  refine bind_ex (collect_prod (h.nodup q) (h.nodup (q + 1)) w P (fun j b1 c1 => ∑ l1 ∈ range s.v.nleads,
    (-s.T l1 c b1 * advU W H j l1 (ix1 q c1 b1) (Ek - s.E b1 + s.E b) * fm * s.T l c1 b +
     -s.T l c b1 * fp * advU W H j l1 (ix1 q c1 b1) (Ek - s.E c + s.E c1) * s.T l1 c1 b)) ?_) ?_
  · intro b1 hb1 c1 hc1
    have i1 := h.ind1 q c1 b1 hc1 hb1
    have i2 := h.ix1_lt q c1 b1 hc1 hb1
    simp only [i1, py_bind_ok]
    refine collect_range w P _ fun l1 hl1 => ?_
    obtain ⟨r, e, hr⟩ := at1_tt ho hl1 i2 (Ek - s.E b1 + s.E b)
    obtain ⟨r', e', hr'⟩ := at1_tt ho hl1 i2 (Ek - s.E c + s.E c1)
    simp only [e, e', py_bind_ok]
    exact ⟨_, rfl, fun _ _ => trivial, fun j => by simp [w, hr, hr']⟩
  rintro t25 ⟨_, s25⟩
  -- 3rd
  refine bind_ex (collect_list (h.nodup (q + 1)) w P (fun j c1 => ∑ d1 ∈ s.v.R (q + 2), ∑ l1 ∈ (List.range s.v.nleads).toFinset,
    s.T l1 c d1 * s.T l d1 c1 * fp * advV W H j l1 (ix1 q c1 b) (-(Ek - s.E d1 + s.E b))) ?_) ?_
  · intro c1 hc1
    have i1 := h.ind1 q c1 b hc1 hb
    have i2 := h.ix1_lt q c1 b hc1 hb
    simp only [i1, py_bind_ok]
    refine collect_prod (h.nodup (q + 2)) List.nodup_range w P _ fun d1 hd1 l1 hl1 => ?_
    obtain ⟨r, e, hr⟩ := at1_ff ho (List.mem_range.1 hl1) i2 (-(Ek - s.E d1 + s.E b))
    simp only [e, py_bind_ok]
    exact one_sum w P _ trivial _ fun j => by simp only [w, hr]
  rintro t3 ⟨_, s3⟩
  -- 4th
  refine bind_ex (collect_prod (h.nodup (q + 2)) (h.nodup (q + 1)) w P (fun j d1 c1 => ∑ l1 ∈ range s.v.nleads,
    s.T l1 c d1 * advV W H j l1 (ix1 (q + 1) d1 c1) (-(Ek - s.E d1 + s.E b)) * fm * s.T l c1 b) ?_) ?_
  · intro d1 hd1 c1 hc1
    obtain ⟨i1, i2⟩ := ind1_up h hd1 hc1
    simp only [i1, py_bind_ok]
    refine collect_range w P _ fun l1 hl1 => ?_
    obtain ⟨r, e, hr⟩ := at1_ff ho hl1 i2 (-(Ek - s.E d1 + s.E b))
    simp only [e, py_bind_ok]
    exact one_sum w P _ trivial _ fun j => by simp only [w, hr]
  rintro t4 ⟨_, s4⟩
  -- 6th
  refine bind_ex (collect_list (h.nodup (q + 2)) w P (fun j d1 => ∑ c1 ∈ s.v.R (q + 1), ∑ l1 ∈ (List.range s.v.nleads).toFinset,
    -advU W H j l1 (ix1 (q + 1) d1 c) (Ek - s.E c + s.E c1) * fm * s.T l d1 c1 * s.T l1 c1 b) ?_) ?_
  · intro d1 hd1
    obtain ⟨i1, i2⟩ := ind1_up h hd1 hc
    simp only [i1, py_bind_ok]
    refine collect_prod (h.nodup (q + 1)) List.nodup_range w P _ fun c1 hc1 l1 hl1 => ?_
    obtain ⟨r, e, hr⟩ := at1_tt ho (List.mem_range.1 hl1) i2 (Ek - s.E c + s.E c1)
    simp only [e, py_bind_ok]
    exact one_sum w P _ trivial _ fun j => by simp only [w, hr]
  rintro t6 ⟨_, s6⟩
  -- 7th
  refine bind_ex (collect_prod (h.nodup q) (h.low_nodup q) w P (fun j b1 a1 => ∑ l1 ∈ range s.v.nleads,
    s.T l c b1 * fp * advV W H j l1 (ix1 (q - 1) b1 a1) (-(Ek - s.E c + s.E a1)) * s.T l1 a1 b) ?_) ?_
  · intro b1 hb1 a1 ha1
    obtain ⟨i1, i2⟩ := ind1_low h hb1 ha1
    simp only [i1, py_bind_ok]
    refine collect_range w P _ fun l1 hl1 => ?_
    obtain ⟨r, e, hr⟩ := at1_ff ho hl1 i2 (-(Ek - s.E c + s.E a1))
    simp only [e, py_bind_ok]
    exact one_sum w P _ trivial _ fun j => by simp only [w, hr]
  rintro t7 ⟨_, s7⟩
  -- 8th
  refine bind_ex (collect_list (h.nodup q) w P (fun j b1 => ∑ a1 ∈ s.v.Lo q, ∑ l1 ∈ (List.range s.v.nleads).toFinset,
    advV W H j l1 (ix1 q c b1) (-(Ek - s.E c + s.E a1)) * fm * s.T l b1 a1 * s.T l1 a1 b) ?_) ?_
  · intro b1 hb1
    have i1 := h.ind1 q c b1 hc hb1
    have i2 := h.ix1_lt q c b1 hc hb1
    simp only [i1, py_bind_ok]
    refine collect_prod (h.low_nodup q) List.nodup_range w P _ fun a1 ha1 l1 hl1 => ?_
    obtain ⟨r, e, hr⟩ := at1_ff ho (List.mem_range.1 hl1) i2 (-(Ek - s.E c + s.E a1))
    simp only [e, py_bind_ok]
    exact one_sum w P _ trivial _ fun j => by simp only [w, hr]
  rintro t8 ⟨_, s8⟩
  refine ⟨_, rfl, fun j => ?_⟩
  simp only [List.map_append, List.sum_append, s1, s25, s3, s4, s6, s7, s8, itrSum, View.R, View.Lo, List.toFinset_range]

end

end VN2

end

end Verif
