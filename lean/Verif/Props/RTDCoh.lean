import Verif.Props.PhasesRTD
import Verif.Lemmas.RTDObj

/-! C83: what coherences contribute to the RTD kernel. -/

namespace Verif

open Finset
open scoped ComplexConjugate

noncomputable section

namespace RTD

/-! ### The mirror image of a call -/

/-- The call for the complex conjugate element. -/
def Call.mirror : Call → Call
  | .elem x l b bp q a ap q' mi => .elem (if mi = .ImWdn ∨ mi = .ImWnd then -x else x) l bp b q ap a q' mi
  | k => k

/-- The calls `ks'` are the mirror images of the calls `ks`, up to the order. -/
def MirSum (ks ks' : List Call) : Prop := ∀ g : Call → ℝ, (ks.map fun k => g k.mirror).sum = (ks'.map g).sum

theorem MirSum.nil : MirSum [] [] := fun _ => rfl

theorem MirSum.app {a a' b b' : List Call} (h1 : MirSum a a') (h2 : MirSum b b') : MirSum (a ++ b) (a' ++ b') := by
  intro g
  rw [List.map_append, List.sum_append, List.map_append, List.sum_append, h1 g, h2 g]

theorem MirSum.swap {a a' b b' : List Call} (h1 : MirSum a a') (h2 : MirSum b b') : MirSum (a ++ b) (b' ++ a') := by
  intro g
  rw [List.map_append, List.sum_append, List.map_append, List.sum_append, h1 g, h2 g, add_comm]

theorem MirSum.flatMap {α : Type} (l : List α) {f g : α → List Call} (hf : ∀ x ∈ l, MirSum (f x) (g x)) :
    MirSum (l.flatMap f) (l.flatMap g) := by
  induction l with
  | nil => exact .nil
  | cons x l ih =>
    simp only [List.flatMap_cons]
    exact .app (hf x (by simp)) (ih fun y hy => hf y (by simp [hy]))

theorem MirSum.same (l : List Call) (hl : ∀ k ∈ l, k.mirror = k) : MirSum l l := by
  intro g
  refine congrArg List.sum (List.map_congr_left fun k hk => ?_)
  rw [hl k hk]

/-- Sums over lists can be exchanged. -/
theorem list_sum_comm {α β : Type} (l : List α) (m : List β) (F : α → β → ℝ) :
    (l.map fun a => (m.map fun b => F a b).sum).sum = (m.map fun b => (l.map fun a => F a b).sum).sum := by
  induction l with
  | nil => simp
  | cons a l ih =>
    simp only [List.map_cons, List.sum_cons]
    rw [ih, List.sum_map_add]

theorem MirSum.flatMap2 {α : Type} (l : List α) {f : α → α → List Call}
    (hf : ∀ x ∈ l, ∀ y ∈ l, MirSum (f x y) (f y x)) :
    MirSum (l.flatMap fun x => l.flatMap fun y => f x y) (l.flatMap fun x => l.flatMap fun y => f x y) := by
  intro g
  simp only [sum_flatMap']
  rw [list_sum_comm]
  refine congrArg List.sum (List.map_congr_left fun y hy => congrArg List.sum (List.map_congr_left fun x hx => ?_))
  exact hf x hx y hy g

theorem pair_mir {x y x' y' : ℝ} (hx : x' = x) (hy : y' = -y) (l a2 b2 a1 b1 : Nat) (q q' : Int) {re im : Name}
    (hn : re = .ReWdn ∧ im = .ImWdn ∨ re = .ReWnd ∧ im = .ImWnd) :
    MirSum (pair x y l a2 b2 q a1 b1 q' re im) (pair x' y' l b2 a2 q b1 a1 q' re im) := by
  intro g
  subst hx hy
  rcases hn with ⟨rfl, rfl⟩ | ⟨rfl, rfl⟩ <;> simp [pair, Call.mirror]

theorem both_mir {p q p' q' : Py (List Call)} (h1 : PRel MirSum p p') (h2 : PRel MirSum q q') :
    PRel MirSum (both p q) (both p' q') :=
  h1.bind fun _ _ r1 => h2.bind fun _ _ r2 => .ok (.app r1 r2)

theorem collect_mir {α : Type} (l : List α) {f g : α → Py (List Call)} (hf : ∀ x ∈ l, PRel MirSum (f x) (g x)) :
    PRel MirSum (collect l f) (collect l g) := by
  have key : ∀ (l : List α) (acc acc' : List Call), (∀ x ∈ l, PRel MirSum (f x) (g x)) → MirSum acc acc' →
      PRel MirSum (l.foldlM (fun acc x => do let r ← f x; pure (acc ++ r)) acc)
        (l.foldlM (fun acc x => do let r ← g x; pure (acc ++ r)) acc') := by
    intro l
    induction l with
    | nil => exact fun acc acc' _ h => .ok h
    | cons x l ih =>
      intro acc acc' hf h
      rw [List.foldlM_cons, List.foldlM_cons]
      refine PRel.bind (R := MirSum) ((hf x (by simp)).bind fun _ _ r => .ok (MirSum.app h r)) fun _ _ r => ?_
      exact ih _ _ (fun y hy => hf y (by simp [hy])) r
  exact key l [] [] hf .nil

theorem PRel.ok_inv {α β : Type} {R : α → β → Prop} {p : Py α} {q : Py β} (h : PRel R p q) {a : α} {b : β}
    (ea : p = .ok a) (eb : q = .ok b) : R a b := by
  cases h with
  | err e => simp at ea
  | ok h =>
    obtain rfl := Except.ok.inj ea
    obtain rfl := Except.ok.inj eb
    exact h

theorem collect2_mir {α : Type} (l : List α) {f : α → α → Py (List Call)}
    (hf : ∀ x ∈ l, ∀ y ∈ l, PRel MirSum (f x y) (f y x)) :
    PRel MirSum (collect l fun x => collect l fun y => f x y) (collect l fun x => collect l fun y => f x y) := by
  rcases h : (collect l fun x => collect l fun y => f x y) with e | ks
  · exact .err e
  refine .ok ?_
  obtain ⟨g, hg, rfl⟩ := collect_inv h
  have key : ∀ x ∈ l, ∀ y ∈ l, f x y = .ok (valD (f x y)) := by
    intro x hx y hy
    obtain ⟨g', hg', _⟩ := collect_inv (hg x hx)
    rw [hg' y hy]; rfl
  have e : ∀ x ∈ l, g x = l.flatMap fun y => valD (f x y) := by
    intro x hx
    have := collect_ok (l := l) (f := fun y => f x y) (g := fun y => valD (f x y)) (key x hx)
    rw [hg x hx] at this
    exact Except.ok.inj this
  rw [List.flatMap_congr e]
  exact MirSum.flatMap2 l fun x hx y hy => (hf x hx y hy).ok_inv (key x hx y hy) (key y hy x hx)

theorem upper_mir {v : View} {c : Int} {f g : List Nat → List Call} (hf : ∀ l, MirSum (f l) (g l)) :
    PRel MirSum (upper v c f) (upper v c g) := by
  unfold upper
  split
  · exact .bind_same _ fun l _ => .ok (hf l)
  · exact .ok .nil

theorem lower_mir {v : View} {c : Int} {f g : List Nat → List Call} (hf : ∀ l, MirSum (f l) (g l)) :
    PRel MirSum (lower v c f) (lower v c g) := by
  unfold lower
  split
  · exact .bind_same _ fun l _ => .ok (hf l)
  · exact .ok .nil

/-! ### The generators -/

theorem trans_mir {s : In} {t t' : ℂ} (e : t' = conj t) (x y sign : ℝ) (l : Nat) :
    (trans s t' y x sign l).1 = (trans s t x y sign l).1 ∧ (trans s t' y x sign l).2 = -(trans s t x y sign l).2 := by
  subst e
  simp only [trans, deltaPhi, Complex.conj_re, Complex.conj_im]
  constructor <;> ring

theorem stay_mir {s : In} {t t' : ℂ} (e : t' = conj t) (x sign : ℝ) {up up' : ℝ} (hup : up' = -up) (l : Nat) :
    (stay s t' x sign up' l).1 = (stay s t x sign up l).1 ∧ (stay s t' x sign up' l).2 = -(stay s t x sign up l).2 := by
  subst e hup
  simp only [stay, Complex.conj_re, Complex.conj_im]
  constructor <;> ring

theorem conj_mul_conj (a b : ℂ) : b * conj a = conj (a * conj b) := by
  rw [map_mul, Complex.conj_conj, mul_comm]

/-- The column of a coherence and of its complex conjugate. -/
theorem colDn_mir (s : In) (a1 b1 : Nat) (c : Int) : PRel MirSum (colDn s a1 b1 c) (colDn s b1 a1 c) := by
  have P : ∀ {w w' : ℝ × ℝ} {l a2 : Nat} {q : Int}, w'.1 = w.1 ∧ w'.2 = -w.2 →
      MirSum (pair w.1 w.2 l a2 a2 q a1 b1 c .ReWdn .ImWdn) (pair w'.1 w'.2 l a2 a2 q b1 a1 c .ReWdn .ImWdn) :=
    fun h => pair_mir h.1 h.2 _ _ _ _ _ _ _ (Or.inl ⟨rfl, rfl⟩)
  unfold colDn
  refine both_mir (both_mir ?_ ?_) ?_
  · refine upper_mir fun l2 => MirSum.flatMap _ fun a2 _ => MirSum.flatMap _ fun l _ => ?_
    exact P (trans_mir (conj_mul_conj _ _) _ _ _ _)
  · refine lower_mir fun l2 => MirSum.flatMap _ fun a2 _ => MirSum.flatMap _ fun l _ => ?_
    exact P (trans_mir (conj_mul_conj _ _) _ _ _ _)
  · refine PRel.bind_same _ fun l2 _ => collect_mir _ fun a2 _ => both_mir ?_ ?_
    · refine upper_mir fun l3 => MirSum.flatMap _ fun x _ => MirSum.swap ?_ ?_
      · split
        · rename_i eq; subst eq
          exact MirSum.flatMap _ fun l _ => P (stay_mir (conj_mul_conj _ _) _ _ (by norm_num) _)
        · exact .nil
      · split
        · rename_i eq; subst eq
          exact MirSum.flatMap _ fun l _ => P (stay_mir (conj_mul_conj _ _) _ _ (by norm_num) _)
        · exact .nil
    · refine lower_mir fun l3 => MirSum.flatMap _ fun x _ => MirSum.swap ?_ ?_
      · split
        · rename_i eq; subst eq
          exact MirSum.flatMap _ fun l _ => P (stay_mir (conj_mul_conj _ _) _ _ (by norm_num) _)
        · exact .nil
      · split
        · rename_i eq; subst eq
          exact MirSum.flatMap _ fun l _ => P (stay_mir (conj_mul_conj _ _) _ _ (by norm_num) _)
        · exact .nil

/-- The rows of coherences and their complex conjugates. -/
theorem colNd_mir (s : In) (a1 : Nat) (c : Int) : PRel MirSum (colNd s a1 c) (colNd s a1 c) := by
  have P : ∀ {w w' : ℝ × ℝ} {l a2 b2 : Nat} {q : Int}, w'.1 = w.1 ∧ w'.2 = -w.2 →
      MirSum (pair w.1 w.2 l a2 b2 q a1 a1 c .ReWnd .ImWnd) (pair w'.1 w'.2 l b2 a2 q a1 a1 c .ReWnd .ImWnd) :=
    fun h => pair_mir h.1 h.2 _ _ _ _ _ _ _ (Or.inr ⟨rfl, rfl⟩)
  unfold colNd
  refine both_mir (both_mir ?_ ?_) ?_
  · refine upper_mir fun l2 => MirSum.flatMap2 _ fun a2 _ b2 _ => ?_
    by_cases e : a2 = b2
    · rw [if_pos e, if_pos e.symm]; exact .nil
    · rw [if_neg e, if_neg (Ne.symm e)]
      exact MirSum.flatMap _ fun l _ => P (trans_mir (conj_mul_conj _ _) _ _ _ _)
  · refine lower_mir fun l2 => MirSum.flatMap2 _ fun a2 _ b2 _ => ?_
    by_cases e : b2 = a2
    · rw [if_pos e, if_pos e.symm]; exact .nil
    · rw [if_neg e, if_neg (Ne.symm e)]
      exact MirSum.flatMap _ fun l _ => P (trans_mir (conj_mul_conj _ _) _ _ _ _)
  · refine PRel.bind_same _ fun l2 _ => collect2_mir _ fun a2 _ b2 _ => ?_
    by_cases e : a2 = b2
    · rw [if_pos e, if_pos e.symm]; exact .ok .nil
    rw [if_neg e, if_neg (Ne.symm e)]
    refine both_mir ?_ ?_
    · refine upper_mir fun l3 => MirSum.flatMap _ fun x _ => MirSum.swap ?_ ?_
      · split
        · rename_i eq; subst eq
          exact MirSum.flatMap _ fun l _ => P (stay_mir (conj_mul_conj _ _) _ _ (by norm_num) _)
        · exact .nil
      · split
        · rename_i eq; subst eq
          exact MirSum.flatMap _ fun l _ => P (stay_mir (conj_mul_conj _ _) _ _ (by norm_num) _)
        · exact .nil
    · refine lower_mir fun l3 => MirSum.flatMap _ fun x _ => MirSum.swap ?_ ?_
      · split
        · rename_i eq; subst eq
          exact MirSum.flatMap _ fun l _ => P (stay_mir (conj_mul_conj _ _) _ _ (by norm_num) _)
        · exact .nil
      · split
        · rename_i eq; subst eq
          exact MirSum.flatMap _ fun l _ => P (stay_mir (conj_mul_conj _ _) _ _ (by norm_num) _)
        · exact .nil

/-! ### All calls -/

section
variable {s : In} {la : Lab} (h : VOk s.v la)
include h

theorem calls1_mir {fct : Nat → Nat → ℝ × ℝ} {off : Bool} {ks : List Call} (hk : calls1 s fct off = .ok ks) :
    MirSum ks ks := by
  obtain ⟨key, rfl⟩ := calls1_inv h hk
  refine MirSum.flatMap _ fun q _ => MirSum.flatMap _ fun b hb => ?_
  have hE : ∀ {e : Nat → Nat → Int → Int → Nat → List Call},
      (∀ a b bb aa l, ∀ k ∈ e a b bb aa l, k.mirror = k) → ∀ k ∈ groupE s.v la e q b, k.mirror = k := by
    intro e he k hk
    rcases List.mem_append.1 hk with hk | hk
    · obtain ⟨a, _, hk⟩ := List.mem_flatMap.1 hk
      obtain ⟨l, _, hk⟩ := List.mem_flatMap.1 hk
      exact he _ _ _ _ _ k hk
    · obtain ⟨a, _, hk⟩ := List.mem_flatMap.1 hk
      obtain ⟨l, _, hk⟩ := List.mem_flatMap.1 hk
      exact he _ _ _ _ _ k hk
  unfold one
  refine (((MirSum.app ?_ ?_).app ?_).app ?_).app ?_
  · refine MirSum.same _ fun k hk => ?_
    simp only [group1, List.mem_append, List.mem_flatMap, List.mem_singleton] at hk
    rcases hk with ⟨_, _, _, _, rfl⟩ | ⟨_, _, _, _, rfl⟩ <;> rfl
  · refine MirSum.same _ fun k hk => ?_
    obtain ⟨r, f, i0, i1, a1, a3, q3, a4, q4, rfl, _⟩ := col2_calls (view_mem h hb) (key q b hb).1 k hk
    rfl
  · refine MirSum.same _ (hE fun a b bb aa l k hk => ?_)
    simp only [energy1, List.mem_append, List.mem_singleton] at hk
    rcases hk with hk | rfl
    · split at hk
      · simp only [List.mem_singleton] at hk; subst hk; rfl
      · simp at hk
    · rfl
  · refine MirSum.same _ (hE fun a b bb aa l k hk => ?_)
    simp only [energy2, List.mem_append, List.mem_singleton, List.mem_flatMap] at hk
    rcases hk with ⟨_, _, hk⟩ | rfl
    · split at hk
      · simp only [List.mem_singleton] at hk; subst hk; rfl
      · simp at hk
    · rfl
  · have h5 := (key q b hb).2
    cases off with
    | false => simp only [nd, valD, py_pure, Bool.false_eq_true, if_false]; exact .nil
    | true =>
      simp only [nd, if_true] at h5 ⊢
      exact (colNd_mir s b q).ok_inv h5 h5

/-- The sum over the calls of the second loop, for functions that vanish for the calls to `Lnn`. -/
theorem calls2_mir {ks : List Call} (hk : calls2 s = .ok ks) {g : Call → ℝ} (hg : ∀ a b q f, g (.lnn a b q f) = 0) :
    (ks.map fun k => g k.mirror).sum = (ks.map g).sum := by
  obtain ⟨key, rfl⟩ := calls2_inv h hk
  rw [sum_flatMap', sum_flatMap']
  refine congrArg List.sum (List.map_congr_left fun q _ => ?_)
  simp only [sum_flatMap']
  rw [list_sum_comm]
  refine congrArg List.sum (List.map_congr_left fun y hy => congrArg List.sum (List.map_congr_left fun x hx => ?_))
  by_cases e : x = y
  · rw [if_pos e, if_pos e.symm]; rfl
  · rw [if_neg e, if_neg (Ne.symm e)]
    simp only [List.map_append, List.sum_append, rowL, List.map_cons, List.map_nil, List.sum_cons, List.sum_nil,
      Call.mirror, hg, add_zero]
    exact (colDn_mir s x y q).ok_inv (key q x y hx hy e) (key q y x hy hx (Ne.symm e)) g

end

/-! ### Entries -/

/-- What a call for one element contributes to an entry. -/
theorem elem_atOf {v : View} {sh : Shape} {n : Name} {x : ℝ} {l i j l' b bp a ap i0 j0 : Nat} {q q' : Int}
    (e1 : offPos v b bp q = .ok (i0 : Int)) (e2 : offPos v a ap q' = .ok (j0 : Int)) (hl : l' < (sh n).1)
    (hi : i0 < (sh n).2.1) (hj : j0 < (sh n).2.2) :
    atOf v sh n l i j (.elem x l' b bp q a ap q' n) = if l' = l ∧ i0 = i ∧ j0 = j then x else 0 := by
  unfold atOf evsD
  simp only [evs, e1, e2, py_bind_ok]
  rw [resolve_ok hl hi hj]
  simp [Ev.at]

section
variable {s : In} {la : Lab} (h : VOk s.v la) (hall : AllCoherences s.v la)
include h hall

/-- The position of a coherence and of its complex conjugate. -/
theorem offPos_lt {q b bp : Nat} (hb : b ∈ s.v.row q) (hbp : bp ∈ s.v.row q) (hlt : b < bp) :
    offPos s.v b bp q = .ok ((la.lab q b bp - s.v.npauli : Nat) : Int) ∧
      offPos s.v bp b q = .ok ((la.lab q b bp - s.v.npauli + (s.v.ndm0 - s.v.npauli) : Nat) : Int) := by
  obtain ⟨l1, l2⟩ := h.lab_off q b bp hb hbp (by omega) (hall q b bp hb hbp)
  have hs := h.lab_symm q b bp hb hbp (hall q b bp hb hbp)
  unfold offPos
  rw [h.ind0 q b bp hb hbp, h.ind0 q bp b hbp hb, hall q b bp hb hbp, hall q bp b hbp hb]
  simp only [py_bind_ok, if_true, py_pure, Except.ok.injEq]
  rw [if_pos (by omega), if_neg (by omega), if_pos (by omega), if_pos (by omega)]
  omega

/-- Positions of complex conjugate coherences go together. -/
theorem offPos_mir {q b bp q' a ap p p' r r' : Nat} (hb : b ∈ s.v.row q) (hbp : bp ∈ s.v.row q) (hne : b ≠ bp)
    (ha : a ∈ s.v.row q') (hap : ap ∈ s.v.row q') (hne' : a ≠ ap) (e1 : offPos s.v b bp q = .ok (p : Int))
    (e2 : offPos s.v bp b q = .ok (p' : Int)) (e3 : offPos s.v a ap q' = .ok (r : Int))
    (e4 : offPos s.v ap a q' = .ok (r' : Int)) (e : r = p) : r' = p' := by
  subst e
  obtain ⟨rfl, rfl⟩ := offPos_inj h hall hb hbp hne ha hap hne' e1 e3
  obtain rfl := h.disj _ _ _ hb ha
  rw [e2] at e4
  simpa using e4.symm

/-- The sign of the entries for the complex conjugate. -/
def _root_.Verif.RTD.Name.sgn : Name → ℝ
  | .ImWdn | .ImWnd => -1
  | _ => 1

theorem dn_mir {fct : Nat → Nat → ℝ × ℝ} {symq : Bool} {st : St} (S : Steps s fct true symq st) {n : Name}
    (hn : n = .ReWdn ∨ n = .ImWdn) (l i : Nat) {q b bp p p' : Nat} (hb : b ∈ s.v.row q) (hbp : bp ∈ s.v.row q)
    (hne : b ≠ bp) (e1 : offPos s.v b bp q = .ok (p : Int)) (e2 : offPos s.v bp b q = .ok (p' : Int)) :
    (S.a2.mats.ten n).val l i p' = n.sgn * (S.a2.mats.ten n).val l i p := by
  have sh1 : S.a1.mats.sh = shapes s.v := (run_made S.r1).sh.trans (fresh_sh _ _)
  have h2 : calls2 s = .ok S.k2 := by
    rcases S.cases with ⟨e, _⟩ | ⟨_, e, _⟩
    · simp at e
    · exact e
  have zero : ∀ p, (S.a1.mats.ten n).val l i p = 0 := by
    intro p
    rw [run_val S.r1, fresh_val, zero_add]
    refine sum_zero fun k hk => atOf_name ?_
    rcases hn with rfl | rfl
    · exact (calls1_name h S.h1 k hk).1
    · exact (calls1_name h S.h1 k hk).2
  rw [run_val S.r2, run_val S.r2, zero, zero, zero_add, zero_add, sh1,
    ← calls2_mir h h2 (g := atOf s.v (shapes s.v) n l i p') (fun _ _ _ _ => atOf_name (by simp [Call.name])),
    ← List.sum_map_mul_left]
  refine congrArg List.sum (List.map_congr_left fun k hk => ?_)
  obtain ⟨key, ek⟩ := calls2_inv h h2
  rw [ek] at hk
  obtain ⟨c, hc, hk⟩ := List.mem_flatMap.1 hk
  obtain ⟨a, ha, hk⟩ := List.mem_flatMap.1 hk
  obtain ⟨ap, hap, hk⟩ := List.mem_flatMap.1 hk
  split at hk
  · simp at hk
  rename_i hne'
  rcases List.mem_append.1 hk with hk | hk
  · obtain ⟨x, l', a2, q2, mi, rfl, hmi, hl, hm, b1, b2, hx⟩ := colDn_calls (key c a ap ha hap hne') k hk
    by_cases e : mi = n
    · subst e
      have hc' := h.row_lt ha
      obtain ⟨q2, rfl, ha2⟩ := mem_inv h hm (by omega) (by omega)
      obtain ⟨r, hr, o1⟩ := offPos_ok h hall ha hap hne'
      obtain ⟨r', hr', o2⟩ := offPos_ok h hall hap ha (Ne.symm hne')
      have l2 := h.lab_diag _ _ ha2
      have s1 : (shapes s.v mi).1 = s.v.nleads := by rcases hn with rfl | rfl <;> rfl
      have s2 : (shapes s.v mi).2.1 = s.v.npauli := by rcases hn with rfl | rfl <;> rfl
      have s3 : (shapes s.v mi).2.2 = 2 * s.v.ndm0 - 2 * s.v.npauli := by rcases hn with rfl | rfl <;> rfl
      have iff : r = p ↔ r' = p' :=
        ⟨offPos_mir h hall hb hbp hne ha hap hne' e1 e2 o1 o2,
          offPos_mir h hall hbp hb (Ne.symm hne) hap ha (Ne.symm hne') e2 e1 o2 o1⟩
      simp only [Call.mirror]
      rw [elem_atOf (offPos_diag h ha2) o2 (by rw [s1]; exact hl) (by rw [s2]; exact l2) (by rw [s3]; exact hr'),
        elem_atOf (offPos_diag h ha2) o1 (by rw [s1]; exact hl) (by rw [s2]; exact l2) (by rw [s3]; exact hr)]
      simp only [← iff]
      rcases hn with rfl | rfl
      · simp [Name.sgn]
      · simp [Name.sgn]
    · rw [atOf_name (by simp [Call.name, Call.mirror, e]), atOf_name (by simp [Call.name, e]), mul_zero]
  · simp only [rowL, List.mem_singleton] at hk
    subst hk
    simp only [Call.mirror]
    rw [atOf_name (by simp [Call.name]), atOf_name (by simp [Call.name]), mul_zero]

theorem nd_mir {fct : Nat → Nat → ℝ × ℝ} {symq : Bool} {st : St} (S : Steps s fct true symq st) {n : Name}
    (hn : n = .ReWnd ∨ n = .ImWnd) (l j : Nat) {q b bp p p' : Nat} (hb : b ∈ s.v.row q) (hbp : bp ∈ s.v.row q)
    (hne : b ≠ bp) (e1 : offPos s.v b bp q = .ok (p : Int)) (e2 : offPos s.v bp b q = .ok (p' : Int)) :
    (S.a2.mats.ten n).val l p' j = n.sgn * (S.a2.mats.ten n).val l p j := by
  have hn1 : n ≠ .ReWdn ∧ n ≠ .ImWdn := by rcases hn with rfl | rfl <;> simp
  rw [S.second h hn1.1 hn1.2, S.second h hn1.1 hn1.2, run_val S.r1, run_val S.r1, fresh_val, fresh_val, zero_add, zero_add,
    fresh_sh, ← calls1_mir h S.h1 (atOf s.v (shapes s.v) n l p' j), ← List.sum_map_mul_left]
  refine congrArg List.sum (List.map_congr_left fun k hk => ?_)
  obtain ⟨key, ek⟩ := calls1_inv h S.h1
  rw [ek] at hk
  obtain ⟨c, hc, hk⟩ := List.mem_flatMap.1 hk
  obtain ⟨a, ha, hk⟩ := List.mem_flatMap.1 hk
  have skip : ∀ {k : Call}, k.mirror = k → k.name ≠ some n →
      atOf s.v (shapes s.v) n l p' j k.mirror = n.sgn * atOf s.v (shapes s.v) n l p j k := by
    intro k e1 e2
    rw [e1, atOf_name e2, atOf_name e2, mul_zero]
  have hE : ∀ {e : Nat → Nat → Int → Int → Nat → List Call},
      (∀ a b bb aa l, ∀ k ∈ e a b bb aa l, k.mirror = k) → ∀ k ∈ groupE s.v la e c a, k.mirror = k := by
    intro e he k hk
    rcases List.mem_append.1 hk with hk | hk
    · obtain ⟨a, _, hk⟩ := List.mem_flatMap.1 hk
      obtain ⟨l, _, hk⟩ := List.mem_flatMap.1 hk
      exact he _ _ _ _ _ k hk
    · obtain ⟨a, _, hk⟩ := List.mem_flatMap.1 hk
      obtain ⟨l, _, hk⟩ := List.mem_flatMap.1 hk
      exact he _ _ _ _ _ k hk
  simp only [one, List.mem_append] at hk
  rcases hk with (((hk | hk) | hk) | hk) | hk
  · simp only [group1, List.mem_append, List.mem_flatMap, List.mem_singleton] at hk
    rcases hk with ⟨_, _, _, _, rfl⟩ | ⟨_, _, _, _, rfl⟩ <;>
      exact skip rfl (by rcases hn with rfl | rfl <;> simp [Call.name])
  · have nm := (col2_calls (view_mem h ha) (key c a ha).1 k hk).name
    obtain ⟨r, f, i0, i1, a1, a3, q3, a4, q4, rfl, _⟩ := col2_calls (view_mem h ha) (key c a ha).1 k hk
    exact skip rfl (by rcases hn with rfl | rfl <;> simp [Call.name])
  · refine skip (hE (fun a b bb aa l k hk => ?_) k hk) ?_
    · simp only [energy1, List.mem_append, List.mem_singleton] at hk
      rcases hk with hk | rfl
      · split at hk
        · simp only [List.mem_singleton] at hk; subst hk; rfl
        · simp at hk
      · rfl
    · rcases groupE_name (n := .WE1) (fun _ _ _ _ _ => energy1_name) c a k hk with e | e <;> rw [e] <;>
        rcases hn with rfl | rfl <;> simp
  · refine skip (hE (fun a b bb aa l k hk => ?_) k hk) ?_
    · simp only [energy2, List.mem_append, List.mem_singleton, List.mem_flatMap] at hk
      rcases hk with ⟨_, _, hk⟩ | rfl
      · split at hk
        · simp only [List.mem_singleton] at hk; subst hk; rfl
        · simp at hk
      · rfl
    · rcases groupE_name (n := .WE2) (fun _ _ _ _ _ => energy2_name) c a k hk with e | e <;> rw [e] <;>
        rcases hn with rfl | rfl <;> simp
  · have h5 := (key c a ha).2
    unfold nd at h5 hk
    simp only [if_true] at h5 hk
    obtain ⟨x, l', a2, b2, q2, mi, rfl, hmi, hl, hne', ⟨row, hrow, m1, m2⟩, b1, b3⟩ := colNd_calls h5 k hk
    by_cases e : mi = n
    · subst e
      have hc' := h.row_lt ha
      obtain ⟨q2, rfl, ha2⟩ := mem_inv h ⟨row, hrow, m1⟩ (by omega) (by omega)
      obtain ⟨_, e, hb2⟩ := mem_inv h ⟨row, hrow, m2⟩ (by omega) (by omega)
      have e := Int.ofNat.inj e
      subst e
      obtain ⟨r, hr, o1⟩ := offPos_ok h hall ha2 hb2 hne'
      obtain ⟨r', hr', o2⟩ := offPos_ok h hall hb2 ha2 (Ne.symm hne')
      have l2 := h.lab_diag _ _ ha
      have s1 : (shapes s.v mi).1 = s.v.nleads := by rcases hn with rfl | rfl <;> rfl
      have s2 : (shapes s.v mi).2.1 = 2 * s.v.ndm0 - 2 * s.v.npauli := by rcases hn with rfl | rfl <;> rfl
      have s3 : (shapes s.v mi).2.2 = s.v.npauli := by rcases hn with rfl | rfl <;> rfl
      have iff : r = p ↔ r' = p' :=
        ⟨offPos_mir h hall hb hbp hne ha2 hb2 hne' e1 e2 o1 o2,
          offPos_mir h hall hbp hb (Ne.symm hne) hb2 ha2 (Ne.symm hne') e2 e1 o2 o1⟩
      simp only [Call.mirror]
      rw [elem_atOf o2 (offPos_diag h ha) (by rw [s1]; exact hl) (by rw [s2]; exact hr') (by rw [s3]; exact l2),
        elem_atOf o1 (offPos_diag h ha) (by rw [s1]; exact hl) (by rw [s2]; exact hr) (by rw [s3]; exact l2)]
      simp only [← iff]
      rcases hn with rfl | rfl
      · simp [Name.sgn]
      · simp [Name.sgn]
    · rw [atOf_name (by simp [Call.name, Call.mirror, e]), atOf_name (by simp [Call.name, e]), mul_zero]

end

/-! ### The inverse Liouvillian -/

theorem mul_cols {a b x : Mat} (h : a.mul b = .ok x) : x.cols = b.cols := by
  unfold Mat.mul at h
  split at h
  · simp only [py_pure, Except.ok.injEq] at h
    subst h; rfl
  · simp at h

/-- What a call contributes to `Lnn`. -/
def lnnAt (v : View) (n i j : Nat) : Call → ℝ
  | .lnn a b q f => match (do
      let p ← v.ind0 a b q
      pyIdx n (if a > b then p - v.npauli + (v.ndm0 - v.npauli : Int) else p - v.npauli)) with
    | .ok r => if i = r ∧ j = r then f else 0
    | .error _ => 0
  | _ => 0

theorem run_lnn_val {v : View} {a a' : Acc} {ks : List Call} (h : run v a ks = .ok a')
    (hsq : a.mats.Lnn.rows = a.mats.Lnn.cols) (i j : Nat) :
    a'.mats.Lnn.val i j = a.mats.Lnn.val i j + (ks.map (lnnAt v a.mats.Lnn.rows i j)).sum := by
  induction ks generalizing a with
  | nil =>
    simp only [run, List.foldlM_nil, py_pure, Except.ok.injEq] at h
    subst h; simp
  | cons k ks ih =>
    unfold run at h
    rw [List.foldlM_cons] at h
    obtain ⟨a1, h1, h⟩ := bind_ok_inv h
    obtain ⟨r1, c1, e1⟩ := call_lnn h1
    rw [ih h (by rw [r1, c1]; exact hsq), r1, List.map_cons, List.sum_cons, ← add_assoc]
    congr 1
    cases k with
    | lnn a0 b0 q f =>
      simp only [call] at h1
      obtain ⟨p, hp, h1⟩ := bind_ok_inv h1
      obtain ⟨t, e1, h1⟩ := bind_ok_inv h1
      simp only [py_pure, Except.ok.injEq] at h1
      unfold Mat.add at e1
      obtain ⟨r, hr, e1⟩ := bind_ok_inv e1
      obtain ⟨c, hc, e1⟩ := bind_ok_inv e1
      simp only [py_pure, Except.ok.injEq] at e1
      rw [← hsq, hr] at hc
      simp only [Except.ok.injEq] at hc
      subst hc
      rw [← h1, ← e1]
      simp only [lnnAt, hp, py_bind_ok, hr]
      split <;> simp
    | dd => rw [e1 rfl]; simp [lnnAt]
    | two => rw [e1 rfl]; simp [lnnAt]
    | elem => rw [e1 rfl]; simp [lnnAt]
    | imGamma => rw [e1 rfl]; simp [lnnAt]

/-- One over the energy difference, but at most `10^10`, and nothing for equal energies. -/
def invGap (x : ℝ) : ℝ := if 1e-10 ≤ |x| then 1 / x else 1e10 * (SignType.sign x : ℝ)

theorem gap_diff (x : ℝ) : 1 / gap x - 1 / gap (-x) = 2 * invGap x := by
  unfold gap invGap
  rcases lt_trichotomy x 0 with hx | rfl | hx
  · rw [abs_of_neg hx, sign_neg hx]
    by_cases h : 1e-10 ≤ -x
    · rw [if_pos h, if_neg (by intro h'; linarith [h'.2]), if_neg (by intro h'; linarith [h'.1]),
        if_neg (by intro h'; linarith [h'.1]), if_neg (by intro h'; linarith [h'.2])]
      rw [one_div, one_div, inv_neg]; ring
    · rw [if_neg h, if_neg (by intro h'; linarith [h'.2]), if_pos ⟨by linarith, hx.le⟩,
        if_pos ⟨by linarith, by linarith⟩]
      norm_num
  · norm_num
  · rw [abs_of_pos hx, sign_pos hx]
    by_cases h : 1e-10 ≤ x
    · rw [if_pos h, if_neg (by intro h'; linarith [h'.1]), if_neg (by intro h'; linarith [h'.2]),
        if_neg (by intro h'; linarith [h'.2]), if_neg (by intro h'; linarith [h'.1])]
      rw [one_div, one_div, inv_neg]; ring
    · rw [if_neg h, if_pos ⟨by linarith, hx.le⟩, if_neg (by intro h'; linarith [h'.2]),
        if_pos ⟨by linarith, by linarith⟩]
      norm_num

/-- Pairs of different numbers, sorted. -/
theorem sum_pairs (R : Finset Nat) (F : Nat → Nat → ℝ) :
    ∑ b ∈ R, ∑ bp ∈ R, (if b = bp then 0 else F b bp) = ∑ b ∈ R, ∑ bp ∈ R with b < bp, (F b bp + F bp b) := by
  have e : ∀ b bp, (if b = bp then 0 else F b bp) = (if b < bp then F b bp else 0) + (if bp < b then F b bp else 0) := by
    intro b bp
    rcases lt_trichotomy b bp with h | h | h
    · rw [if_neg h.ne, if_pos h, if_neg (by omega), add_zero]
    · rw [if_pos h, if_neg (by omega), if_neg (by omega), add_zero]
    · rw [if_neg h.ne', if_neg (by omega), if_pos h, zero_add]
  simp only [e, sum_add_distrib, sum_filter]
  congr 1
  rw [sum_comm]

/-- The position of a coherence in the matrices for coherences. -/
def cohPos (v : View) (la : Lab) (q b bp : Nat) : Nat :=
  la.lab q b bp - v.npauli + if b > bp then v.ndm0 - v.npauli else 0

/-- The corrections without the inverse Liouvillian: the imaginary part of the product of the two blocks. -/
def through (m : Mats) (nleads l i j p : Nat) : ℝ :=
  (m.ten .ReWdn).val l i p * ∑ l' ∈ range nleads, (m.ten .ImWnd).val l' p j +
    (m.ten .ImWdn).val l i p * ∑ l' ∈ range nleads, (m.ten .ReWnd).val l' p j

section
variable {s : In} {la : Lab} (h : VOk s.v la) (hall : AllCoherences s.v la)
include h

theorem calls1_lnn {fct : Nat → Nat → ℝ × ℝ} {off : Bool} {ks : List Call} (hk : calls1 s fct off = .ok ks) :
    ∀ k ∈ ks, k.isLnn = false := by
  obtain ⟨key, rfl⟩ := calls1_inv h hk
  intro k hk
  obtain ⟨q, hq, hk⟩ := List.mem_flatMap.1 hk
  obtain ⟨b, hb, hk⟩ := List.mem_flatMap.1 hk
  simp only [one, List.mem_append] at hk
  have hE : ∀ {e : Nat → Nat → Int → Int → Nat → List Call},
      (∀ a b bb aa l, ∀ k ∈ e a b bb aa l, k.isLnn = false) → ∀ k ∈ groupE s.v la e q b, k.isLnn = false := by
    intro e he k hk
    rcases List.mem_append.1 hk with hk | hk
    · obtain ⟨a, _, hk⟩ := List.mem_flatMap.1 hk
      obtain ⟨l, _, hk⟩ := List.mem_flatMap.1 hk
      exact he _ _ _ _ _ k hk
    · obtain ⟨a, _, hk⟩ := List.mem_flatMap.1 hk
      obtain ⟨l, _, hk⟩ := List.mem_flatMap.1 hk
      exact he _ _ _ _ _ k hk
  rcases hk with (((hk | hk) | hk) | hk) | hk
  · simp only [group1, List.mem_append, List.mem_flatMap, List.mem_singleton] at hk
    rcases hk with ⟨_, _, _, _, rfl⟩ | ⟨_, _, _, _, rfl⟩ <;> rfl
  · obtain ⟨r, f, i0, i1, a1, a3, q3, a4, q4, rfl, _⟩ := col2_calls (view_mem h hb) (key q b hb).1 k hk
    rfl
  · refine hE (fun a b bb aa l k hk => ?_) k hk
    simp only [energy1, List.mem_append, List.mem_singleton] at hk
    rcases hk with hk | rfl
    · split at hk
      · simp only [List.mem_singleton] at hk; subst hk; rfl
      · simp at hk
    · rfl
  · refine hE (fun a b bb aa l k hk => ?_) k hk
    simp only [energy2, List.mem_append, List.mem_singleton, List.mem_flatMap] at hk
    rcases hk with ⟨_, _, hk⟩ | rfl
    · split at hk
      · simp only [List.mem_singleton] at hk; subst hk; rfl
      · simp at hk
    · rfl
  · have h5 := (key q b hb).2
    cases off with
    | false => simp [nd, valD] at hk
    | true =>
      simp only [nd, if_true] at h5 hk
      obtain ⟨x, l', a2, b2, q2, mi, rfl, _⟩ := colNd_calls h5 k hk
      rfl

include hall

theorem cohPos_ok {q b bp : Nat} (hb : b ∈ s.v.row q) (hbp : bp ∈ s.v.row q) (hne : b ≠ bp) :
    offPos s.v b bp q = .ok (cohPos s.v la q b bp : Int) ∧ cohPos s.v la q b bp < 2 * s.v.ndm0 - 2 * s.v.npauli := by
  obtain ⟨l1, l2⟩ := h.lab_off q b bp hb hbp hne (hall q b bp hb hbp)
  unfold offPos cohPos
  rw [h.ind0 q b bp hb hbp, hall q b bp hb hbp]
  simp only [py_bind_ok, if_true, py_pure, Except.ok.injEq]
  rw [if_pos hne]
  split <;> omega

/-- The entries of the inverse Liouvillian. -/
theorem lnn_sum {fct : Nat → Nat → ℝ × ℝ} {symq : Bool} {st : St} (S : Steps s fct true symq st) (p : Nat) :
    S.a2.mats.Lnn.val p p =
      ∑ q ∈ range s.v.ncharge, ∑ b ∈ (s.v.row q).toFinset, ∑ bp ∈ (s.v.row q).toFinset, if b = bp then 0 else
        if cohPos s.v la q b bp = p then 1 / gap (s.E b - s.E bp) else 0 := by
  have h2 : calls2 s = .ok S.k2 := by
    rcases S.cases with ⟨e, _⟩ | ⟨_, e, _⟩
    · simp at e
    · exact e
  have l1 : S.a1.mats.Lnn = Mat.zeros (2 * s.v.ndm0 - 2 * s.v.npauli) (2 * s.v.ndm0 - 2 * s.v.npauli) :=
    (run_lnn S.r1).2.2 (calls1_lnn h S.h1)
  rw [run_lnn_val S.r2 (by rw [l1]; rfl), l1]
  simp only [Mat.zeros, zero_add]
  obtain ⟨key, ek⟩ := calls2_inv h h2
  rw [ek, sum_flatMap']
  rw [← List.sum_toFinset _ (List.nodup_range)]
  rw [List.toFinset_range]
  refine sum_congr rfl fun q _ => ?_
  rw [sum_flatMap', ← List.sum_toFinset _ (h.nodup q)]
  refine sum_congr rfl fun b hb => ?_
  rw [sum_flatMap', ← List.sum_toFinset _ (h.nodup q)]
  refine sum_congr rfl fun bp hbp => ?_
  rw [List.mem_toFinset] at hb hbp
  split
  · rfl
  rename_i hne
  rw [List.map_append, List.sum_append, sum_zero, zero_add]
  · obtain ⟨o, lt⟩ := cohPos_ok h hall hb hbp hne
    unfold offPos at o
    simp only [rowL, List.map_cons, List.map_nil, List.sum_cons, List.sum_nil, add_zero, lnnAt]
    rcases hi : s.v.ind0 b bp q with e | r
    · rw [hi] at o
      exact absurd (show (Except.error e : Py Int) = .ok _ from o) (by simp)
    · rw [hi] at o
      simp only [py_bind_ok, py_pure, Except.ok.injEq] at o
      rw [if_pos hne] at o
      simp only [py_bind_ok]
      rw [o, pyIdx_nat lt]
      simp only [and_self, eq_comm]
  · intro k hk
    obtain ⟨x, l', a2, q2, mi, rfl, _⟩ := colDn_calls (key q b bp hb hbp hne) k hk
    rfl

/-- The corrections as a sum over the coherences. -/
theorem corr_sum {fct : Nat → Nat → ℝ × ℝ} {symq : Bool} {st : St} (S : Steps s fct true symq st) {l : Nat}
    (hl : l < s.v.nleads) (i j : Nat) : (S.w l).val i j =
      ∑ q ∈ range s.v.ncharge, ∑ b ∈ (s.v.row q).toFinset, ∑ bp ∈ (s.v.row q).toFinset, if b = bp then 0 else
        1 / gap (s.E b - s.E bp) * through S.a2.mats s.v.nleads l i j (cohPos s.v la q b bp) := by
  have hw : corr S.a2.mats l = .ok (S.w l) := by
    rcases S.cases with ⟨e, _⟩ | ⟨_, _, e⟩
    · simp at e
    · exact e l hl
  have sh1 : S.a1.mats.sh = shapes s.v := (run_made S.r1).sh.trans (fresh_sh _ _)
  have sh2 : S.a2.mats.sh = shapes s.v := (run_made S.r2).sh.trans sh1
  have hd : DiagMat S.a2.mats.Lnn := run_diag S.r2 (run_diag S.r1 ⟨rfl, fun _ _ _ => rfl⟩)
  have lc : S.a2.mats.Lnn.cols = 2 * s.v.ndm0 - 2 * s.v.npauli :=
    (run_lnn S.r2).2.1.trans (run_lnn S.r1).2.1
  have c1 : (S.a2.mats.ten .ReWdn).cols = 2 * s.v.ndm0 - 2 * s.v.npauli := congrArg (·.2.2) (congrFun sh2 .ReWdn)
  have c2 : (S.a2.mats.ten .ImWdn).cols = 2 * s.v.ndm0 - 2 * s.v.npauli := congrArg (·.2.2) (congrFun sh2 .ImWdn)
  have d1 : (S.a2.mats.ten .ReWnd).leads = s.v.nleads := congrArg (·.1) (congrFun sh2 .ReWnd)
  have d2 : (S.a2.mats.ten .ImWnd).leads = s.v.nleads := congrArg (·.1) (congrFun sh2 .ImWnd)
  obtain ⟨x1, x2, y1, y2, e1, e2, e3, e4, e⟩ := corr_inv hw
  have xc : x1.cols = 2 * s.v.ndm0 - 2 * s.v.npauli := (mul_cols e1).trans lc
  have yc : y1.cols = 2 * s.v.ndm0 - 2 * s.v.npauli := (mul_cols e3).trans lc
  have key : (S.w l).val i j = ∑ p ∈ range (2 * s.v.ndm0 - 2 * s.v.npauli),
      S.a2.mats.Lnn.val p p * through S.a2.mats s.v.nleads l i j p := by
    rw [e]
    simp only [addMat, (mul_inv e2).2, (mul_inv e4).2, xc, yc]
    rw [← sum_add_distrib]
    refine sum_congr rfl fun p hp => ?_
    rw [(mul_inv e1).2, (mul_inv e3).2]
    simp only [Ten.lead, c1, c2, Ten.sumLeads, d1, d2]
    rw [sum_diag hd.2 _ (mem_range.1 hp), sum_diag hd.2 _ (mem_range.1 hp)]
    unfold through
    ring
  rw [key]
  simp only [lnn_sum h hall S, sum_mul]
  rw [sum_comm]
  refine sum_congr rfl fun q _ => ?_
  rw [sum_comm]
  refine sum_congr rfl fun b hb => ?_
  rw [sum_comm]
  refine sum_congr rfl fun bp hbp => ?_
  rw [List.mem_toFinset] at hb hbp
  by_cases hne : b = bp
  · simp [hne]
  simp only [hne, if_false]
  have lt := (cohPos_ok h hall hb hbp hne).2
  rw [sum_eq_single (cohPos s.v la q b bp)]
  · rw [if_pos rfl]
  · intro p _ hp
    rw [if_neg (Ne.symm hp), zero_mul]
  · intro hp
    exact absurd (mem_range.2 lt) hp

theorem through_mir {fct : Nat → Nat → ℝ × ℝ} {symq : Bool} {st : St} (S : Steps s fct true symq st) (l i j : Nat)
    {q b bp : Nat} (hb : b ∈ s.v.row q) (hbp : bp ∈ s.v.row q) (hne : b ≠ bp) :
    through S.a2.mats s.v.nleads l i j (cohPos s.v la q bp b) =
      -through S.a2.mats s.v.nleads l i j (cohPos s.v la q b bp) := by
  have o1 := (cohPos_ok h hall hb hbp hne).1
  have o2 := (cohPos_ok h hall hbp hb (Ne.symm hne)).1
  unfold through
  rw [dn_mir h hall S (Or.inl rfl) l i hb hbp hne o1 o2, dn_mir h hall S (Or.inr rfl) l i hb hbp hne o1 o2]
  simp only [nd_mir h hall S (Or.inl rfl) _ j hb hbp hne o1 o2, nd_mir h hall S (Or.inr rfl) _ j hb hbp hne o1 o2,
    Name.sgn, one_mul, neg_one_mul, sum_neg_distrib]
  ring

theorem corr_pairs {fct : Nat → Nat → ℝ × ℝ} {symq : Bool} {st : St} (S : Steps s fct true symq st) {l : Nat}
    (hl : l < s.v.nleads) (i j : Nat) : (S.w l).val i j =
      2 * ∑ q ∈ range s.v.ncharge, ∑ b ∈ (s.v.row q).toFinset, ∑ bp ∈ (s.v.row q).toFinset with b < bp,
        invGap (s.E b - s.E bp) * through S.a2.mats s.v.nleads l i j (la.lab q b bp - s.v.npauli) := by
  rw [corr_sum h hall S hl, mul_sum]
  refine sum_congr rfl fun q _ => ?_
  rw [sum_pairs, mul_sum]
  refine sum_congr rfl fun b hb => ?_
  rw [mul_sum]
  refine sum_congr rfl fun bp hbp => ?_
  rw [mem_filter, List.mem_toFinset] at hbp
  rw [List.mem_toFinset] at hb
  rw [through_mir h hall S l i j hb hbp.1 (by omega), ← mul_assoc, ← gap_diff, neg_sub]
  have : cohPos s.v la q b bp = la.lab q b bp - s.v.npauli := by
    unfold cohPos; rw [if_neg (by omega), add_zero]
  rw [this]
  ring

/-! ### C83 -/

/-- **C83**. Complex conjugate coherences are treated alike: in the blocks that connect populations with coherences, the
entries of the coherence between `bp` and `b` are the complex conjugates of those of the coherence between `b` and `bp`. -/
theorem c83_conj {fct : Nat → Nat → ℝ × ℝ} {symq : Bool} {st : St} (hst : genKern s fct true (fresh s.v symq) = .ok st)
    {q b bp : Nat} (hb : b ∈ s.v.row q) (hbp : bp ∈ s.v.row q) (hlt : b < bp) (l i : Nat) :
    let p := la.lab q b bp - s.v.npauli
    let p' := la.lab q b bp - s.v.npauli + (s.v.ndm0 - s.v.npauli)
    let m := st.acc.mats.ten
    (m .ReWdn).val l i p' = (m .ReWdn).val l i p ∧ (m .ImWdn).val l i p' = -(m .ImWdn).val l i p ∧
      (m .ReWnd).val l p' i = (m .ReWnd).val l p i ∧ (m .ImWnd).val l p' i = -(m .ImWnd).val l p i := by
  obtain ⟨S⟩ := genKern_steps hst
  obtain ⟨o1, o2⟩ := offPos_lt h hall hb hbp hlt
  intro p p' m
  simp only [m, S.rest .ReWdn (by simp), S.rest .ImWdn (by simp), S.rest .ReWnd (by simp), S.rest .ImWnd (by simp)]
  rw [dn_mir h hall S (Or.inl rfl) l i hb hbp hlt.ne o1 o2, dn_mir h hall S (Or.inr rfl) l i hb hbp hlt.ne o1 o2,
    nd_mir h hall S (Or.inl rfl) l i hb hbp hlt.ne o1 o2, nd_mir h hall S (Or.inr rfl) l i hb hbp hlt.ne o1 o2]
  simp [Name.sgn, p]

/-- **C83**. What the corrections add to the kernel of a lead: for every pair of states of equal charge twice the imaginary
part of the product of the two blocks, divided by the difference of the energies. The divisor is at least `10^-10` in size,
and pairs of exactly equal energy add nothing. -/
theorem c83_corrections {fct : Nat → Nat → ℝ × ℝ} {symq : Bool} {st st' : St}
    (hst : genKern s fct false (fresh s.v symq) = .ok st) (hst' : genKern s fct true (fresh s.v symq) = .ok st')
    {l : Nat} (hl : l < s.v.nleads) (i j : Nat) :
    let wdn : Nat → ℂ := fun p => ⟨(st'.acc.mats.ten .ReWdn).val l i p, (st'.acc.mats.ten .ImWdn).val l i p⟩
    let wnd : Nat → Nat → ℂ := fun l' p => ⟨(st'.acc.mats.ten .ReWnd).val l' p j, (st'.acc.mats.ten .ImWnd).val l' p j⟩
    (st'.acc.mats.ten .Wdd).val l i j = (st.acc.mats.ten .Wdd).val l i j +
      2 * ∑ q ∈ range s.v.ncharge, ∑ b ∈ (s.v.row q).toFinset, ∑ bp ∈ (s.v.row q).toFinset with b < bp,
        invGap (s.E b - s.E bp) *
          (wdn (la.lab q b bp - s.v.npauli) * ∑ l' ∈ range s.v.nleads, wnd l' (la.lab q b bp - s.v.npauli)).im := by
  obtain ⟨S⟩ := genKern_steps hst
  obtain ⟨S'⟩ := genKern_steps hst'
  have w0 : (S.w l).val i j = 0 := by
    rcases S.cases with ⟨_, _, e⟩ | ⟨e, _⟩
    · exact e l i j
    · simp at e
  intro wdn wnd
  rw [S'.wdd_eq h hl, S.wdd_eq h hl, w0, corr_pairs h hall S' hl, add_zero]
  refine congrArg (fun x => _ + 2 * x) (sum_congr rfl fun q _ => sum_congr rfl fun b _ => sum_congr rfl fun bp _ => ?_)
  simp only [wdn, wnd, S'.rest .ReWdn (by simp), S'.rest .ImWdn (by simp), S'.rest .ReWnd (by simp), S'.rest .ImWnd (by simp),
    through, Complex.mul_im, Complex.re_sum, Complex.im_sum]

/-- **C83**. If considered states of equal charge have equal energies, the corrections change nothing. -/
theorem c83_degenerate {fct : Nat → Nat → ℝ × ℝ} {symq : Bool} {st st' : St}
    (hst : genKern s fct false (fresh s.v symq) = .ok st) (hst' : genKern s fct true (fresh s.v symq) = .ok st')
    (hE : ∀ q b bp, b ∈ s.v.row q → bp ∈ s.v.row q → s.E b = s.E bp) :
    st'.kern = st.kern ∧ ∀ l < s.v.nleads, ∀ i j,
      (st'.acc.mats.ten .Wdd).val l i j = (st.acc.mats.ten .Wdd).val l i j := by
  have key : ∀ l < s.v.nleads, ∀ i j, (st'.acc.mats.ten .Wdd).val l i j = (st.acc.mats.ten .Wdd).val l i j := by
    intro l hl i j
    have := c83_corrections h hall hst hst' hl i j
    dsimp only at this
    rw [this, sum_eq_zero, mul_zero, add_zero]
    intro q _
    refine sum_eq_zero fun b hb => sum_eq_zero fun bp hbp => ?_
    rw [mem_filter, List.mem_toFinset] at hbp
    rw [List.mem_toFinset] at hb
    rw [hE q b bp hb hbp.1, sub_self]
    norm_num [invGap]
  refine ⟨?_, key⟩
  obtain ⟨S⟩ := genKern_steps hst
  obtain ⟨S'⟩ := genKern_steps hst'
  obtain ⟨r, c, _⟩ := S.kern
  obtain ⟨r', c', _⟩ := S'.kern
  have hv : st'.kern.val = st.kern.val := by
    funext i j
    by_cases hij : i < s.v.npauli ∧ j < s.v.npauli
    · rw [S'.kern_eq h hij.1 hij.2, S.kern_eq h hij.1 hij.2]
      exact sum_congr rfl fun l hl => key l (mem_range.1 hl) i j
    · rw [S'.kern.2.2, S.kern.2.2, if_neg hij, if_neg hij]
  rcases hk : st.kern with ⟨a1, a2, a3⟩
  rcases hk' : st'.kern with ⟨b1, b2, b3⟩
  rw [hk] at r c hv
  rw [hk'] at r' c' hv
  simp only at r c r' c' hv
  rw [r, c, r', c', hv]

end

/-- The hypotheses of `c83_conj` and `c83_corrections` hold for two single-particle states of different energy and two leads,
those of `c83_degenerate` for equal energies. -/
example (F : Fun) (P : F.lib.Poles) (x : ℝ) : ∃ (s : In) (la : Lab) (fct : Nat → Nat → ℝ × ℝ) (st st' : St), s.lib = F.lib ∧
    VOk s.v la ∧ AllCoherences s.v la ∧ Pauli.genFct s.v s.E s.L = .ok fct ∧
    genKern s fct false (fresh s.v true) = .ok st ∧ genKern s fct true (fresh s.v true) = .ok st' ∧ s.v.nleads = 2 ∧
    1 ∈ s.v.row 1 ∧ 2 ∈ s.v.row 1 ∧ s.E 2 - s.E 1 = x ∧
    (x = 0 → ∀ q b bp, b ∈ s.v.row q → bp ∈ s.v.row q → s.E b = s.E bp) := by
  obtain ⟨d, e, hv, ha, hst, _⟩ := view_all
  let L : Leads := ⟨fun l => l, fun l => l + 1, fun _ => -60, fun _ => 60, fun l _ _ => l + 1, 1, 10000⟩
  let s : In := ⟨d.view 2, fun b => if b = 2 then x else if b = 3 then 7 else 0, 4, L, fun _ _ => 1, 2, F.lib, some P⟩
  obtain ⟨fct, hf', _⟩ := Pauli.genFct_ok (v := s.v) hv s.E s.L
  obtain ⟨st, hst1⟩ := genKern_some (s := s) hv (Or.inl rfl) fct false true (fun h => by simp at h)
  obtain ⟨st', hst'⟩ := genKern_some (s := s) hv (Or.inl rfl) fct true true (fun _ => ha)
  have row : ∀ q, s.v.row q = (d.statesdm[q]?).getD [] := fun _ => rfl
  refine ⟨s, d.labOf, fct, st, st', rfl, hv, ha, hf', hst1, hst', rfl, by rw [row, hst]; simp, by rw [row, hst]; simp,
    by simp [s], ?_⟩
  intro hx q b bp hb hbp
  rw [row, hst] at hb hbp
  match q with
  | 0 => simp at hb hbp; subst hb hbp; rfl
  | 1 => simp at hb hbp; rcases hb with rfl | rfl <;> rcases hbp with rfl | rfl <;> simp [s, hx]
  | 2 => simp at hb hbp; subst hb hbp; rfl
  | 3 => simp at hb
  | q + 4 => simp at hb

end RTD

end

end Verif
