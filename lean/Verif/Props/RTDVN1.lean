import Verif.Props.RTDCoh
import Verif.Props.Basis
import Verif.Props.Coherent

/-! C84: the blocks of RTD for coherences are those of 1vN, and its corrections eliminate the coherences from 1vN. -/

namespace Verif

open Finset
open scoped ComplexConjugate
open Complex (I)

noncomputable section

namespace RTD

/-! ### Sums over calls -/

/-- What calls contribute to an entry, real and imaginary part together. -/
def cSum (v : View) (sh : Shape) (re im : Name) (l i j : Nat) (ks : List Call) : ℂ :=
  ⟨(ks.map (atOf v sh re l i j)).sum, (ks.map (atOf v sh im l i j)).sum⟩

section
variable {v : View} {sh : Shape} {re im : Name} {l i j : Nat}

theorem cSum_nil : cSum v sh re im l i j [] = 0 := by simp [cSum, Complex.ext_iff]

theorem cSum_app (a b : List Call) :
    cSum v sh re im l i j (a ++ b) = cSum v sh re im l i j a + cSum v sh re im l i j b := by
  simp [cSum, Complex.ext_iff]

theorem cSum_flatMap {α : Type} [DecidableEq α] {x : List α} (hx : x.Nodup) (f : α → List Call) :
    cSum v sh re im l i j (x.flatMap f) = ∑ a ∈ x.toFinset, cSum v sh re im l i j (f a) := by
  rw [List.sum_toFinset _ hx]
  clear hx
  induction x with
  | nil => simp [cSum_nil]
  | cons a x ih => rw [List.flatMap_cons, cSum_app, ih, List.map_cons, List.sum_cons]

theorem cSum_leads (n : Nat) (f : Nat → List Call) :
    cSum v sh re im l i j ((List.range n).flatMap f) = ∑ a ∈ range n, cSum v sh re im l i j (f a) := by
  rw [cSum_flatMap List.nodup_range, List.toFinset_range]

theorem cSum_ite (P : Prop) [Decidable P] (a : List Call) :
    cSum v sh re im l i j (if P then a else []) = if P then cSum v sh re im l i j a else 0 := by
  split
  · rfl
  · exact cSum_nil

end

/-- A pair of numbers as a complex number. -/
def cx (w : ℝ × ℝ) : ℂ := ⟨w.1, w.2⟩

section
variable {v : View} {la : Lab} (h : VOk v la)
include h

theorem upper_eq {q : Nat} (hq : q < v.ncharge) {f : List Nat → List Call} (hf : f [] = []) :
    upper v q f = .ok (f (v.row (q + 1))) := by
  unfold upper
  by_cases e : (q : Int) ≠ (v.ncharge : Int) - 1
  · rw [if_pos e, show ((q : Int) + 1) = ((q + 1 : Nat) : Int) by push_cast; rfl, h.states (by omega)]
    rfl
  · rw [if_neg e]
    have : q + 1 = v.ncharge := by omega
    rw [this, h.last _ le_rfl, hf]
    rfl

theorem lower_eq {q : Nat} (hq : q < v.ncharge) {f : List Nat → List Call} (hf : f [] = []) :
    lower v q f = .ok (f (v.low q)) := by
  unfold lower View.low
  by_cases e : q = 0
  · subst e
    simp [hf]
  · rw [if_pos (by omega), if_neg e, show ((q : Int) - 1) = ((q - 1 : Nat) : Int) by omega, h.states (by omega)]
    rfl

end

section
variable {s : In} {la : Lab} (h : VOk s.v la) (hall : AllCoherences s.v la)
include h hall

theorem cohPos_inj {q b bp q' a ap : Nat} (hb : b ∈ s.v.row q) (hbp : bp ∈ s.v.row q) (hne : b ≠ bp)
    (ha : a ∈ s.v.row q') (hap : ap ∈ s.v.row q') (hne' : a ≠ ap) :
    cohPos s.v la q b bp = cohPos s.v la q' a ap ↔ b = a ∧ bp = ap := by
  constructor
  · intro e
    have o1 := (cohPos_ok h hall hb hbp hne).1
    have o2 := (cohPos_ok h hall ha hap hne').1
    rw [← e] at o2
    exact offPos_inj h hall hb hbp hne ha hap hne' o1 o2
  · rintro ⟨rfl, rfl⟩
    rw [h.disj _ _ _ hb ha]

omit hall in
theorem diag_inj {q b q' a : Nat} (hb : b ∈ s.v.row q) (ha : a ∈ s.v.row q') :
    la.lab q b b = la.lab q' a a ↔ b = a := by
  constructor
  · intro e
    have o1 := offPos_diag h hb
    have o2 := offPos_diag h ha
    have := h.lab_inj q b b q' a a hb hb (h.inc_diag _ _ hb) ha ha (h.inc_diag _ _ ha) e
    tauto
  · rintro rfl
    rw [h.disj _ _ _ hb ha]

/-- A pair of calls for the block from coherences to populations. -/
theorem pair_dn {w : ℝ × ℝ} {l' a2 q2 a' ap' q' l b c a ap q : Nat} {c2 : Int} (hc : c2 = (q2 : Int)) (ha2 : a2 ∈ s.v.row q2)
    (ha' : a' ∈ s.v.row q') (hap' : ap' ∈ s.v.row q') (hne' : a' ≠ ap') (hb : b ∈ s.v.row c)
    (ha : a ∈ s.v.row q) (hap : ap ∈ s.v.row q) (hne : a ≠ ap) (hl : l' < s.v.nleads) :
    cSum s.v (shapes s.v) .ReWdn .ImWdn l (la.lab c b b) (cohPos s.v la q a ap)
      (pair w.1 w.2 l' a2 a2 c2 a' ap' q' .ReWdn .ImWdn) =
      if l' = l then if a2 = b then if a' = a ∧ ap' = ap then cx w else 0 else 0 else 0 := by
  subst hc
  have o1 := offPos_diag h ha2
  obtain ⟨o2, lt2⟩ := cohPos_ok h hall ha' hap' hne'
  have l2 := h.lab_diag _ _ ha2
  have e1 := elem_atOf (sh := shapes s.v) (n := .ReWdn) (x := w.1) (l := l) (i := la.lab c b b)
    (j := cohPos s.v la q a ap) o1 o2 hl l2 lt2
  have e2 := elem_atOf (sh := shapes s.v) (n := .ImWdn) (x := w.2) (l := l) (i := la.lab c b b)
    (j := cohPos s.v la q a ap) o1 o2 hl l2 lt2
  unfold cSum pair
  simp only [List.map_cons, List.map_nil, List.sum_cons, List.sum_nil, add_zero, e1, e2]
  rw [atOf_name (n := .ReWdn) (by simp [Call.name]), atOf_name (n := .ImWdn) (by simp [Call.name])]
  simp only [diag_inj h ha2 hb, cohPos_inj h hall ha' hap' hne' ha hap hne, add_zero, zero_add]
  by_cases c1 : l' = l <;> by_cases c2 : a2 = b <;> by_cases c3 : a' = a ∧ ap' = ap <;> simp [c1, c2, c3, cx, Complex.ext_iff]

/-- A pair of calls for the block from populations to coherences. -/
theorem pair_nd {w : ℝ × ℝ} {l' a2 b2 q2 a' q' l b bp c a q : Nat} {c2 : Int} (hc : c2 = (q2 : Int)) (ha2 : a2 ∈ s.v.row q2)
    (hb2 : b2 ∈ s.v.row q2) (hne' : a2 ≠ b2)
    (ha' : a' ∈ s.v.row q') (hb : b ∈ s.v.row c) (hbp : bp ∈ s.v.row c) (hne : b ≠ bp)
    (ha : a ∈ s.v.row q) (hl : l' < s.v.nleads) :
    cSum s.v (shapes s.v) .ReWnd .ImWnd l (cohPos s.v la c b bp) (la.lab q a a)
      (pair w.1 w.2 l' a2 b2 c2 a' a' q' .ReWnd .ImWnd) =
      if l' = l then if a2 = b ∧ b2 = bp then if a' = a then cx w else 0 else 0 else 0 := by
  subst hc
  have o1 := offPos_diag h ha'
  obtain ⟨o2, lt2⟩ := cohPos_ok h hall ha2 hb2 hne'
  have l2 := h.lab_diag _ _ ha'
  have e1 := elem_atOf (sh := shapes s.v) (n := .ReWnd) (x := w.1) (l := l) (j := la.lab q a a)
    (i := cohPos s.v la c b bp) o2 o1 hl lt2 l2
  have e2 := elem_atOf (sh := shapes s.v) (n := .ImWnd) (x := w.2) (l := l) (j := la.lab q a a)
    (i := cohPos s.v la c b bp) o2 o1 hl lt2 l2
  unfold cSum pair
  simp only [List.map_cons, List.map_nil, List.sum_cons, List.sum_nil, add_zero, e1, e2]
  rw [atOf_name (n := .ReWnd) (by simp [Call.name]), atOf_name (n := .ImWnd) (by simp [Call.name])]
  simp only [diag_inj h ha' ha, cohPos_inj h hall ha2 hb2 hne' hb hbp hne, add_zero, zero_add]
  by_cases c1 : l' = l <;> by_cases c2 : a2 = b ∧ b2 = bp <;> by_cases c3 : a' = a <;>
    simp [c1, c2, c3, cx, Complex.ext_iff]

end

/-! ### The factors -/

/-- The two kinds of factors of 1vN. -/
abbrev K0 (s : In) (l x b : Nat) : ℂ := (amp1vN s.lib.base s.E s.L l x b).cur0
abbrev K1 (s : In) (l x b : Nat) : ℂ := (amp1vN s.lib.base s.E s.L l x b).cur1

theorem cx_trans (s : In) (t : ℂ) (E1 E2 sign : ℝ) (l : Nat) :
    cx (trans s t E1 E2 sign l) = t * ((Real.pi * (fermiFunc (sign * s.alpha l E1) + fermiFunc (sign * s.alpha l E2)) : ℝ) +
      I * (deltaPhi s.lib (s.alpha l E1) (s.alpha l E2) (s.L.Dm l / s.L.T l) (s.L.Dp l / s.L.T l) sign : ℝ)) := by
  apply Complex.ext
  · simp [cx, trans]; ring
  · simp [cx, trans]; ring

theorem cx_stay (s : In) (t : ℂ) (E1 sign up : ℝ) (l : Nat) :
    cx (stay s t E1 sign up l) = t * ((-(Real.pi * fermiFunc (sign * s.alpha l E1)) : ℝ) +
      I * (up * phi s.lib (s.alpha l E1) (s.L.Dm l / s.L.T l) (s.L.Dp l / s.L.T l) sign : ℝ)) := by
  apply Complex.ext
  · simp [cx, stay]; ring
  · simp [cx, stay]; ring

/-- The real part of the factors. -/
def vnRe (s : In) (l x b : Nat) : ℝ :=
  s.lib.base.digammaRe (s.alpha l (s.E x - s.E b) / (2 * Real.pi)) - Real.log (|s.L.Dm l / s.L.T l| / (2 * Real.pi))

section
variable {s : In} (hi : s.L.itype = 1) {l : Nat} (hD : |s.L.Dm l| = |s.L.Dp l|)
include hi

theorem K0_eq (x b : Nat) : K0 s l x b = (vnRe s l x b : ℝ) - I * Real.pi * fermiFunc (s.alpha l (s.E x - s.E b)) := by
  unfold K0 amp1vN func1vN
  rw [hi, if_neg (by norm_num), if_pos rfl]
  rfl

include hD

theorem K1_eq (x b : Nat) :
    K1 s l x b = (vnRe s l x b : ℝ) - I * Real.pi * fermiFunc (s.alpha l (s.E x - s.E b)) + I * Real.pi := by
  unfold K1 amp1vN func1vN
  rw [hi, if_neg (by norm_num), if_pos rfl]
  unfold func1vN1
  have : Real.log |s.L.Dm l / s.L.T l / (s.L.Dp l / s.L.T l)| = 0 := by
    rw [abs_div, abs_div, abs_div, hD]
    rcases eq_or_ne (|s.L.Dp l| / |s.L.T l|) 0 with e | e
    · rw [e]; simp
    · rw [div_self e, Real.log_one]
  simp only [this]
  simp only [vnRe, In.alpha, Complex.ofReal_zero, add_zero]

omit hi in
theorem phi_eq (x b : Nat) (sign : ℝ) :
    phi s.lib (s.alpha l (s.E x - s.E b)) (s.L.Dm l / s.L.T l) (s.L.Dp l / s.L.T l) sign = -sign * vnRe s l x b := by
  unfold phi vnRe
  have : 0.5 * (|s.L.Dm l / s.L.T l| + |s.L.Dp l / s.L.T l|) = |s.L.Dm l / s.L.T l| := by
    rw [abs_div, abs_div, hD]; ring
  rw [this]; ring

theorem trans_up (t : ℂ) (x b x' b' : Nat) :
    cx (trans s t (s.E x - s.E b) (s.E x' - s.E b') 1 l) = -I * (t * (conj (K0 s l x b) - K0 s l x' b')) := by
  rw [cx_trans, K0_eq hi, K0_eq hi, deltaPhi, phi_eq hD, phi_eq hD]
  simp only [map_sub, map_mul, Complex.conj_ofReal, Complex.conj_I, one_mul]
  push_cast
  linear_combination (t * Real.pi * (fermiFunc (s.alpha l (s.E x - s.E b)) + fermiFunc (s.alpha l (s.E x' - s.E b')))) * Complex.I_sq

theorem stay_up1 (t : ℂ) (x b : Nat) : cx (stay s t (s.E x - s.E b) 1 1 l) = -I * (t * K0 s l x b) := by
  rw [cx_stay, K0_eq hi, phi_eq hD]
  simp only [one_mul]
  push_cast
  linear_combination (-t * Real.pi * (fermiFunc (s.alpha l (s.E x - s.E b)))) * Complex.I_sq

theorem stay_up2 (t : ℂ) (x b : Nat) : cx (stay s t (s.E x - s.E b) 1 (-1) l) = -I * (-t * conj (K0 s l x b)) := by
  rw [cx_stay, K0_eq hi, phi_eq hD]
  simp only [map_sub, map_mul, Complex.conj_ofReal, Complex.conj_I, one_mul]
  push_cast
  linear_combination (-t * Real.pi * (fermiFunc (s.alpha l (s.E x - s.E b)))) * Complex.I_sq

theorem fermi_neg {x b : Nat} (hc : |s.alpha l (s.E x - s.E b)| ≤ 709.77) :
    fermiFunc (-1 * s.alpha l (s.E x - s.E b)) = 1 - fermiFunc (s.alpha l (s.E x - s.E b)) := by
  have := c32_fermi.2.2.2.1 _ hc
  rw [neg_one_mul]; linarith

theorem trans_dn (t : ℂ) {x b x' b' : Nat} (hc : |s.alpha l (s.E x - s.E b)| ≤ 709.77)
    (hc' : |s.alpha l (s.E x' - s.E b')| ≤ 709.77) :
    cx (trans s t (s.E x - s.E b) (s.E x' - s.E b') (-1) l) = -I * (t * (K1 s l x' b' - conj (K1 s l x b))) := by
  rw [cx_trans, K1_eq hi hD, K1_eq hi hD, deltaPhi, phi_eq hD, phi_eq hD, fermi_neg hi hD hc, fermi_neg hi hD hc']
  simp only [map_sub, map_add, map_mul, Complex.conj_ofReal, Complex.conj_I]
  push_cast
  linear_combination (t * Real.pi * (2 - (fermiFunc (s.alpha l (s.E x - s.E b)) + fermiFunc (s.alpha l (s.E x' - s.E b'))))) * Complex.I_sq

theorem stay_dn1 (t : ℂ) {x b : Nat} (hc : |s.alpha l (s.E x - s.E b)| ≤ 709.77) :
    cx (stay s t (s.E x - s.E b) (-1) (-1) l) = -I * (t * conj (K1 s l x b)) := by
  rw [cx_stay, K1_eq hi hD, phi_eq hD, fermi_neg hi hD hc]
  simp only [map_sub, map_add, map_mul, Complex.conj_ofReal, Complex.conj_I]
  push_cast
  linear_combination (t * Real.pi * (fermiFunc (s.alpha l (s.E x - s.E b)) - 1)) * Complex.I_sq

theorem stay_dn2 (t : ℂ) {x b : Nat} (hc : |s.alpha l (s.E x - s.E b)| ≤ 709.77) :
    cx (stay s t (s.E x - s.E b) (-1) 1 l) = -I * (-t * K1 s l x b) := by
  rw [cx_stay, K1_eq hi hD, phi_eq hD, fermi_neg hi hD hc]
  push_cast
  linear_combination (t * Real.pi * (fermiFunc (s.alpha l (s.E x - s.E b)) - 1)) * Complex.I_sq

end

/-! ### Entries of the two blocks -/

theorem list_toFinset_mem {l : List Nat} {x : Nat} (hx : x ∈ l.toFinset) : x ∈ l := List.mem_toFinset.1 hx

section
variable {s : In} {la : Lab} (h : VOk s.v la)
include h

theorem low_nodup (q : Nat) : (s.v.low q).Nodup := by
  unfold View.low
  split
  · simp
  · exact h.nodup _

theorem low_cast {q a : Nat} (ha : a ∈ s.v.low q) : a ∈ s.v.row (q - 1) ∧ ((q : Int) - 1) = ((q - 1 : Nat) : Int) :=
  (VMul.low_mem h.toVMul ha).2

theorem third {q : Nat} (hq : q < s.v.ncharge) {F : Nat → Py (List Call)} {g : Nat → List Call}
    (hg : ∀ a2 ∈ s.v.row q, F a2 = .ok (g a2)) :
    (do let l2 ← s.v.states (q : Int); collect l2 F) = .ok ((s.v.row q).flatMap g) := by
  rw [h.states (by omega)]
  exact collect_ok hg

theorem third2 {q : Nat} (hq : q < s.v.ncharge) {F : Nat → Nat → Py (List Call)} {g : Nat → Nat → List Call}
    (hg : ∀ a2 b2, F a2 b2 = .ok (g a2 b2)) :
    (do let l2 ← s.v.states (q : Int); collect l2 fun a2 => collect l2 fun b2 => if a2 = b2 then pure [] else F a2 b2) =
      .ok ((s.v.row q).flatMap fun a2 => (s.v.row q).flatMap fun b2 => if a2 = b2 then [] else g a2 b2) := by
  rw [h.states (by omega)]
  refine collect_ok fun a2 _ => collect_ok fun b2 _ => ?_
  rw [hg]
  split <;> rfl

end

theorem pick2 (R : Finset Nat) (b bp : Nat) (F : Nat → Nat → ℂ) :
    ∑ x ∈ R, ∑ y ∈ R, (if x = b ∧ y = bp then F x y else 0) = if b ∈ R ∧ bp ∈ R then F b bp else 0 := by
  simp only [ite_and]
  have : ∀ x ∈ R, ∑ y ∈ R, (if x = b then if y = bp then F x y else 0 else 0) = if x = b then if bp ∈ R then F x bp else 0 else 0 := by
    intro x _
    split
    · rw [sum_ite_eq']
    · exact sum_const_zero
  rw [sum_congr rfl this, sum_ite_eq']

/-- An entry of the block from coherences to populations. -/
def wdn (s : In) (l b q a ap : Nat) : ℂ :=
  let T := s.L.Tba
  (if b ∈ s.v.R (q + 1) then cx (trans s (T l b a * conj (T l b ap)) (s.E b - s.E a) (s.E b - s.E ap) 1 l) else 0) +
  (if b ∈ s.v.Lo q then cx (trans s (T l ap b * conj (T l a b)) (s.E ap - s.E b) (s.E a - s.E b) (-1) l) else 0) +
  (if b ∈ s.v.R q then
    (∑ c ∈ s.v.R (q + 1), ((if ap = b then cx (stay s (T l c a * conj (T l c b)) (s.E c - s.E b) 1 1 l) else 0) +
      (if a = b then cx (stay s (T l c b * conj (T l c ap)) (s.E c - s.E b) 1 (-1) l) else 0))) +
    (∑ c ∈ s.v.Lo q, ((if ap = b then cx (stay s (T l b c * conj (T l a c)) (s.E b - s.E c) (-1) (-1) l) else 0) +
      (if a = b then cx (stay s (T l ap c * conj (T l b c)) (s.E b - s.E c) (-1) 1 l) else 0))) else 0)

/-- An entry of the block from populations to coherences. -/
def wnd (s : In) (l b bp q a : Nat) : ℂ :=
  let T := s.L.Tba
  (if b ∈ s.v.R (q + 1) ∧ bp ∈ s.v.R (q + 1) then
    cx (trans s (T l b a * conj (T l bp a)) (s.E bp - s.E a) (s.E b - s.E a) 1 l) else 0) +
  (if b ∈ s.v.Lo q ∧ bp ∈ s.v.Lo q then
    cx (trans s (T l a bp * conj (T l a b)) (s.E a - s.E b) (s.E a - s.E bp) (-1) l) else 0) +
  (if b ∈ s.v.R q ∧ bp ∈ s.v.R q then
    (∑ c ∈ s.v.R (q + 1), ((if a = bp then cx (stay s (T l c a * conj (T l c b)) (s.E c - s.E bp) 1 1 l) else 0) +
      (if a = b then cx (stay s (T l c bp * conj (T l c a)) (s.E c - s.E b) 1 (-1) l) else 0))) +
    (∑ c ∈ s.v.Lo q, ((if a = bp then cx (stay s (T l b c * conj (T l a c)) (s.E bp - s.E c) (-1) (-1) l) else 0) +
      (if a = b then cx (stay s (T l a c * conj (T l bp c)) (s.E b - s.E c) (-1) 1 l) else 0))) else 0)

section
variable {s : In} {la : Lab} (h : VOk s.v la) (hall : AllCoherences s.v la)
include h hall

theorem group_dn {w : Nat → ℝ × ℝ} {a2 q2 a' ap' q' l b c a ap q : Nat} {c2 : Int} (hc : c2 = (q2 : Int))
    (ha2 : a2 ∈ s.v.row q2)
    (ha' : a' ∈ s.v.row q') (hap' : ap' ∈ s.v.row q') (hne' : a' ≠ ap') (hb : b ∈ s.v.row c)
    (ha : a ∈ s.v.row q) (hap : ap ∈ s.v.row q) (hne : a ≠ ap) (hl : l < s.v.nleads) :
    cSum s.v (shapes s.v) .ReWdn .ImWdn l (la.lab c b b) (cohPos s.v la q a ap)
      ((List.range s.v.nleads).flatMap fun l' => pair (w l').1 (w l').2 l' a2 a2 c2 a' ap' q' .ReWdn .ImWdn) =
      if a2 = b then if a' = a ∧ ap' = ap then cx (w l) else 0 else 0 := by
  rw [cSum_leads, sum_congr rfl fun l' hl' => pair_dn h hall hc ha2 ha' hap' hne' hb ha hap hne (mem_range.1 hl'),
    sum_ite_eq', if_pos (mem_range.2 hl)]

theorem group_nd {w : Nat → ℝ × ℝ} {a2 b2 q2 a' q' l b bp c a q : Nat} {c2 : Int} (hc : c2 = (q2 : Int))
    (ha2 : a2 ∈ s.v.row q2) (hb2 : b2 ∈ s.v.row q2) (hne' : a2 ≠ b2)
    (ha' : a' ∈ s.v.row q') (hb : b ∈ s.v.row c) (hbp : bp ∈ s.v.row c) (hne : b ≠ bp)
    (ha : a ∈ s.v.row q) (hl : l < s.v.nleads) :
    cSum s.v (shapes s.v) .ReWnd .ImWnd l (cohPos s.v la c b bp) (la.lab q a a)
      ((List.range s.v.nleads).flatMap fun l' => pair (w l').1 (w l').2 l' a2 b2 c2 a' a' q' .ReWnd .ImWnd) =
      if a2 = b ∧ b2 = bp then if a' = a then cx (w l) else 0 else 0 := by
  rw [cSum_leads, sum_congr rfl fun l' hl' => pair_nd h hall hc ha2 hb2 hne' ha' hb hbp hne ha (mem_range.1 hl'),
    sum_ite_eq', if_pos (mem_range.2 hl)]

theorem dn_col {a' ap' q' l b c a ap q : Nat}
    (ha' : a' ∈ s.v.row q') (hap' : ap' ∈ s.v.row q') (hne' : a' ≠ ap') (hb : b ∈ s.v.row c)
    (ha : a ∈ s.v.row q) (hap : ap ∈ s.v.row q) (hne : a ≠ ap) (hl : l < s.v.nleads) :
    ∃ ks, colDn s a' ap' q' = .ok ks ∧
      cSum s.v (shapes s.v) .ReWdn .ImWdn l (la.lab c b b) (cohPos s.v la q a ap) ks =
        if a' = a ∧ ap' = ap then wdn s l b q' a' ap' else 0 := by
  have hq := h.row_lt ha'
  refine ⟨_, both_ok (both_ok (upper_eq h hq (by rfl)) (lower_eq h hq (by rfl)))
    (third h hq fun a2 _ => both_ok (upper_eq h hq (by rfl)) (lower_eq h hq (by rfl))), ?_⟩
  have G : ∀ {w : Nat → ℝ × ℝ} {a2 q2 : Nat} {c2 : Int}, c2 = (q2 : Int) → a2 ∈ s.v.row q2 → _ :=
    fun {w a2 q2 c2} hc ha2 => group_dn (w := w) h hall hc ha2 ha' hap' hne' hb ha hap hne hl
  rw [cSum_app, cSum_app, cSum_flatMap (h.nodup _), cSum_flatMap (low_nodup h _), cSum_flatMap (h.nodup _)]
  rw [sum_congr rfl fun a2 h2 => G (by push_cast; rfl) (list_toFinset_mem h2),
    sum_congr rfl fun a2 h2 => G (low_cast h (list_toFinset_mem h2)).2 (low_cast h (list_toFinset_mem h2)).1]
  rw [sum_ite_eq', sum_ite_eq']
  have e3 : (if a' = a ∧ ap' = ap then wdn s l b q' a' ap' else 0) =
      (if b ∈ (s.v.row (q' + 1)).toFinset then if a' = a ∧ ap' = ap then
        cx (trans s (s.L.Tba l b a' * conj (s.L.Tba l b ap')) (s.E b - s.E a') (s.E b - s.E ap') 1 l) else 0 else 0) +
      (if b ∈ (s.v.low q').toFinset then if a' = a ∧ ap' = ap then
        cx (trans s (s.L.Tba l ap' b * conj (s.L.Tba l a' b)) (s.E ap' - s.E b) (s.E a' - s.E b) (-1) l) else 0 else 0) +
      ∑ a2 ∈ (s.v.row q').toFinset, if a2 = b then if a' = a ∧ ap' = ap then
        (∑ c ∈ s.v.R (q' + 1),
          ((if ap' = a2 then cx (stay s (s.L.Tba l c a' * conj (s.L.Tba l c a2)) (s.E c - s.E a2) 1 1 l) else 0) +
          (if a' = a2 then cx (stay s (s.L.Tba l c a2 * conj (s.L.Tba l c ap')) (s.E c - s.E a2) 1 (-1) l) else 0))) +
        (∑ c ∈ s.v.Lo q',
          ((if ap' = a2 then cx (stay s (s.L.Tba l a2 c * conj (s.L.Tba l a' c)) (s.E a2 - s.E c) (-1) (-1) l) else 0) +
          (if a' = a2 then cx (stay s (s.L.Tba l ap' c * conj (s.L.Tba l a2 c)) (s.E a2 - s.E c) (-1) 1 l) else 0)))
        else 0 else 0 := by
    rw [sum_ite_eq']
    by_cases hcol : a' = a ∧ ap' = ap
    · simp only [if_pos hcol]; rfl
    · simp only [if_neg hcol]; simp
  rw [e3]
  refine congrArg (_ + ·) (sum_congr rfl fun a2 h2 => ?_)
  have h2' := list_toFinset_mem h2
  rw [cSum_app, cSum_flatMap (h.nodup _), cSum_flatMap (low_nodup h _)]
  simp only [cSum_app, cSum_ite, G rfl h2']
  by_cases e : a2 = b
  · by_cases hcol : a' = a ∧ ap' = ap
    · simp only [if_pos hcol, if_pos e]; rfl
    · simp only [if_neg hcol]; simp
  · simp only [if_neg e]; simp

theorem nd_col {a' q' l b bp c a q : Nat} (ha' : a' ∈ s.v.row q') (hb : b ∈ s.v.row c) (hbp : bp ∈ s.v.row c) (hne : b ≠ bp)
    (ha : a ∈ s.v.row q) (hl : l < s.v.nleads) :
    ∃ ks, colNd s a' q' = .ok ks ∧
      cSum s.v (shapes s.v) .ReWnd .ImWnd l (cohPos s.v la c b bp) (la.lab q a a) ks =
        if a' = a then wnd s l b bp q' a' else 0 := by
  have hq := h.row_lt ha'
  refine ⟨_, both_ok (both_ok (upper_eq h hq (by rfl)) (lower_eq h hq (by rfl)))
    (third2 h hq fun a2 b2 => both_ok (upper_eq h hq (by rfl)) (lower_eq h hq (by rfl))), ?_⟩
  have G : ∀ {w : Nat → ℝ × ℝ} {a2 b2 q2 : Nat} {c2 : Int}, c2 = (q2 : Int) → a2 ∈ s.v.row q2 → b2 ∈ s.v.row q2 → a2 ≠ b2 → _ :=
    fun {w a2 b2 q2 c2} hc ha2 hb2 hn => group_nd (w := w) h hall hc ha2 hb2 hn ha' hb hbp hne ha hl
  rw [cSum_app, cSum_app, cSum_flatMap (h.nodup _), cSum_flatMap (low_nodup h _), cSum_flatMap (h.nodup _)]
  have e3 : (if a' = a then wnd s l b bp q' a' else 0) =
      (∑ a2 ∈ (s.v.row (q' + 1)).toFinset, ∑ b2 ∈ (s.v.row (q' + 1)).toFinset, if a2 = b ∧ b2 = bp then if a' = a then
        cx (trans s (s.L.Tba l a2 a' * conj (s.L.Tba l b2 a')) (s.E b2 - s.E a') (s.E a2 - s.E a') 1 l) else 0 else 0) +
      (∑ a2 ∈ (s.v.low q').toFinset, ∑ b2 ∈ (s.v.low q').toFinset, if a2 = b ∧ b2 = bp then if a' = a then
        cx (trans s (s.L.Tba l a' b2 * conj (s.L.Tba l a' a2)) (s.E a' - s.E a2) (s.E a' - s.E b2) (-1) l) else 0 else 0) +
      ∑ a2 ∈ (s.v.row q').toFinset, ∑ b2 ∈ (s.v.row q').toFinset, if a2 = b ∧ b2 = bp then if a' = a then
        (∑ c ∈ s.v.R (q' + 1),
          ((if a' = b2 then cx (stay s (s.L.Tba l c a' * conj (s.L.Tba l c a2)) (s.E c - s.E b2) 1 1 l) else 0) +
          (if a' = a2 then cx (stay s (s.L.Tba l c b2 * conj (s.L.Tba l c a')) (s.E c - s.E a2) 1 (-1) l) else 0))) +
        (∑ c ∈ s.v.Lo q',
          ((if a' = b2 then cx (stay s (s.L.Tba l a2 c * conj (s.L.Tba l a' c)) (s.E b2 - s.E c) (-1) (-1) l) else 0) +
          (if a' = a2 then cx (stay s (s.L.Tba l a' c * conj (s.L.Tba l b2 c)) (s.E a2 - s.E c) (-1) 1 l) else 0)))
        else 0 else 0 := by
    rw [pick2, pick2, pick2]
    by_cases hcol : a' = a
    · simp only [if_pos hcol]; rfl
    · simp only [if_neg hcol]; simp
  rw [e3]
  refine congrArg₂ (· + ·) (congrArg₂ (· + ·) (sum_congr rfl fun a2 h2 => ?_) (sum_congr rfl fun a2 h2 => ?_))
    (sum_congr rfl fun a2 h2 => ?_)
  · rw [cSum_flatMap (h.nodup _)]
    refine sum_congr rfl fun b2 h3 => ?_
    by_cases e : a2 = b2
    · rw [if_pos e, cSum_nil, if_neg (by rintro ⟨rfl, rfl⟩; exact hne e)]
    · rw [if_neg e]
      exact G (by push_cast; rfl) (list_toFinset_mem h2) (list_toFinset_mem h3) e
  · rw [cSum_flatMap (low_nodup h _)]
    refine sum_congr rfl fun b2 h3 => ?_
    by_cases e : b2 = a2
    · rw [if_pos e, cSum_nil, if_neg (by rintro ⟨rfl, rfl⟩; exact hne e.symm)]
    · rw [if_neg e]
      exact G (low_cast h (list_toFinset_mem h2)).2 (low_cast h (list_toFinset_mem h2)).1
        (low_cast h (list_toFinset_mem h3)).1 (Ne.symm e)
  · rw [cSum_flatMap (h.nodup _)]
    refine sum_congr rfl fun b2 h3 => ?_
    by_cases e : a2 = b2
    · rw [if_pos e, cSum_nil, if_neg (by rintro ⟨rfl, rfl⟩; exact hne e)]
    rw [if_neg e]
    have h2' := list_toFinset_mem h2
    have h3' := list_toFinset_mem h3
    rw [cSum_app, cSum_flatMap (h.nodup _), cSum_flatMap (low_nodup h _)]
    simp only [cSum_app, cSum_ite, G rfl h2' h3' e]
    by_cases e : a2 = b ∧ b2 = bp
    · by_cases hcol : a' = a
      · simp only [if_pos hcol, if_pos e]; rfl
      · simp only [if_neg hcol]; simp
    · simp only [if_neg e]; simp

/-- The entries of the block from coherences to populations. -/
theorem dn_entry {fct : Nat → Nat → ℝ × ℝ} {symq : Bool} {st : St} (S : Steps s fct true symq st) {l c b q a ap : Nat}
    (hb : b ∈ s.v.row c) (ha : a ∈ s.v.row q) (hap : ap ∈ s.v.row q) (hne : a ≠ ap) (hl : l < s.v.nleads) :
    (⟨(S.a2.mats.ten .ReWdn).val l (la.lab c b b) (cohPos s.v la q a ap),
      (S.a2.mats.ten .ImWdn).val l (la.lab c b b) (cohPos s.v la q a ap)⟩ : ℂ) = wdn s l b q a ap := by
  have sh1 : S.a1.mats.sh = shapes s.v := (run_made S.r1).sh.trans (fresh_sh _ _)
  have h2 : calls2 s = .ok S.k2 := by
    rcases S.cases with ⟨e, _⟩ | ⟨_, e, _⟩
    · simp at e
    · exact e
  have z1 : ∀ i p, (S.a1.mats.ten .ReWdn).val l i p = 0 := by
    intro i p
    rw [run_val S.r1, fresh_val, zero_add]
    exact sum_zero fun k hk => atOf_name (calls1_name h S.h1 k hk).1
  have z2 : ∀ i p, (S.a1.mats.ten .ImWdn).val l i p = 0 := by
    intro i p
    rw [run_val S.r1, fresh_val, zero_add]
    exact sum_zero fun k hk => atOf_name (calls1_name h S.h1 k hk).2
  rw [run_val S.r2, run_val S.r2, z1, z2, zero_add, zero_add, sh1]
  obtain ⟨key, ek⟩ := calls2_inv h h2
  change cSum s.v (shapes s.v) .ReWdn .ImWdn l (la.lab c b b) (cohPos s.v la q a ap) S.k2 = _
  rw [ek, cSum_leads]
  have hq := h.row_lt ha
  have inner : ∀ q' a' ap', a' ∈ s.v.row q' → ap' ∈ s.v.row q' →
      cSum s.v (shapes s.v) .ReWdn .ImWdn l (la.lab c b b) (cohPos s.v la q a ap)
        (if a' = ap' then [] else valD (colDn s a' ap' q') ++ rowL s a' ap' q') =
      if a' = a then if ap' = ap then wdn s l b q a ap else 0 else 0 := by
    intro q' a' ap' ha' hap'
    by_cases e : a' = ap'
    · rw [if_pos e, cSum_nil]
      by_cases e1 : a' = a
      · rw [if_pos e1, if_neg (by rintro rfl; exact hne (e1.symm.trans e))]
      · rw [if_neg e1]
    rw [if_neg e, cSum_app]
    obtain ⟨ks, k1, k2⟩ := dn_col h hall (l := l) ha' hap' e hb ha hap hne hl
    rw [k1]
    have : cSum s.v (shapes s.v) .ReWdn .ImWdn l (la.lab c b b) (cohPos s.v la q a ap) (rowL s a' ap' q') = 0 := by
      simp only [cSum, rowL, List.map_cons, List.map_nil, List.sum_cons, List.sum_nil]
      rw [atOf_name (by simp [Call.name]), atOf_name (by simp [Call.name]), add_zero]
      rfl
    rw [this, add_zero]
    refine k2.trans ?_
    by_cases e1 : a' = a
    · by_cases e2 : ap' = ap
      · subst e1 e2
        rw [h.disj _ _ _ ha' ha]
        simp
      · rw [if_neg (fun h => e2 h.2), if_pos e1, if_neg e2]
    · rw [if_neg (fun h => e1 h.1), if_neg e1]
  have mid : ∀ q' ∈ range s.v.ncharge, cSum s.v (shapes s.v) .ReWdn .ImWdn l (la.lab c b b) (cohPos s.v la q a ap)
      ((s.v.row q').flatMap fun b => (s.v.row q').flatMap fun bp =>
        if b = bp then [] else valD (colDn s b bp q') ++ rowL s b bp q') =
      if q' = q then wdn s l b q a ap else 0 := by
    intro q' _
    rw [cSum_flatMap (h.nodup _)]
    rw [sum_congr rfl fun a' h1 => (cSum_flatMap (h.nodup _) _).trans
      (sum_congr rfl fun ap' h2 => inner q' a' ap' (list_toFinset_mem h1) (list_toFinset_mem h2))]
    by_cases e : q' = q
    · subst e
      rw [if_pos rfl, sum_eq_single_of_mem a (List.mem_toFinset.2 ha) (fun x _ hx => by simp [hx]),
        sum_eq_single_of_mem ap (List.mem_toFinset.2 hap) (fun x _ hx => by simp [hx])]
      simp
    · rw [if_neg e]
      refine sum_eq_zero fun x hx => sum_eq_zero fun y hy => ?_
      rw [if_neg]
      rintro rfl
      exact e (h.disj _ _ _ (list_toFinset_mem hx) ha)
  rw [sum_congr rfl mid, sum_ite_eq', if_pos (mem_range.2 hq)]

/-- The entries of the block from populations to coherences. -/
theorem nd_entry {fct : Nat → Nat → ℝ × ℝ} {symq : Bool} {st : St} (S : Steps s fct true symq st) {l c b bp q a : Nat}
    (hb : b ∈ s.v.row c) (hbp : bp ∈ s.v.row c) (hne : b ≠ bp) (ha : a ∈ s.v.row q) (hl : l < s.v.nleads) :
    (⟨(S.a2.mats.ten .ReWnd).val l (cohPos s.v la c b bp) (la.lab q a a),
      (S.a2.mats.ten .ImWnd).val l (cohPos s.v la c b bp) (la.lab q a a)⟩ : ℂ) = wnd s l b bp q a := by
  rw [S.second h (by simp) (by simp), S.second h (by simp) (by simp), run_val S.r1, run_val S.r1, fresh_val, fresh_val,
    zero_add, zero_add, fresh_sh]
  obtain ⟨key, ek⟩ := calls1_inv h S.h1
  change cSum s.v (shapes s.v) .ReWnd .ImWnd l (cohPos s.v la c b bp) (la.lab q a a) S.k1 = _
  rw [ek, cSum_leads]
  have hq := h.row_lt ha
  have skip : ∀ ks : List Call, (∀ k ∈ ks, k.name ≠ some .ReWnd ∧ k.name ≠ some .ImWnd) →
      cSum s.v (shapes s.v) .ReWnd .ImWnd l (cohPos s.v la c b bp) (la.lab q a a) ks = 0 := by
    intro ks hk
    unfold cSum
    rw [sum_zero fun k h => atOf_name (hk k h).1, sum_zero fun k h => atOf_name (hk k h).2]
    rfl
  have inner : ∀ q' a', a' ∈ s.v.row q' →
      cSum s.v (shapes s.v) .ReWnd .ImWnd l (cohPos s.v la c b bp) (la.lab q a a) (one s la fct true q' a') =
      if a' = a then wnd s l b bp q a else 0 := by
    intro q' a' ha'
    unfold one
    obtain ⟨ks, k1, k2⟩ := nd_col h hall (l := l) ha' hb hbp hne ha hl
    rw [cSum_app, cSum_app, cSum_app, cSum_app, skip, skip, skip, skip, zero_add, zero_add, zero_add, zero_add]
    · simp only [nd, if_true, k1]
      refine k2.trans ?_
      by_cases e1 : a' = a
      · subst e1
        rw [h.disj _ _ _ ha' ha]
      · rw [if_neg e1, if_neg e1]
    · intro k hk
      rcases groupE_name (n := .WE2) (fun _ _ _ _ _ => energy2_name) q' a' k hk with e | e <;> rw [e] <;> simp
    · intro k hk
      rcases groupE_name (n := .WE1) (fun _ _ _ _ _ => energy1_name) q' a' k hk with e | e <;> rw [e] <;> simp
    · intro k hk
      obtain ⟨r, f, i0, i1, a1, a3, q3, a4, q4, rfl, _⟩ := col2_calls (view_mem h ha') (key q' a' ha').1 k hk
      simp [Call.name]
    · intro k hk
      simp only [group1, List.mem_append, List.mem_flatMap, List.mem_singleton] at hk
      rcases hk with ⟨_, _, _, _, rfl⟩ | ⟨_, _, _, _, rfl⟩ <;> simp [Call.name]
  have mid : ∀ q' ∈ range s.v.ncharge, cSum s.v (shapes s.v) .ReWnd .ImWnd l (cohPos s.v la c b bp) (la.lab q a a)
      ((s.v.row q').flatMap fun b => one s la fct true q' b) =
      if q' = q then wnd s l b bp q a else 0 := by
    intro q' _
    rw [cSum_flatMap (h.nodup _), sum_congr rfl fun a' h1 => inner q' a' (list_toFinset_mem h1)]
    by_cases e : q' = q
    · subst e
      rw [if_pos rfl, sum_ite_eq', if_pos (List.mem_toFinset.2 ha)]
    · rw [if_neg e]
      refine sum_eq_zero fun x hx => ?_
      rw [if_neg]
      rintro rfl
      exact e (h.disj _ _ _ (list_toFinset_mem hx) ha)
  rw [sum_congr rfl mid, sum_ite_eq', if_pos (mem_range.2 hq)]

end

/-! ### Comparison with 1vN -/

/-- The arguments of the Fermi functions are not so large that `fermi_func` cuts the function off. -/
def NoCut (s : In) : Prop := ∀ l < s.v.nleads, ∀ q x b, x ∈ s.v.row (q + 1) → b ∈ s.v.row q →
  |(s.E x - s.E b - s.L.mu l) / s.L.T l| ≤ 709.77

section
variable {s : In} {la : Lab} (h : VOk s.v la) (hT : s.L.Herm) (hi : s.L.itype = 1)
  (hD : ∀ l < s.v.nleads, |s.L.Dm l| = |s.L.Dp l|) (hC : NoCut s) {k0 k1 : KFct}
  (hk0 : ∀ l q x b bp, l < s.v.nleads → x ∈ s.v.R (q + 1) → b ∈ s.v.R q → k0 l q x b bp = K0 s l x b)
  (hk1 : ∀ l q x xp b, l < s.v.nleads → x ∈ s.v.R (q + 1) → b ∈ s.v.R q → k1 l q x xp b = K1 s l x b)
include h hT hi hD hC hk0 hk1

omit hi hD hC hk0 hk1 in
theorem lo_inv {q b : Nat} (hb : b ∈ s.v.Lo q) : b ∈ s.v.R (q - 1) ∧ q - 1 + 1 = q := by
  obtain ⟨h0, hb', _⟩ := VMul.low_mem h.toVMul (list_toFinset_mem hb)
  exact ⟨(mem_R h).2 hb', Nat.sub_add_cancel h0⟩

omit hk1 hC in
theorem up_A {q b bp a ap : Nat} (hb : b ∈ s.v.R (q + 1)) (hbp : bp ∈ s.v.R (q + 1)) (ha : a ∈ s.v.R q) (hap : ap ∈ s.v.R q) :
    ∑ l ∈ range s.v.nleads, cx (trans s (s.L.Tba l b a * conj (s.L.Tba l bp ap)) (s.E bp - s.E a) (s.E b - s.E ap) 1 l) =
      -I * Coh.A s.v s.L.Tba k0 (q + 1) b bp a ap := by
  unfold Coh.A
  rw [mul_sum]
  refine sum_congr rfl fun l hl => ?_
  have hl := mem_range.1 hl
  rw [trans_up hi (hD l hl), ← hT l ap bp]
  simp only [Nat.add_sub_cancel]
  rw [hk0 l q bp a ap hl hbp ha, hk0 l q b ap a hl hb hap]
  ring

omit hk0 in
theorem dn_C {q b bp a ap : Nat} (hb : b ∈ s.v.Lo q) (hbp : bp ∈ s.v.Lo q) (ha : a ∈ s.v.R q) (hap : ap ∈ s.v.R q) :
    ∑ l ∈ range s.v.nleads, cx (trans s (s.L.Tba l ap bp * conj (s.L.Tba l a b)) (s.E ap - s.E b) (s.E a - s.E bp) (-1) l) =
      -I * Coh.C s.v s.L.Tba k1 (q - 1) b bp a ap := by
  obtain ⟨hb, e⟩ := lo_inv h hT hb
  obtain ⟨hbp, _⟩ := lo_inv h hT hbp
  rw [← e] at ha hap
  unfold Coh.C
  rw [mul_sum]
  refine sum_congr rfl fun l hl => ?_
  have hl := mem_range.1 hl
  rw [trans_dn hi (hD l hl) _ (hC l hl _ _ _ ((mem_R h).1 hap) ((mem_R h).1 hb)) (hC l hl _ _ _ ((mem_R h).1 ha) ((mem_R h).1 hbp)),
    ← hT l b a, hk1 l _ a ap bp hl ha hbp, hk1 l _ ap a b hl hap hb]
  ring

theorem stay_L {q b bp y : Nat} (hbp : bp ∈ s.v.R q) :
    ∑ l ∈ range s.v.nleads,
      ((∑ c ∈ s.v.R (q + 1), cx (stay s (s.L.Tba l c y * conj (s.L.Tba l c b)) (s.E c - s.E bp) 1 1 l)) +
       ∑ c ∈ s.v.Lo q, cx (stay s (s.L.Tba l b c * conj (s.L.Tba l y c)) (s.E bp - s.E c) (-1) (-1) l)) =
      -I * Coh.L s.v s.L.Tba k0 k1 q b bp y := by
  unfold Coh.L
  rw [sum_add_distrib, add_comm, mul_add, mul_sum, mul_sum]
  congr 1
  · rw [sum_comm]
    refine sum_congr rfl fun c hc => ?_
    obtain ⟨hc, e⟩ := lo_inv h hT hc
    rw [mul_sum]
    refine sum_congr rfl fun l hl => ?_
    have hl := mem_range.1 hl
    have hbp' : bp ∈ s.v.R (q - 1 + 1) := by rw [e]; exact hbp
    rw [stay_dn1 hi (hD l hl) _ (hC l hl _ _ _ ((mem_R h).1 hbp') ((mem_R h).1 hc)), ← hT l c y, hk1 l _ bp y c hl hbp' hc]
  · rw [sum_comm]
    refine sum_congr rfl fun c hc => ?_
    rw [mul_sum]
    refine sum_congr rfl fun l hl => ?_
    have hl := mem_range.1 hl
    rw [stay_up1 hi (hD l hl), ← hT l b c, hk0 l _ c bp y hl hc hbp]
    ring

theorem stay_R {q b bp y : Nat} (hb : b ∈ s.v.R q) :
    ∑ l ∈ range s.v.nleads,
      ((∑ c ∈ s.v.R (q + 1), cx (stay s (s.L.Tba l c bp * conj (s.L.Tba l c y)) (s.E c - s.E b) 1 (-1) l)) +
       ∑ c ∈ s.v.Lo q, cx (stay s (s.L.Tba l y c * conj (s.L.Tba l bp c)) (s.E b - s.E c) (-1) 1 l)) =
      -I * Coh.R s.v s.L.Tba k0 k1 q b bp y := by
  unfold Coh.R
  rw [sum_add_distrib, add_comm, mul_add, mul_sum, mul_sum]
  congr 1
  · rw [sum_comm]
    refine sum_congr rfl fun c hc => ?_
    obtain ⟨hc, e⟩ := lo_inv h hT hc
    rw [mul_sum]
    refine sum_congr rfl fun l hl => ?_
    have hl := mem_range.1 hl
    have hb' : b ∈ s.v.R (q - 1 + 1) := by rw [e]; exact hb
    rw [stay_dn2 hi (hD l hl) _ (hC l hl _ _ _ ((mem_R h).1 hb') ((mem_R h).1 hc)), ← hT l c bp, hk1 l _ b y c hl hb' hc]
    ring
  · rw [sum_comm]
    refine sum_congr rfl fun c hc => ?_
    rw [mul_sum]
    refine sum_congr rfl fun l hl => ?_
    have hl := mem_range.1 hl
    rw [stay_up2 hi (hD l hl), ← hT l y c, hk0 l _ c b y hl hc hb]
    ring

omit h hT hi hD hC hk0 hk1 in
theorem sum_ite_const {ι : Type} (R : Finset ι) (P : Prop) [Decidable P] (F : ι → ℂ) :
    ∑ x ∈ R, (if P then F x else 0) = if P then ∑ x ∈ R, F x else 0 := by
  split
  · rfl
  · exact sum_const_zero

/-- The block from coherences to populations, added over the leads, in terms of the equations of 1vN. -/
theorem wdn_sum {b q a ap : Nat} (ha : a ∈ s.v.R q) (hap : ap ∈ s.v.R q) :
    ∑ l ∈ range s.v.nleads, wdn s l b q a ap =
      (if b ∈ s.v.R (q + 1) then -I * Coh.A s.v s.L.Tba k0 (q + 1) b b a ap else 0) +
      (if b ∈ s.v.Lo q then -I * Coh.C s.v s.L.Tba k1 (q - 1) b b a ap else 0) +
      (if b ∈ s.v.R q then (if ap = b then -I * Coh.L s.v s.L.Tba k0 k1 q b b a else 0) +
        (if a = b then -I * Coh.R s.v s.L.Tba k0 k1 q b b ap else 0) else 0) := by
  unfold wdn
  simp only [sum_add_distrib, sum_ite_const]
  congr 1
  · congr 1
    · split
      · rename_i hb
        exact up_A h hT hi hD hk0 hb hb ha hap
      · rfl
    · split
      · rename_i hb
        exact dn_C h hT hi hD hC hk1 hb hb ha hap
      · rfl
  · split
    · rename_i hb
      have e1 := stay_L h hT hi hD hC hk0 hk1 (b := b) (y := a) hb
      have e2 := stay_R h hT hi hD hC hk0 hk1 (bp := b) (y := ap) hb
      rw [sum_add_distrib] at e1 e2
      rw [← e1, ← e2]
      split <;> split <;> ring
    · rfl

/-- The block from populations to coherences, added over the leads, in terms of the equations of 1vN. -/
theorem wnd_sum {b bp q a : Nat} (ha : a ∈ s.v.R q) :
    ∑ l ∈ range s.v.nleads, wnd s l b bp q a =
      (if b ∈ s.v.R (q + 1) ∧ bp ∈ s.v.R (q + 1) then -I * Coh.A s.v s.L.Tba k0 (q + 1) b bp a a else 0) +
      (if b ∈ s.v.Lo q ∧ bp ∈ s.v.Lo q then -I * Coh.C s.v s.L.Tba k1 (q - 1) b bp a a else 0) +
      (if b ∈ s.v.R q ∧ bp ∈ s.v.R q then (if a = bp then -I * Coh.L s.v s.L.Tba k0 k1 q b bp a else 0) +
        (if a = b then -I * Coh.R s.v s.L.Tba k0 k1 q b bp a else 0) else 0) := by
  unfold wnd
  simp only [sum_add_distrib, sum_ite_const]
  congr 1
  · congr 1
    · split
      · rename_i hb
        exact up_A h hT hi hD hk0 hb.1 hb.2 ha ha
      · rfl
    · split
      · rename_i hb
        exact dn_C h hT hi hD hC hk1 hb.1 hb.2 ha ha
      · rfl
  · split
    · rename_i hb
      have e1 := stay_L h hT hi hD hC hk0 hk1 (b := b) (y := a) hb.2
      have e2 := stay_R h hT hi hD hC hk0 hk1 (bp := bp) (y := a) hb.1
      rw [sum_add_distrib] at e1 e2
      rw [← e1, ← e2]
      split <;> split <;> ring
    · rfl

omit hT hi hD hC hk0 hk1 in
/-- The charges from which a state can be reached. -/
theorem sum_up {c b : Nat} (hb : b ∈ s.v.R c) (F : Nat → ℂ) (hF : ∀ q, s.v.R q = ∅ → F q = 0) :
    ∑ q ∈ range s.v.ncharge, (if b ∈ s.v.R (q + 1) then F q else 0) = if c = 0 then 0 else F (c - 1) := by
  have hb' := (mem_R h).1 hb
  have hc := h.row_lt hb'
  split
  · rename_i e
    refine sum_eq_zero fun q _ => if_neg fun hb2 => ?_
    have := h.disj _ _ _ hb' ((mem_R h).1 hb2)
    omega
  · rename_i e
    rw [sum_eq_single (c - 1)]
    · rw [show c - 1 + 1 = c by omega, if_pos hb]
    · intro q _ hq
      refine if_neg fun hb2 => ?_
      have := h.disj _ _ _ hb' ((mem_R h).1 hb2)
      omega
    · intro hn
      exact absurd (mem_range.2 (by omega)) hn

omit hT hi hD hC hk0 hk1 in
theorem sum_down {c b : Nat} (hb : b ∈ s.v.R c) (F : Nat → ℂ) (hF : ∀ q, s.v.R q = ∅ → F q = 0) :
    ∑ q ∈ range s.v.ncharge, (if b ∈ s.v.Lo q then F q else 0) = F (c + 1) := by
  have hb' := (mem_R h).1 hb
  have key : ∀ q, b ∈ s.v.Lo q ↔ q = c + 1 := by
    intro q
    constructor
    · intro hb2
      obtain ⟨h0, hb2, _⟩ := VMul.low_mem h.toVMul (list_toFinset_mem hb2)
      have := h.disj _ _ _ hb' hb2
      omega
    · rintro rfl
      rw [Lo_succ h]; exact hb
  simp only [key]
  rw [sum_ite_eq']
  split
  · rfl
  · rename_i hn
    rw [mem_range] at hn
    refine (hF _ ?_).symm
    unfold View.R
    rw [h.last _ (by omega)]
    rfl

omit hT hi hD hC hk0 hk1 in
theorem sum_same {c b : Nat} (hb : b ∈ s.v.R c) (F : Nat → ℂ) :
    ∑ q ∈ range s.v.ncharge, (if b ∈ s.v.R q then F q else 0) = F c := by
  have hb' := (mem_R h).1 hb
  have key : ∀ q, b ∈ s.v.R q ↔ q = c := by
    intro q
    constructor
    · intro hb2
      exact (h.disj _ _ _ hb' ((mem_R h).1 hb2)).symm
    · rintro rfl; exact hb
  simp only [key]
  rw [sum_ite_eq', if_pos (mem_range.2 (h.row_lt hb'))]

/-- The equation of a population, for a density matrix without populations. -/
theorem dn_S {ρ : Nat → Nat → Nat → ℂ} (hρ : ∀ q, ∀ a ∈ s.v.R q, ρ q a a = 0) {c b : Nat} (hb : b ∈ s.v.R c) :
    -I * Coh.S s.v s.L.Tba k0 k1 ρ c b b = ∑ q ∈ range s.v.ncharge, ∑ a ∈ s.v.R q, ∑ ap ∈ s.v.R q,
      if a = ap then 0 else (∑ l ∈ range s.v.nleads, wdn s l b q a ap) * ρ q a ap := by
  have e : ∀ q, ∑ a ∈ s.v.R q, ∑ ap ∈ s.v.R q,
      (if a = ap then 0 else (∑ l ∈ range s.v.nleads, wdn s l b q a ap) * ρ q a ap) =
      (if b ∈ s.v.R (q + 1) then ∑ a ∈ s.v.R q, ∑ ap ∈ s.v.R q, -I * Coh.A s.v s.L.Tba k0 (q + 1) b b a ap * ρ q a ap else 0) +
      (if b ∈ s.v.Lo q then ∑ a ∈ s.v.R q, ∑ ap ∈ s.v.R q, -I * Coh.C s.v s.L.Tba k1 (q - 1) b b a ap * ρ q a ap else 0) +
      (if b ∈ s.v.R q then ∑ a ∈ s.v.R q, ∑ ap ∈ s.v.R q, ((if ap = b then -I * Coh.L s.v s.L.Tba k0 k1 q b b a else 0) +
        (if a = b then -I * Coh.R s.v s.L.Tba k0 k1 q b b ap else 0)) * ρ q a ap else 0) := by
    intro q
    simp only [← sum_ite_const, ← sum_add_distrib]
    refine sum_congr rfl fun a ha => sum_congr rfl fun ap hap => ?_
    by_cases hne : a = ap
    · subst hne
      rw [hρ q a ha]; simp
    · rw [if_neg hne, wdn_sum h hT hi hD hC hk0 hk1 ha hap]
      split_ifs <;> ring
  rw [sum_congr rfl fun q _ => e q, sum_add_distrib, sum_add_distrib, sum_up h hb _ (fun q hq => by rw [hq]; simp),
    sum_down h hb _ (fun q hq => by rw [hq]; simp), sum_same h hb]
  unfold Coh.S
  rw [mul_add, mul_add]
  have e1 : ∑ a ∈ s.v.Lo c, ∑ ap ∈ s.v.Lo c, Coh.A s.v s.L.Tba k0 c b b a ap * ρ (c - 1) a ap =
      if c = 0 then 0 else ∑ a ∈ s.v.R (c - 1), ∑ ap ∈ s.v.R (c - 1), Coh.A s.v s.L.Tba k0 (c - 1 + 1) b b a ap * ρ (c - 1) a ap := by
    rcases c with _ | c
    · rw [Lo_zero h]; simp
    · rw [Lo_succ h]; simp
  have e2 : ∑ a ∈ s.v.R c, ∑ ap ∈ s.v.R c, ((if ap = b then -I * Coh.L s.v s.L.Tba k0 k1 c b b a else 0) +
        (if a = b then -I * Coh.R s.v s.L.Tba k0 k1 c b b ap else 0)) * ρ c a ap =
      -I * ∑ y ∈ s.v.R c, (Coh.L s.v s.L.Tba k0 k1 c b b y * ρ c y b + Coh.R s.v s.L.Tba k0 k1 c b b y * ρ c b y) := by
    simp only [add_mul, sum_add_distrib, ite_mul, zero_mul, sum_ite_eq', if_pos hb, sum_ite_const]
    rw [mul_add, mul_sum, mul_sum]
    congr 1 <;> exact sum_congr rfl fun y _ => by ring
  rw [e1, e2]
  simp only [Nat.add_sub_cancel, mul_assoc, ← mul_sum, mul_ite, mul_zero]
  ring

/-- The equation of a coherence, for a density matrix without coherences. -/
theorem nd_S {ρ : Nat → Nat → Nat → ℂ} (hρ : ∀ q, ∀ a ∈ s.v.R q, ∀ ap ∈ s.v.R q, a ≠ ap → ρ q a ap = 0) {c b bp : Nat}
    (hb : b ∈ s.v.R c) (hbp : bp ∈ s.v.R c) :
    -I * Coh.S s.v s.L.Tba k0 k1 ρ c b bp = ∑ q ∈ range s.v.ncharge, ∑ a ∈ s.v.R q,
      (∑ l ∈ range s.v.nleads, wnd s l b bp q a) * ρ q a a := by
  have same : ∀ q, (b ∈ s.v.R q ∧ bp ∈ s.v.R q) ↔ b ∈ s.v.R q := by
    intro q
    refine ⟨fun x => x.1, fun x => ⟨x, ?_⟩⟩
    rw [← h.disj _ _ _ ((mem_R h).1 hb) ((mem_R h).1 x)]; exact hbp
  have same' : ∀ q, (b ∈ s.v.Lo q ∧ bp ∈ s.v.Lo q) ↔ b ∈ s.v.Lo q := by
    intro q
    rcases q with _ | q
    · rw [Lo_zero h]; simp
    · rw [Lo_succ h]; exact same q
  have e : ∀ q, ∑ a ∈ s.v.R q, (∑ l ∈ range s.v.nleads, wnd s l b bp q a) * ρ q a a =
      (if b ∈ s.v.R (q + 1) then ∑ a ∈ s.v.R q, -I * Coh.A s.v s.L.Tba k0 (q + 1) b bp a a * ρ q a a else 0) +
      (if b ∈ s.v.Lo q then ∑ a ∈ s.v.R q, -I * Coh.C s.v s.L.Tba k1 (q - 1) b bp a a * ρ q a a else 0) +
      (if b ∈ s.v.R q then ∑ a ∈ s.v.R q, ((if a = bp then -I * Coh.L s.v s.L.Tba k0 k1 q b bp a else 0) +
        (if a = b then -I * Coh.R s.v s.L.Tba k0 k1 q b bp a else 0)) * ρ q a a else 0) := by
    intro q
    simp only [← sum_ite_const, ← sum_add_distrib]
    refine sum_congr rfl fun a ha => ?_
    rw [wnd_sum h hT hi hD hC hk0 hk1 ha]
    simp only [same, same']
    split_ifs <;> ring
  rw [sum_congr rfl fun q _ => e q, sum_add_distrib, sum_add_distrib, sum_up h hb _ (fun q hq => by rw [hq]; simp),
    sum_down h hb _ (fun q hq => by rw [hq]; simp), sum_same h hb]
  unfold Coh.S
  rw [mul_add, mul_add]
  have dg : ∀ (q : Nat) (R : Finset Nat) (F : Nat → Nat → ℂ), R = s.v.R q → ∑ a ∈ R, ∑ ap ∈ R, F a ap * ρ q a ap = ∑ a ∈ R, F a a * ρ q a a := by
    rintro q _ F rfl
    refine sum_congr rfl fun a ha => ?_
    rw [sum_eq_single_of_mem a ha]
    intro ap hap hne
    rw [hρ q a ha ap hap (Ne.symm hne), mul_zero]
  have e1 : ∑ a ∈ s.v.Lo c, ∑ ap ∈ s.v.Lo c, Coh.A s.v s.L.Tba k0 c b bp a ap * ρ (c - 1) a ap =
      if c = 0 then 0 else ∑ a ∈ s.v.R (c - 1), Coh.A s.v s.L.Tba k0 (c - 1 + 1) b bp a a * ρ (c - 1) a a := by
    rcases c with _ | c
    · rw [Lo_zero h]; simp
    · rw [Lo_succ h]
      exact dg c _ _ rfl
  have e2 : ∑ a ∈ s.v.R c, ((if a = bp then -I * Coh.L s.v s.L.Tba k0 k1 c b bp a else 0) +
        (if a = b then -I * Coh.R s.v s.L.Tba k0 k1 c b bp a else 0)) * ρ c a a =
      -I * ∑ y ∈ s.v.R c, (Coh.L s.v s.L.Tba k0 k1 c b bp y * ρ c y bp + Coh.R s.v s.L.Tba k0 k1 c b bp y * ρ c b y) := by
    rw [mul_sum]
    refine sum_congr rfl fun y hy => ?_
    by_cases y1 : y = bp
    · by_cases y2 : y = b
      · rw [if_pos y1, if_pos y2, ← y1, ← y2]; ring
      · rw [if_pos y1, if_neg y2, hρ c b hb y hy (Ne.symm y2), ← y1]; ring
    · by_cases y2 : y = b
      · rw [if_neg y1, if_pos y2, hρ c y hy bp hbp y1, ← y2]; ring
      · rw [if_neg y1, if_neg y2, hρ c y hy bp hbp y1, hρ c b hb y hy (Ne.symm y2)]; ring
  rw [e1, e2, dg (c + 1) _ _ rfl]
  simp only [Nat.add_sub_cancel, mul_assoc, ← mul_sum, mul_ite, mul_zero]
  ring

end

/-! ### C84 -/

/-- The populations of a vector. -/
def pops (v : View) (φ : Nat → ℝ) : Nat → ℝ := fun i => if i < v.npauli then φ i else 0

/-- The coherences of a vector. -/
def cohs (v : View) (φ : Nat → ℝ) : Nat → ℝ := fun i => if i < v.npauli then 0 else φ i

theorem app_split (v : View) (m : Mat) (φ : Nat → ℝ) (i : Nat) : m.app φ i = m.app (pops v φ) i + m.app (cohs v φ) i := by
  unfold Mat.app
  rw [← sum_add_distrib]
  refine sum_congr rfl fun j _ => ?_
  unfold pops cohs
  split <;> ring

section
variable {s : In} {la : Lab} (h : VOk s.v la) (hall : AllCoherences s.v la) (hT : s.L.Herm) (hi : s.L.itype = 1)
  (hD : ∀ l < s.v.nleads, |s.L.Dm l| = |s.L.Dp l|) (hC : NoCut s)
include h

theorem dens_cohs_diag (φ : Nat → ℝ) {q a : Nat} (ha : a ∈ s.v.R q) : dens s.v la (cohs s.v φ) q a a = 0 := by
  have ha' := (mem_R h).1 ha
  unfold dens cohs
  rw [if_pos (h.inc_diag q a ha'), if_pos (h.lab_diag q a ha')]
  simp [Complex.ext_iff]

theorem dens_cohs (φ : Nat → ℝ) {q a ap : Nat} (ha : a ∈ s.v.R q) (hap : ap ∈ s.v.R q) (hne : a ≠ ap) :
    dens s.v la (cohs s.v φ) q a ap = dens s.v la φ q a ap := by
  unfold dens
  split
  · rename_i hin
    obtain ⟨l1, l2⟩ := h.lab_off q a ap ((mem_R h).1 ha) ((mem_R h).1 hap) hne hin
    have e1 : cohs s.v φ (la.lab q a ap) = φ (la.lab q a ap) := if_neg (by omega)
    have e2 : cohs s.v φ (s.v.imag (la.lab q a ap)) = φ (s.v.imag (la.lab q a ap)) :=
      if_neg (by unfold View.imag; omega)
    rw [e1, e2]
  · rfl

include hT hi hD hC

/-- The population rows of 1vN. -/
theorem vn_pop {f : Nat → Nat → Amp} {m : Mat} {symq' : Bool} (hf : genFct1vN s.v s.lib.base s.E s.L = .ok f)
    (hm : VN1.kernel s.v symq' s.E s.L.Tba f = .ok m) {fctP : Nat → Nat → ℝ × ℝ} {mP : Mat} {symq'' : Bool}
    (hfP : Pauli.genFct s.v s.E s.L = .ok fctP) (hmP : Pauli.kernel s.v symq'' fctP = .ok mP) (φ : Nat → ℝ) {c b : Nat}
    (hb : b ∈ s.v.R c) :
    m.app φ (la.lab c b b) = mP.app φ (la.lab c b b) + (∑ q ∈ range s.v.ncharge, ∑ a ∈ s.v.R q, ∑ ap ∈ s.v.R q,
      if a = ap then 0 else (∑ l ∈ range s.v.nleads, wdn s l b q a ap) * dens s.v la φ q a ap).re := by
  obtain ⟨fct', gP, hfct⟩ := Pauli.genFct_ok h s.E s.L
  obtain rfl := Except.ok.inj (hfP.symm.trans gP)
  obtain ⟨mP', gmP, hcP, _, rowsP⟩ := Pauli.kernel_rows h fctP symq''
  obtain rfl := Except.ok.inj (hmP.symm.trans gmP)
  obtain ⟨f', gf, hf'⟩ := fillFct_ok h (⟨0, 0, 0, 0⟩ : Amp) (amp1vN s.lib.base s.E s.L)
  obtain rfl := Except.ok.inj (hf.symm.trans gf)
  obtain ⟨m', g, hc, _, rows⟩ := assemble_rows h symq' s.E (VN1.coup s.v s.L.Tba f) _
    (fun c b bp hb hbp hi => VN1.coup_ok h s.L.Tba f hb hbp hi)
  obtain rfl := Except.ok.inj (hm.symm.trans g)
  have hk : ∀ l q x b, l < s.v.nleads → x ∈ s.v.R (q + 1) → b ∈ s.v.R q →
      f l (la.ix1 q x b) = amp1vN s.lib.base s.E s.L l x b :=
    fun l q x b hl hx hb => hf' q x b l ((mem_R h).1 hx) ((mem_R h).1 hb) hl
  rw [app_split s.v m]
  congr 1
  · rw [pop_rows h rows _ hb]
    have e : mP.app φ (la.lab c b b) = mP.app (pops s.v φ) (la.lab c b b) := by
      unfold Mat.app
      refine sum_congr rfl fun j hj => ?_
      rw [hcP, mem_range] at hj
      unfold pops
      rw [if_pos hj]
    rw [e, rowsP _ c b ((mem_R h).1 hb)]
    exact Coh.row_pop h s.lib.base s.E s.L hT (Or.inr (Or.inl hi)) hfct _ _
      (fun l q x b hl hx hb => ⟨congrArg _ (hk l q x b hl hx hb), congrArg _ (hk l q x b hl hx hb)⟩)
      (fun i hi => if_neg (by omega)) hb
  · rw [pop_rows h rows _ hb]
    have := dn_S h hT hi hD hC (k0 := fun l q x b _ => (f l (la.ix1 q x b)).cur0)
      (k1 := fun l q x _ b => (f l (la.ix1 q x b)).cur1)
      (fun l q x b bp hl hx hb => congrArg _ (hk l q x b hl hx hb))
      (fun l q x xp b hl hx hb => congrArg _ (hk l q x b hl hx hb))
      (ρ := dens s.v la (cohs s.v φ)) (fun q a ha => dens_cohs_diag h φ ha) hb
    rw [show ∀ z : ℂ, z.im = (-I * z).re by intro z; simp, this]
    refine congrArg Complex.re (sum_congr rfl fun q _ => sum_congr rfl fun a ha => sum_congr rfl fun ap hap => ?_)
    split
    · rfl
    · rename_i hne
      rw [dens_cohs h φ ha hap hne]

/-- The coherence rows of 1vN, for a vector without coherences. -/
theorem vn_coh {f : Nat → Nat → Amp} {m : Mat} {symq' : Bool} (hf : genFct1vN s.v s.lib.base s.E s.L = .ok f)
    (hm : VN1.kernel s.v symq' s.E s.L.Tba f = .ok m) {φ : Nat → ℝ} (hφ : ∀ i, s.v.npauli ≤ i → φ i = 0) {c b bp : Nat}
    (hin : la.inc c b bp = true) (hb : b ∈ s.v.R c) (hbp : bp ∈ s.v.R c) (hne : b ≠ bp) :
    dens s.v la (m.app φ) c b bp = ∑ q ∈ range s.v.ncharge, ∑ a ∈ s.v.R q,
      (∑ l ∈ range s.v.nleads, wnd s l b bp q a) * φ (la.lab q a a) := by
  obtain ⟨f', gf, hf'⟩ := fillFct_ok h (⟨0, 0, 0, 0⟩ : Amp) (amp1vN s.lib.base s.E s.L)
  obtain rfl := Except.ok.inj (hf.symm.trans gf)
  obtain ⟨m', g, hc, _, rows⟩ := assemble_rows h symq' s.E (VN1.coup s.v s.L.Tba f) _
    (fun c b bp hb hbp hi => VN1.coup_ok h s.L.Tba f hb hbp hi)
  obtain rfl := Except.ok.inj (hm.symm.trans g)
  have hk : ∀ l q x b, l < s.v.nleads → x ∈ s.v.R (q + 1) → b ∈ s.v.R q →
      f l (la.ix1 q x b) = amp1vN s.lib.base s.E s.L l x b :=
    fun l q x b hl hx hb => hf' q x b l ((mem_R h).1 hx) ((mem_R h).1 hb) hl
  rw [dens_app h rows (fun c b bp hb hbp => Coh.S_anti' h hT _ _ φ c b bp hb hbp) ((mem_R h).1 hb) ((mem_R h).1 hbp),
    if_pos hin, dens_pop h hφ hb hbp, if_neg hne, mul_zero, zero_add]
  rw [nd_S h hT hi hD hC (k0 := fun l q x b _ => (f l (la.ix1 q x b)).cur0)
      (k1 := fun l q x _ b => (f l (la.ix1 q x b)).cur1)
      (fun l q x b bp hl hx hb => congrArg _ (hk l q x b hl hx hb))
      (fun l q x xp b hl hx hb => congrArg _ (hk l q x b hl hx hb))
      (ρ := dens s.v la φ) (fun q a ha ap hap hne => by rw [dens_pop h hφ ha hap, if_neg hne]) hb hbp]
  refine sum_congr rfl fun q _ => sum_congr rfl fun a ha => ?_
  rw [dens_pop h hφ ha ha, if_pos rfl]

include hall

/-- **C84**. The populations of 1vN (`itype = 1`) change by the Pauli kernel and by what the block of RTD from coherences
to populations gives: the two methods have the same influence of coherences on populations. -/
theorem c84_populations {fct : Nat → Nat → ℝ × ℝ} {symq : Bool} {st : St}
    (hst : genKern s fct true (fresh s.v symq) = .ok st)
    {f : Nat → Nat → Amp} {m : Mat} {symq' : Bool} (hf : genFct1vN s.v s.lib.base s.E s.L = .ok f)
    (hm : VN1.kernel s.v symq' s.E s.L.Tba f = .ok m) {fctP : Nat → Nat → ℝ × ℝ} {mP : Mat} {symq'' : Bool}
    (hfP : Pauli.genFct s.v s.E s.L = .ok fctP) (hmP : Pauli.kernel s.v symq'' fctP = .ok mP) (φ : Nat → ℝ) {c b : Nat}
    (hb : b ∈ s.v.row c) :
    let wdn : Nat → Nat → ℂ := fun l p => ⟨(st.acc.mats.ten .ReWdn).val l (la.lab c b b) p, (st.acc.mats.ten .ImWdn).val l (la.lab c b b) p⟩
    m.app φ (la.lab c b b) = mP.app φ (la.lab c b b) +
      2 * ∑ q ∈ range s.v.ncharge, ∑ a ∈ (s.v.row q).toFinset, ∑ ap ∈ (s.v.row q).toFinset with a < ap,
        ((∑ l ∈ range s.v.nleads, wdn l (la.lab q a ap - s.v.npauli)) * dens s.v la φ q a ap).re := by
  obtain ⟨S⟩ := genKern_steps hst
  intro wdn
  rw [vn_pop h hT hi hD hC hf hm hfP hmP φ ((mem_R h).2 hb), Complex.re_sum, mul_sum]
  refine congrArg (_ + ·) (sum_congr rfl fun q _ => ?_)
  have e : ∀ l < s.v.nleads, ∀ a ∈ s.v.R q, ∀ ap ∈ s.v.R q, a ≠ ap →
      wdn l (cohPos s.v la q a ap) = RTD.wdn s l b q a ap := by
    intro l hl a ha ap hap hne
    rw [← dn_entry h hall S hb ((mem_R h).1 ha) ((mem_R h).1 hap) hne hl]
    simp only [wdn, S.rest .ReWdn (by simp), S.rest .ImWdn (by simp)]
  have e' : ∀ l < s.v.nleads, ∀ a ∈ s.v.R q, ∀ ap ∈ s.v.R q, a ≠ ap →
      RTD.wdn s l b q ap a = conj (RTD.wdn s l b q a ap) := by
    intro l hl a ha ap hap hne
    have ha' := (mem_R h).1 ha
    have hap' := (mem_R h).1 hap
    have o1 := (cohPos_ok h hall ha' hap' hne).1
    have o2 := (cohPos_ok h hall hap' ha' (Ne.symm hne)).1
    rw [← dn_entry h hall S hb ha' hap' hne hl, ← dn_entry h hall S hb hap' ha' (Ne.symm hne) hl,
      dn_mir h hall S (Or.inl rfl) l _ ha' hap' hne o1 o2, dn_mir h hall S (Or.inr rfl) l _ ha' hap' hne o1 o2]
    simp [Name.sgn, Complex.ext_iff]
  have e2 : (∑ a ∈ s.v.R q, ∑ ap ∈ s.v.R q,
      if a = ap then 0 else (∑ l ∈ range s.v.nleads, RTD.wdn s l b q a ap) * dens s.v la φ q a ap).re =
      ∑ a ∈ s.v.R q, ∑ ap ∈ s.v.R q,
      if a = ap then 0 else ((∑ l ∈ range s.v.nleads, RTD.wdn s l b q a ap) * dens s.v la φ q a ap).re := by
    rw [Complex.re_sum]
    refine sum_congr rfl fun a _ => ?_
    rw [Complex.re_sum]
    refine sum_congr rfl fun ap _ => ?_
    split <;> rfl
  rw [e2, sum_pairs, mul_sum]
  refine sum_congr rfl fun a ha => ?_
  rw [mul_sum]
  refine sum_congr rfl fun ap hap => ?_
  rw [mem_filter] at hap
  have hne : a ≠ ap := by omega
  have ep : cohPos s.v la q a ap = la.lab q a ap - s.v.npauli := by
    unfold cohPos; rw [if_neg (by omega), add_zero]
  rw [sum_congr rfl fun l hl => e' l (mem_range.1 hl) a ha ap hap.1 hne, ← map_sum,
    h.dens_herm φ ((mem_R h).1 ha) ((mem_R h).1 hap.1), ← map_mul, Complex.conj_re, ← ep,
    sum_congr rfl fun l hl => e l (mem_range.1 hl) a ha ap hap.1 hne]
  ring

/-- **C84**. Populations drive the coherences of 1vN (`itype = 1`) as the block of RTD from populations to coherences
says. -/
theorem c84_coherences {fct : Nat → Nat → ℝ × ℝ} {symq : Bool} {st : St}
    (hst : genKern s fct true (fresh s.v symq) = .ok st)
    {f : Nat → Nat → Amp} {m : Mat} {symq' : Bool} (hf : genFct1vN s.v s.lib.base s.E s.L = .ok f)
    (hm : VN1.kernel s.v symq' s.E s.L.Tba f = .ok m) {φ : Nat → ℝ} (hφ : ∀ i, s.v.npauli ≤ i → φ i = 0) {c b bp : Nat}
    (hb : b ∈ s.v.row c) (hbp : bp ∈ s.v.row c) (hlt : b < bp) :
    let wnd : Nat → Nat → ℂ := fun l j => ⟨(st.acc.mats.ten .ReWnd).val l (la.lab c b bp - s.v.npauli) j,
      (st.acc.mats.ten .ImWnd).val l (la.lab c b bp - s.v.npauli) j⟩
    dens s.v la (m.app φ) c b bp = ∑ q ∈ range s.v.ncharge, ∑ a ∈ (s.v.row q).toFinset,
      (∑ l ∈ range s.v.nleads, wnd l (la.lab q a a)) * φ (la.lab q a a) := by
  obtain ⟨S⟩ := genKern_steps hst
  intro wnd
  have ep : cohPos s.v la c b bp = la.lab c b bp - s.v.npauli := by
    unfold cohPos; rw [if_neg (by omega), add_zero]
  rw [vn_coh h hT hi hD hC hf hm hφ (hall c b bp hb hbp) ((mem_R h).2 hb) ((mem_R h).2 hbp) (by omega)]
  refine sum_congr rfl fun q _ => sum_congr rfl fun a ha => congrArg (· * _) (sum_congr rfl fun l hl => ?_)
  rw [← nd_entry h hall S hb hbp (by omega) ((mem_R h).1 ha) (mem_range.1 hl), ep]
  simp only [wnd, S.rest .ReWnd (by simp), S.rest .ImWnd (by simp)]

/-- **C84**. The corrections of RTD are 1vN with the coherences eliminated. If the coherences follow the populations --
each is what populations drive, divided by `i` times the energy difference, so that tunnelling from one coherence to another
is left out -- and no two states of equal charge are closer than `10^-10` in energy, then the population equations of 1vN
are those of the Pauli master equation plus what the corrections add to the kernel of RTD. -/
theorem c84_elimination {fct : Nat → Nat → ℝ × ℝ} {symq : Bool} {st st' : St}
    (hst : genKern s fct false (fresh s.v symq) = .ok st) (hst' : genKern s fct true (fresh s.v symq) = .ok st')
    {f : Nat → Nat → Amp} {m : Mat} {symq' : Bool} (hf : genFct1vN s.v s.lib.base s.E s.L = .ok f)
    (hm : VN1.kernel s.v symq' s.E s.L.Tba f = .ok m) {fctP : Nat → Nat → ℝ × ℝ} {mP : Mat} {symq'' : Bool}
    (hfP : Pauli.genFct s.v s.E s.L = .ok fctP) (hmP : Pauli.kernel s.v symq'' fctP = .ok mP) {φ : Nat → ℝ}
    (hφ : ∀ q a ap, a ∈ s.v.row q → ap ∈ s.v.row q → a ≠ ap → 1e-10 ≤ |s.E a - s.E ap| ∧
      I * (s.E a - s.E ap : ℝ) * dens s.v la φ q a ap =
        dens s.v la (m.app fun i => if i < s.v.npauli then φ i else 0) q a ap)
    {c b : Nat} (hb : b ∈ s.v.row c) :
    m.app φ (la.lab c b b) = mP.app φ (la.lab c b b) +
      (st'.kern.app φ (la.lab c b b) - st.kern.app φ (la.lab c b b)) := by
  obtain ⟨S⟩ := genKern_steps hst
  obtain ⟨S'⟩ := genKern_steps hst'
  have hbi := h.lab_diag c b hb
  rw [vn_pop h hT hi hD hC hf hm hfP hmP φ ((mem_R h).2 hb)]
  refine congrArg (_ + ·) ?_
  have w0 : ∀ l i j, (S.w l).val i j = 0 := by
    rcases S.cases with ⟨_, _, e⟩ | ⟨e, _⟩
    · exact e
    · simp at e
  have diff : st'.kern.app φ (la.lab c b b) - st.kern.app φ (la.lab c b b) =
      ∑ j ∈ range s.v.npauli, (∑ l ∈ range s.v.nleads, (S'.w l).val (la.lab c b b) j) * φ j := by
    unfold Mat.app
    rw [S'.kern.2.1, S.kern.2.1, ← sum_sub_distrib]
    refine sum_congr rfl fun j hj => ?_
    rw [S'.kern_eq h hbi (mem_range.1 hj), S.kern_eq h hbi (mem_range.1 hj), ← sub_mul, ← sum_sub_distrib]
    refine congrArg (· * _) (sum_congr rfl fun l hl => ?_)
    rw [S'.wdd_eq h (mem_range.1 hl), S.wdd_eq h (mem_range.1 hl), w0]
    ring
  have key : ∀ q, ∀ a ∈ s.v.R q, ∀ ap ∈ s.v.R q, a ≠ ap →
      ((∑ l ∈ range s.v.nleads, wdn s l b q a ap) * dens s.v la φ q a ap).re =
      ∑ j ∈ range s.v.npauli, (∑ l ∈ range s.v.nleads, 1 / gap (s.E a - s.E ap) *
        through S'.a2.mats s.v.nleads l (la.lab c b b) j (cohPos s.v la q a ap)) * φ j := by
    intro q a ha ap hap hne
    have ha' := (mem_R h).1 ha
    have hap' := (mem_R h).1 hap
    obtain ⟨hg, hρ⟩ := hφ q a ap ha' hap' hne
    have hx : s.E a - s.E ap ≠ 0 := by
      intro e
      rw [e, abs_zero] at hg
      norm_num at hg
    have hgap : gap (s.E a - s.E ap) = s.E a - s.E ap := by
      unfold gap
      rw [if_neg, if_neg]
      · rintro ⟨x1, x2⟩
        rw [abs_of_nonpos x2] at hg
        linarith
      · rintro ⟨x1, x2⟩
        rw [abs_of_nonneg x2] at hg
        linarith
    rw [hgap]
    rw [vn_coh h hT hi hD hC hf hm (fun i hi => if_neg (by omega)) (hall q a ap ha' hap') ha hap hne] at hρ
    have hρ' : dens s.v la φ q a ap = ((1 / (s.E a - s.E ap) : ℝ) : ℂ) * (-I * ∑ j ∈ range s.v.npauli,
        (∑ l ∈ range s.v.nleads, (⟨(S'.a2.mats.ten .ReWnd).val l (cohPos s.v la q a ap) j,
          (S'.a2.mats.ten .ImWnd).val l (cohPos s.v la q a ap) j⟩ : ℂ)) * φ j) := by
      rw [sum_pop h]
      have e : ∀ q' ∈ range s.v.ncharge, ∀ d ∈ s.v.R q', (∑ l ∈ range s.v.nleads, wnd s l a ap q' d) *
          ((if la.lab q' d d < s.v.npauli then φ (la.lab q' d d) else 0 : ℝ) : ℂ) =
          (∑ l ∈ range s.v.nleads, (⟨(S'.a2.mats.ten .ReWnd).val l (cohPos s.v la q a ap) (la.lab q' d d),
          (S'.a2.mats.ten .ImWnd).val l (cohPos s.v la q a ap) (la.lab q' d d)⟩ : ℂ)) * φ (la.lab q' d d) := by
        intro q' _ d hd
        have hd' := (mem_R h).1 hd
        rw [if_pos (h.lab_diag q' d hd')]
        refine congrArg (· * _) (sum_congr rfl fun l hl => ?_)
        rw [nd_entry h hall S' ha' hap' hne hd' (mem_range.1 hl)]
      rw [← sum_congr rfl fun q' hq' => sum_congr rfl (e q' hq'), ← hρ]
      have hx' : ((s.E a - s.E ap : ℝ) : ℂ) ≠ 0 := by exact_mod_cast hx
      push_cast at hx' ⊢
      field_simp
      rw [Complex.I_sq]
      ring
    rw [hρ', sum_congr rfl fun l hl => (dn_entry h hall S' hb ha' hap' hne (mem_range.1 hl)).symm]
    rw [mul_left_comm, Complex.re_ofReal_mul, ← mul_assoc, mul_comm _ (-I), mul_assoc, mul_sum, neg_mul, Complex.neg_re,
      Complex.I_mul_re, neg_neg, Complex.im_sum, mul_sum]
    refine sum_congr rfl fun j _ => ?_
    rw [← mul_assoc, Complex.im_mul_ofReal, ← mul_assoc, ← mul_sum]
    congr 2
    rw [Complex.mul_im, Complex.re_sum, Complex.re_sum, Complex.im_sum, Complex.im_sum, sum_mul, sum_mul, ← sum_add_distrib]
    rfl
  have e2 : ∀ q, (∑ a ∈ s.v.R q, ∑ ap ∈ s.v.R q,
      if a = ap then 0 else (∑ l ∈ range s.v.nleads, wdn s l b q a ap) * dens s.v la φ q a ap).re =
      ∑ a ∈ s.v.R q, ∑ ap ∈ s.v.R q, ∑ j ∈ range s.v.npauli, (∑ l ∈ range s.v.nleads,
        if a = ap then 0 else 1 / gap (s.E a - s.E ap) *
        through S'.a2.mats s.v.nleads l (la.lab c b b) j (cohPos s.v la q a ap)) * φ j := by
    intro q
    rw [Complex.re_sum]
    refine sum_congr rfl fun a ha => ?_
    rw [Complex.re_sum]
    refine sum_congr rfl fun ap hap => ?_
    by_cases hne : a = ap
    · simp [hne]
    · simp only [if_neg hne]
      exact key q a ha ap hap hne
  rw [Complex.re_sum, sum_congr rfl fun q _ => e2 q, diff]
  have e3 : ∀ j ∈ range s.v.npauli, (∑ l ∈ range s.v.nleads, (S'.w l).val (la.lab c b b) j) * φ j =
      ∑ l ∈ range s.v.nleads, ∑ q ∈ range s.v.ncharge, ∑ a ∈ s.v.R q, ∑ ap ∈ s.v.R q,
        (if a = ap then 0 else 1 / gap (s.E a - s.E ap) *
        through S'.a2.mats s.v.nleads l (la.lab c b b) j (cohPos s.v la q a ap)) * φ j := by
    intro j _
    rw [sum_mul]
    refine sum_congr rfl fun l hl => ?_
    rw [corr_sum h hall S' (mem_range.1 hl)]
    simp only [sum_mul]
    rfl
  rw [sum_congr rfl e3, sum_congr (s₁ := range s.v.npauli) rfl fun j _ => sum_comm, sum_comm (s := range s.v.npauli)]
  refine sum_congr rfl fun q _ => ?_
  rw [sum_congr (s₁ := range s.v.npauli) rfl fun j _ => sum_comm, sum_comm (s := range s.v.npauli)]
  refine sum_congr rfl fun a _ => ?_
  rw [sum_congr (s₁ := range s.v.npauli) rfl fun j _ => sum_comm, sum_comm (s := range s.v.npauli)]
  refine sum_congr rfl fun ap _ => sum_congr rfl fun j _ => ?_
  rw [sum_mul]

omit hi hD hC in
/-- For every choice of populations there are coherences that meet the hypothesis of `c84_elimination`. -/
theorem c84_follow {f : Nat → Nat → Amp} {m : Mat} {symq' : Bool} (hm : VN1.kernel s.v symq' s.E s.L.Tba f = .ok m)
    (hE : ∀ q a ap, a ∈ s.v.row q → ap ∈ s.v.row q → a ≠ ap → 1e-10 ≤ |s.E a - s.E ap|) (p : Nat → ℝ) :
    ∃ φ : Nat → ℝ, (∀ i < s.v.npauli, φ i = p i) ∧
      ∀ q a ap, a ∈ s.v.row q → ap ∈ s.v.row q → a ≠ ap → 1e-10 ≤ |s.E a - s.E ap| ∧
      I * (s.E a - s.E ap : ℝ) * dens s.v la φ q a ap =
        dens s.v la (m.app fun i => if i < s.v.npauli then φ i else 0) q a ap := by
  let p' : Nat → ℝ := fun i => if i < s.v.npauli then p i else 0
  obtain ⟨φ, hφ⟩ := exists_dens h (ρ := fun q a ap => if a = ap then (p (la.lab q a a) : ℂ) else
      -I * (1 / (s.E a - s.E ap) : ℝ) * dens s.v la (m.app p') q a ap) (by
    intro q a ap ha hap
    by_cases e : a = ap
    · subst e; simp
    · rw [if_neg e, if_neg (Ne.symm e), h.dens_herm _ ha hap]
      simp only [map_mul, map_neg, Complex.conj_I, Complex.conj_ofReal]
      rw [← neg_sub (s.E ap), one_div_neg_eq_neg_one_div]
      push_cast
      ring) (fun q a ap ha hap hn => absurd (hall q a ap ha hap) (by simp [hn]))
  have hpop : ∀ i < s.v.npauli, φ i = p i := by
    intro i hi
    obtain ⟨c, b, bp, hb, hbp, hin, el⟩ := h.lab_surj i (lt_of_lt_of_le hi h.np_le)
    have hbb : b = bp := by
      by_contra hne
      have := (h.lab_off c b bp hb hbp hne hin).1
      omega
    subst hbb
    have := hφ c b hb b hb
    rw [if_pos rfl, dens, if_pos hin] at this
    have := congrArg Complex.re this
    simp only [Complex.ofReal_re] at this
    rw [← el, this]
  refine ⟨φ, hpop, fun q a ap ha hap hne => ⟨hE q a ap ha hap hne, ?_⟩⟩
  have hp : (fun i => if i < s.v.npauli then φ i else 0) = p' := by
    funext i
    simp only [p']
    split
    · rename_i hi
      rw [hpop i hi]
    · rfl
  rw [hp, hφ q a ha ap hap, if_neg hne]
  have hx : s.E a - s.E ap ≠ 0 := by
    intro e
    have := hE q a ap ha hap hne
    rw [e, abs_zero] at this
    norm_num at this
  have hx' : ((s.E a - s.E ap : ℝ) : ℂ) ≠ 0 := by exact_mod_cast hx
  push_cast at hx' ⊢
  field_simp
  rw [Complex.I_sq]
  ring

end

/-- The hypotheses of the theorems hold for two single-particle states of different energy and two leads, and there is a
vector with all populations that follows the hypothesis of `c84_elimination`. -/
example (F : Fun) (P : F.lib.Poles) : ∃ (s : In) (la : Lab) (fct : Nat → Nat → ℝ × ℝ) (st st' : St) (f : Nat → Nat → Amp)
    (m mP : Mat) (φ : Nat → ℝ), s.lib = F.lib ∧ VOk s.v la ∧ AllCoherences s.v la ∧ s.L.Herm ∧ s.L.itype = 1 ∧
    (∀ l < s.v.nleads, |s.L.Dm l| = |s.L.Dp l|) ∧ NoCut s ∧ Pauli.genFct s.v s.E s.L = .ok fct ∧
    genKern s fct false (fresh s.v true) = .ok st ∧ genKern s fct true (fresh s.v true) = .ok st' ∧
    genFct1vN s.v s.lib.base s.E s.L = .ok f ∧ VN1.kernel s.v true s.E s.L.Tba f = .ok m ∧
    Pauli.kernel s.v true fct = .ok mP ∧ 1 ∈ s.v.row 1 ∧ 2 ∈ s.v.row 1 ∧ (∀ i < s.v.npauli, φ i = 1 / 4) ∧
    ∀ q a ap, a ∈ s.v.row q → ap ∈ s.v.row q → a ≠ ap → 1e-10 ≤ |s.E a - s.E ap| ∧
      I * (s.E a - s.E ap : ℝ) * dens s.v la φ q a ap =
        dens s.v la (m.app fun i => if i < s.v.npauli then φ i else 0) q a ap := by
  obtain ⟨d, e, hv, ha, hst, _⟩ := view_all
  let L : Leads := ⟨fun l => l, fun l => l + 1, fun _ => -60, fun _ => 60, fun l _ _ => l + 1, 1, 10000⟩
  let s : In := ⟨d.view 2, fun b => if b = 2 then 1 else if b = 3 then 7 else 0, 4, L, fun _ _ => 1, 2, F.lib, some P⟩
  have hT : s.L.Herm := by
    intro l b c
    simp [s, L]
  obtain ⟨fct, hf', _⟩ := Pauli.genFct_ok (v := s.v) hv s.E s.L
  obtain ⟨st, hst1⟩ := genKern_some (s := s) hv (Or.inl rfl) fct false true (fun h => by simp at h)
  obtain ⟨st', hst'⟩ := genKern_some (s := s) hv (Or.inl rfl) fct true true (fun _ => ha)
  obtain ⟨f, gf, _⟩ := fillFct_ok (v := s.v) hv (⟨0, 0, 0, 0⟩ : Amp) (amp1vN s.lib.base s.E s.L)
  obtain ⟨m, g, _⟩ := assemble_rows (v := s.v) hv true s.E (VN1.coup s.v s.L.Tba f) _
    (fun c b bp hb hbp hi => VN1.coup_ok hv s.L.Tba f hb hbp hi)
  obtain ⟨mP, gP, _⟩ := Pauli.kernel_rows (v := s.v) hv fct true
  have row : ∀ q, s.v.row q = (d.statesdm[q]?).getD [] := fun _ => rfl
  have hE : ∀ q a ap, a ∈ s.v.row q → ap ∈ s.v.row q → a ≠ ap → 1e-10 ≤ |s.E a - s.E ap| := by
    intro q a ap ha hap hne
    rw [row, hst] at ha hap
    match q with
    | 0 => simp at ha hap; omega
    | 1 =>
      simp at ha hap
      rcases ha with rfl | rfl <;> rcases hap with rfl | rfl
      · exact absurd rfl hne
      · norm_num [s]
      · norm_num [s]
      · exact absurd rfl hne
    | 2 => simp at ha hap; omega
    | 3 => simp at ha
    | q + 4 => simp at ha
  obtain ⟨φ, p1, p2⟩ := c84_follow (s := s) hv ha hT g hE (fun _ => 1 / 4)
  refine ⟨s, d.labOf, fct, st, st', f, m, mP, φ, rfl, hv, ha, hT, rfl, ?_, ?_, hf', hst1, hst', gf, g, gP,
    by rw [row, hst]; simp, by rw [row, hst]; simp, p1, p2⟩
  · intro l _
    simp [s, L]
  · intro l _ q x b hx hb
    have eE : ∀ b, 0 ≤ s.E b ∧ s.E b ≤ 7 := by
      intro b
      simp only [s]
      split_ifs <;> norm_num
    have h1 := eE x
    have h2 := eE b
    have hl : (0 : ℝ) ≤ l := Nat.cast_nonneg l
    change |(s.E x - s.E b - (l : ℝ)) / ((l : ℝ) + 1)| ≤ 709.77
    rw [abs_div, abs_of_pos (by linarith : (0 : ℝ) < (l : ℝ) + 1), div_le_iff₀ (by linarith), abs_le]
    constructor <;> nlinarith

end RTD

end

end Verif
