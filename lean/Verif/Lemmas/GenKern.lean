import Verif.Lemmas.Kern
import Verif.Model.Approach

/-! The rows of the matrix assembled by `generate_kern`. -/

namespace Verif

open Finset

noncomputable section

/-! ### Loops -/

theorem collect_ok {α β : Type} {l : List α} {f : α → Py (List β)} {g : α → List β}
    (hf : ∀ x ∈ l, f x = .ok (g x)) : collect l f = .ok (l.flatMap g) := by
  have key : ∀ acc, l.foldlM (fun acc x => do let r ← f x; pure (acc ++ r)) acc
      = (.ok (acc ++ l.flatMap g) : Py (List β)) := by
    induction l with
    | nil => intro acc; simp
    | cons a l ih =>
      intro acc
      rw [List.foldlM_cons, hf a (by simp)]
      refine Eq.trans (b := l.foldlM (fun acc x => do let r ← f x; pure (acc ++ r)) (acc ++ g a))
        rfl ?_
      rw [ih (fun x hx => hf x (by simp [hx]))]
      simp
  unfold collect
  rw [key]; simp

theorem sumM_ok {α β : Type} [AddCommMonoid β] {l : List α} {f : α → Py β} {g : α → β}
    (hf : ∀ x ∈ l, f x = .ok (g x)) : sumM l f = .ok (l.map g).sum := by
  have key : ∀ acc, l.foldlM (fun s x => do let r ← f x; pure (s + r)) acc
      = (.ok (acc + (l.map g).sum) : Py β) := by
    induction l with
    | nil => intro acc; simp
    | cons a l ih =>
      intro acc
      rw [List.foldlM_cons, hf a (by simp)]
      refine Eq.trans (b := l.foldlM (fun s x => do let r ← f x; pure (s + r)) (acc + g a))
        rfl ?_
      rw [ih (fun x hx => hf x (by simp [hx]))]
      simp [add_assoc]
  unfold sumM
  rw [key]; simp

theorem sumM_range {β : Type} [AddCommMonoid β] {n : Nat} {f : Nat → Py β} {g : Nat → β}
    (hf : ∀ x, x < n → f x = .ok (g x)) : sumM (List.range n) f = .ok (∑ l ∈ range n, g l) := by
  rw [sumM_ok (fun x hx => hf x (List.mem_range.1 hx))]
  rfl

theorem sumM_toFinset {β : Type} [AddCommMonoid β] {l : List Nat} (hn : l.Nodup)
    {f : Nat → Py β} {g : Nat → β}
    (hf : ∀ x ∈ l, f x = .ok (g x)) : sumM l f = .ok (∑ x ∈ l.toFinset, g x) := by
  rw [sumM_ok hf, List.sum_toFinset _ hn]

theorem sum_flatMap' {α β γ : Type} [AddCommMonoid γ] (l : List α) (g : α → List β) (f : β → γ) :
    ((l.flatMap g).map f).sum = (l.map fun x => ((g x).map f).sum).sum := by
  induction l with
  | nil => rfl
  | cons a l ih => simp [ih]

theorem sum_prod2 {β : Type} [AddCommMonoid β] {l l' : List Nat} (hn : l.Nodup) (hn' : l'.Nodup)
    (f : Nat → Nat → β) : ((prod2 l l').map fun p => f p.1 p.2).sum
      = ∑ a ∈ l.toFinset, ∑ b ∈ l'.toFinset, f a b := by
  unfold prod2
  rw [sum_flatMap', ← List.sum_toFinset _ hn]
  apply sum_congr rfl
  intro a _
  rw [List.map_map, ← List.sum_toFinset _ hn']
  rfl

theorem prod2_mem {l l' : List Nat} {p : Nat × Nat} (h : p ∈ prod2 l l') : p.1 ∈ l ∧ p.2 ∈ l' := by
  simp only [prod2, List.mem_flatMap, List.mem_map] at h
  obtain ⟨a, ha, b, hb, rfl⟩ := h
  exact ⟨ha, hb⟩

/-! ### Pairs -/

theorem combsR2_iff {l : List Nat} {p : Nat × Nat} :
    p ∈ combsR2 l ↔ p ∈ combs2 l ∨ (p.1 = p.2 ∧ p.1 ∈ l) := by
  induction l with
  | nil => simp [combsR2, combs2]
  | cons a l ih =>
    obtain ⟨x, y⟩ := p
    simp only [combsR2, combs2, List.mem_append, List.mem_map, ih, List.mem_cons,
      Prod.mk.injEq]
    constructor
    · rintro (⟨b, (rfl | hb), rfl, rfl⟩ | (h | ⟨rfl, h⟩))
      · exact Or.inr ⟨rfl, Or.inl rfl⟩
      · exact Or.inl (Or.inl ⟨_, hb, rfl, rfl⟩)
      · exact Or.inl (Or.inr h)
      · exact Or.inr ⟨rfl, Or.inr h⟩
    · rintro ((⟨b, hb, rfl, rfl⟩ | h) | ⟨rfl, (rfl | h)⟩)
      · exact Or.inl ⟨_, Or.inr hb, rfl, rfl⟩
      · exact Or.inr (Or.inl h)
      · exact Or.inl ⟨_, Or.inl rfl, rfl, rfl⟩
      · exact Or.inr (Or.inr ⟨rfl, h⟩)

theorem combsR2_mem {l : List Nat} {p : Nat × Nat} (h : p ∈ combsR2 l) : p.1 ∈ l ∧ p.2 ∈ l := by
  rcases combsR2_iff.1 h with h | ⟨h, h'⟩
  · exact combs2_mem h
  · exact ⟨h', h ▸ h'⟩

theorem combsR2_nodup {l : List Nat} (hn : l.Nodup) : (combsR2 l).Nodup := by
  induction l with
  | nil => simp [combsR2]
  | cons a l ih =>
    have hn' := List.nodup_cons.1 hn
    rw [combsR2, List.nodup_append]
    refine ⟨hn.map (fun x y h => by simpa using h), ih hn'.2, ?_⟩
    rintro _ hx p hp rfl
    simp only [List.mem_map] at hx
    obtain ⟨y, hy, rfl⟩ := hx
    exact hn'.1 (combsR2_mem hp).1

theorem combsR2_complete {l : List Nat} {b bp : Nat} (hb : b ∈ l) (hbp : bp ∈ l) :
    (b, bp) ∈ combsR2 l ∨ (bp, b) ∈ combsR2 l := by
  by_cases e : b = bp
  · subst e; exact Or.inl (combsR2_iff.2 (Or.inr ⟨rfl, hb⟩))
  · rcases combs2_complete hb hbp e with h | h
    · exact Or.inl (combsR2_iff.2 (Or.inl h))
    · exact Or.inr (combsR2_iff.2 (Or.inl h))

theorem combsR2_asymm {l : List Nat} (hn : l.Nodup) {b bp : Nat} (h : (b, bp) ∈ combsR2 l)
    (h' : (bp, b) ∈ combsR2 l) : b = bp := by
  rcases combsR2_iff.1 h with h1 | ⟨h1, _⟩
  · rcases combsR2_iff.1 h' with h2 | ⟨h2, _⟩
    · exact absurd h2 (combs2_asymm hn h1)
    · exact h2.symm
  · exact h1

/-! ### Rows -/

theorem sum_single {α : Type} {l : List α} (hn : l.Nodup) {f : α → ℝ} {x : α} (hx : x ∈ l)
    (h0 : ∀ y ∈ l, y ≠ x → f y = 0) : (l.map f).sum = f x := by
  classical
  rw [← List.sum_toFinset _ hn]
  exact sum_eq_single x (fun y hy hne => h0 y (by simpa using hy) hne)
    (fun hh => absurd (by simpa using hx) hh)

theorem put_add (v : View) (la : Lab) (s : ℝ) (c b bp : Nat) (z w : ℂ) (r : Nat) :
    put v la s c b bp (z + w) r = put v la s c b bp z r + put v la s c b bp w r := by
  unfold put
  split
  · simp
  · split
    · simp; ring
    · simp

theorem put_zero (v : View) (la : Lab) (s : ℝ) (c b bp : Nat) (r : Nat) :
    put v la s c b bp 0 r = 0 := by
  unfold put; simp

theorem put_sum (v : View) (la : Lab) (s : ℝ) (c b bp : Nat) (l : List ℂ) (r : Nat) :
    (l.map fun z => put v la s c b bp z r).sum = put v la s c b bp l.sum r := by
  induction l with
  | nil => simp [put_zero]
  | cons a l ih => simp [ih, put_add]

/-- Only the elements with its label write into the row of an element. -/
theorem VMul.put_other {v : View} {la : Lab} (h : VMul v la) {s : ℝ} {c b bp c' x y : Nat} {z : ℂ}
    (hb : b ∈ v.row c) (hbp : bp ∈ v.row c) (hi : la.inc c b bp = true) (hx : x ∈ v.row c')
    (hy : y ∈ v.row c') (hi' : la.inc c' x y = true) (hd : la.lab c b bp ≠ la.lab c' x y) :
    put v la s c' x y z (la.lab c b bp) = 0 ∧
    (b ≠ bp → put v la s c' x y z (v.imag (la.lab c b bp)) = 0) := by
  have hl := h.lab_lt hb hbp hi
  have hl' := h.lab_lt hx hy hi'
  constructor
  · unfold put
    rw [if_neg hd, if_neg]
    rintro ⟨hxy, e⟩
    have := (h.imagPos_off hx hy hxy hi').2.1
    omega
  · intro hbb
    have h1 := (h.imagPos_off hb hbp hbb hi).2.1
    have h3 := (h.lab_off c b bp hb hbp hbb hi).1
    unfold put
    rw [if_neg (by omega), if_neg]
    rintro ⟨hxy, e⟩
    have h4 := (h.lab_off c' x y hx hy hxy hi').1
    unfold View.imag at e
    omega

/-- The term (times `i`) of the equation of motion of the element `b, bp`, given the calls
made for it. -/
def eqTerm (v : View) (la : Lab) (E : Nat → ℝ) (ks : Nat → Nat → Nat → List KCall) (φ : Nat → ℝ)
    (c b bp : Nat) : ℂ :=
  ((E b - E bp : ℝ) : ℂ) * dens v la φ c b bp + ((ks c b bp).map fun k => k.term v la φ).sum

/-- What `generate_kern` assembles. -/
theorem VRep.genKern_rows {v : View} {la : Lab} {uni : Nat → Nat → Nat → Bool} (h : VRep v la uni) (E : Nat → ℝ) (coup : Nat → Nat → Int → Py (List KCall))
    (ks : Nat → Nat → Nat → List KCall)
    (hc : ∀ c b bp, b ∈ v.row c → bp ∈ v.row c → la.inc c b bp = true →
      coup b bp c = .ok (ks c b bp) ∧ ∀ k ∈ ks c b bp, KGood v la k ∧ k.target = ((c : Int), b, bp)) :
    ∃ calls, v.genKern E coup = .ok calls ∧ (∀ k ∈ calls, KGood v la k) ∧
      ∀ (s : ℝ) (φ : Nat → ℝ) (c b bp : Nat), b ∈ v.row c → bp ∈ v.row c →
        la.inc c b bp = true → uni c b bp = true →
        (calls.map fun k => k.contrib v la s φ (la.lab c b bp)).sum
          = (eqTerm v la E ks φ c b bp).im ∧
        (b ≠ bp → (calls.map fun k => k.contrib v la s φ (v.imag (la.lab c b bp))).sum
          = s * -(eqTerm v la E ks φ c b bp).re) := by
  have hmem : ∀ {c b bp}, b ∈ v.row c → bp ∈ v.row c → la.inc c b bp = true →
      uni c b bp = true → (b, bp) ∈ combsR2 (v.row c) := by
    intro c b bp hb hbp hi hu
    by_cases e : b = bp
    · subst e; exact combsR2_iff.2 (Or.inr ⟨rfl, hb⟩)
    · exact combsR2_iff.2 (Or.inl (h.uni_ord c b bp hb hbp e hi hu))
  let grp : Nat → Nat × Nat → List KCall := fun c p =>
    if la.inc c p.1 p.2 && uni c p.1 p.2 then
      .energy (E p.1 - E p.2) p.1 p.2 (c : Int) :: ks c p.1 p.2 else []
  have hgen : v.genKern E coup
      = .ok ((List.range v.ncharge).flatMap fun c => (combsR2 (v.row c)).flatMap (grp c)) := by
    unfold View.genKern
    apply collect_ok
    intro c hcm
    rw [h.states (by have := List.mem_range.1 hcm; omega)]
    simp only [py_bind_ok]
    apply collect_ok
    rintro ⟨b, bp⟩ hp
    obtain ⟨hb, hbp⟩ := combsR2_mem hp
    simp only at hb hbp
    rw [h.inclUnique hb hbp]
    simp only [py_bind_ok, grp]
    cases hi : la.inc c b bp with
    | false => simp
    | true =>
      cases hu : uni c b bp with
      | false => simp
      | true =>
        simp only [Bool.and_self, if_true]
        rw [(hc c b bp hb hbp hi).1]
        rfl
  have hgood : ∀ c, ∀ p ∈ combsR2 (v.row c), ∀ k ∈ grp c p, KGood v la k ∧
      k.target = ((c : Int), p.1, p.2) := by
    rintro c ⟨b, bp⟩ hp k hk
    obtain ⟨hb, hbp⟩ := combsR2_mem hp
    simp only at hb hbp
    simp only [grp] at hk
    split at hk
    · rename_i hi
      simp only [Bool.and_eq_true] at hi
      rcases List.mem_cons.1 hk with rfl | hk
      · exact ⟨⟨by omega, by simpa using hb, by simpa using hbp, by simpa using hi.1,
          by simpa using h.uni_can c b bp hb hbp hi.1 hi.2⟩, rfl⟩
      · exact (hc c b bp hb hbp hi.1).2 k hk
    · simp at hk
  refine ⟨_, hgen, ?_, ?_⟩
  · intro k hk
    simp only [List.mem_flatMap] at hk
    obtain ⟨c, _, p, hp, hk⟩ := hk
    exact (hgood c p hp k hk).1
  · intro s φ c b bp hb hbp hi hu
    have hm := hmem hb hbp hi hu
    have hcl := h.row_lt hb
    -- sum over the groups
    have hsum : ∀ r, (((List.range v.ncharge).flatMap fun c => (combsR2 (v.row c)).flatMap (grp c)).map
        fun k => k.contrib v la s φ r).sum
        = ((List.range v.ncharge).map fun c => ((combsR2 (v.row c)).map fun p =>
            if la.inc c p.1 p.2 && uni c p.1 p.2 then
              put v la s c p.1 p.2 (eqTerm v la E ks φ c p.1 p.2) r else 0).sum).sum := by
      intro r
      rw [sum_flatMap']
      congr 1
      apply List.map_congr_left
      intro c _
      rw [sum_flatMap']
      congr 1
      apply List.map_congr_left
      intro p hp
      have hg := hgood c p hp
      have h3 : ∀ l : List KCall, (∀ k ∈ l, k.target = ((c : Int), p.1, p.2)) →
          (l.map fun k => k.contrib v la s φ r).sum
            = put v la s c p.1 p.2 (l.map fun k => k.term v la φ).sum r := by
        intro l hl
        rw [← put_sum, List.map_map]
        congr 1
        apply List.map_congr_left
        intro k hk
        simp only [KCall.contrib, hl k hk, Function.comp]
        rfl
      rw [h3 _ (fun k hk => (hg k hk).2)]
      simp only [grp]
      split
      · simp only [List.map_cons, List.sum_cons, KCall.term, Int.toNat_natCast, eqTerm]
      · simp [put_zero]
    -- only the group of the element contributes
    have hone : ∀ r, (∀ c' x y, (x, y) ∈ combsR2 (v.row c') → la.inc c' x y = true → uni c' x y = true →
        ¬ (c' = c ∧ x = b ∧ y = bp) → put v la s c' x y (eqTerm v la E ks φ c' x y) r = 0) →
        (((List.range v.ncharge).flatMap fun c => (combsR2 (v.row c)).flatMap (grp c)).map
          fun k => k.contrib v la s φ r).sum
        = put v la s c b bp (eqTerm v la E ks φ c b bp) r := by
      intro r hz
      rw [hsum, sum_single List.nodup_range (x := c) (by simpa using hcl),
        sum_single (combsR2_nodup (h.nodup c)) (x := (b, bp)) hm]
      · simp [hi, hu]
      · rintro ⟨x, y⟩ hxy hne
        simp only
        split
        · rename_i hi'
          simp only [Bool.and_eq_true] at hi'
          apply hz c x y hxy hi'.1 hi'.2
          rintro ⟨_, rfl, rfl⟩
          exact hne rfl
        · rfl
      · intro c' _ hne
        apply List.sum_eq_zero
        intro t ht
        simp only [List.mem_map] at ht
        obtain ⟨⟨x, y⟩, hxy, rfl⟩ := ht
        simp only
        split
        · rename_i hi'
          simp only [Bool.and_eq_true] at hi'
          apply hz c' x y hxy hi'.1 hi'.2
          rintro ⟨e, _⟩
          exact hne e
        · rfl
    have hex : ∀ c' x y, x ∈ v.row c' → y ∈ v.row c' → la.inc c' x y = true → uni c' x y = true →
        ¬ (c' = c ∧ x = b ∧ y = bp) → la.lab c b bp ≠ la.lab c' x y := by
      intro c' x y hx hy hi' hu' hne e
      obtain ⟨e1, e2, e3⟩ := h.uni_inj c b bp c' x y hb hbp hi hx hy hi' hu hu' e
      exact hne ⟨e1.symm, e2.symm, e3.symm⟩
    constructor
    · rw [hone]
      · simp [put]
      · intro c' x y hxy hi' hu' hne
        obtain ⟨hx, hy⟩ := combsR2_mem hxy
        exact (h.put_other hb hbp hi hx hy hi' (hex c' x y hx hy hi' hu' hne)).1
    · intro hbb
      rw [hone]
      · have h1 := (h.imagPos_off hb hbp hbb hi).2.1
        have h2 := h.lab_lt hb hbp hi
        unfold put
        rw [if_neg (by omega), if_pos ⟨hbb, rfl⟩]
      · intro c' x y hxy hi' hu' hne
        obtain ⟨hx, hy⟩ := combsR2_mem hxy
        exact (h.put_other hb hbp hi hx hy hi' (hex c' x y hx hy hi' hu' hne)).2 hbb

theorem VOk.combs_can {v : View} {la : Lab} (h : VOk v la) {c b bp : Nat}
    (hm : (b, bp) ∈ combsR2 (v.row c)) (hi : la.inc c b bp = true) : la.can c b bp = true := by
  rcases combsR2_iff.1 hm with h1 | ⟨h1, h2⟩
  · exact h.can_ord c b bp h1 hi
  · simp only at h1 h2
    subst h1
    exact h.can_diag c b h2

/-- Without shared labels the elements that are not conjugated represent the labels. -/
theorem VOk.rep {v : View} {la : Lab} (h : VOk v la) : VRep v la la.can where
  toVMul := h.toVMul
  bool0 := h.bool0
  uni_can := fun _ _ _ _ _ _ hu => hu
  uni_ord := by
    intro c b bp hb hbp hne hi hu
    rcases combs2_complete hb hbp hne with h1 | h1
    · exact h1
    · have h2 := h.can_ord c bp b h1 (by rw [← h.inc_symm c b bp hb hbp]; exact hi)
      rw [h.can_off c b bp hb hbp hne hi, hu] at h2
      simp at h2
  uni_inj := by
    intro c b bp c' b' bp' hb hbp hi hb' hbp' hi' hu hu' e
    obtain ⟨rfl, e2⟩ := h.lab_inj c b bp c' b' bp' hb hbp hi hb' hbp' hi' e
    refine ⟨rfl, ?_⟩
    rcases e2 with e2 | ⟨rfl, rfl⟩
    · exact e2
    · by_cases e3 : b = bp
      · subst e3; exact ⟨rfl, rfl⟩
      · have := h.can_off c b bp hb hbp e3 hi
        rw [hu, hu'] at this
        simp at this
  uni_surj := by
    intro k hk
    obtain ⟨c, b, bp, hb, hbp, hi, e⟩ := h.lab_surj k hk
    by_cases hu : la.can c b bp = true
    · exact ⟨c, b, bp, hb, hbp, hi, hu, e⟩
    · have hne : b ≠ bp := by
        rintro rfl
        exact hu (h.can_diag c b hb)
      refine ⟨c, bp, b, hbp, hb, by rw [← h.inc_symm c b bp hb hbp]; exact hi, ?_, ?_⟩
      · rw [h.can_off c b bp hb hbp hne hi]; simpa using hu
      · rw [← h.lab_symm c b bp hb hbp hi]; exact e

theorem genKern_rows {v : View} {la : Lab} (h : VOk v la) (E : Nat → ℝ)
    (coup : Nat → Nat → Int → Py (List KCall)) (ks : Nat → Nat → Nat → List KCall)
    (hc : ∀ c b bp, b ∈ v.row c → bp ∈ v.row c → la.inc c b bp = true →
      coup b bp c = .ok (ks c b bp) ∧ ∀ k ∈ ks c b bp, KGood v la k ∧ k.target = ((c : Int), b, bp)) :
    ∃ calls, v.genKern E coup = .ok calls ∧ (∀ k ∈ calls, KGood v la k) ∧
      ∀ (s : ℝ) (φ : Nat → ℝ) (c b bp : Nat), (b, bp) ∈ combsR2 (v.row c) →
        la.inc c b bp = true →
        (calls.map fun k => k.contrib v la s φ (la.lab c b bp)).sum
          = (eqTerm v la E ks φ c b bp).im ∧
        (b ≠ bp → (calls.map fun k => k.contrib v la s φ (v.imag (la.lab c b bp))).sum
          = s * -(eqTerm v la E ks φ c b bp).re) := by
  obtain ⟨calls, g, hg, hr⟩ := h.rep.genKern_rows E coup ks hc
  refine ⟨calls, g, hg, fun s φ c b bp hm hi => ?_⟩
  obtain ⟨hb, hbp⟩ := combsR2_mem hm
  exact hr s φ c b bp hb hbp hi (h.combs_can hm hi)

/-! ### The blocks of `generate_coupling_terms` -/

/-- The considered states of charge `c` as a set. -/
def View.R (v : View) (c : Nat) : Finset Nat := (v.row c).toFinset

/-- The considered states of charge `c - 1` as a set. -/
def View.Lo (v : View) (c : Nat) : Finset Nat := (v.low c).toFinset

section
variable {v : View} {la : Lab} (h : VMul v la)
namespace VMul
include h

theorem elemIf_ok {f : Py ℂ} {g : ℂ} {b bp c a ap q : Nat} (ha : a ∈ v.row q) (hap : ap ∈ v.row q)
    (hf : la.inc q a ap = true → f = .ok g) :
    v.elemIf f b bp (c : Int) a ap (q : Int)
      = .ok (if la.inc q a ap then [KCall.elem g b bp (c : Int) a ap (q : Int)] else []) := by
  unfold View.elemIf
  rw [h.isIncluded ha hap]
  simp only [py_bind_ok]
  cases hi : la.inc q a ap with
  | false => simp
  | true => simp [hf hi]

/-- The calls made by `generate_coupling_terms`, and the sum of their terms. -/
theorem blocks_ok {b bp c : Nat} (hb : b ∈ v.row c) (hbp : bp ∈ v.row c)
    (hi : la.inc c b bp = true)
    {fA : Nat → Nat → Py ℂ} {fL fR : Nat → Py ℂ} {fC : Nat → Nat → Py ℂ}
    {gA : Nat → Nat → ℂ} {gL gR : Nat → ℂ} {gC : Nat → Nat → ℂ}
    (hA : ∀ a ap, a ∈ v.low c → ap ∈ v.low c → fA a ap = .ok (gA a ap))
    (hL : ∀ x, x ∈ v.row c → fL x = .ok (gL x)) (hR : ∀ x, x ∈ v.row c → fR x = .ok (gR x))
    (hC : ∀ a ap, a ∈ v.row (c + 1) → ap ∈ v.row (c + 1) → fC a ap = .ok (gC a ap)) :
    ∃ ks, v.blocks b bp (c : Int) fA fL fR fC = .ok ks ∧
      (∀ k ∈ ks, KGood v la k ∧ k.target = ((c : Int), b, bp)) ∧
      ∀ φ, (ks.map fun k => k.term v la φ).sum =
        (∑ a ∈ v.Lo c, ∑ ap ∈ v.Lo c, gA a ap * dens v la φ (c - 1) a ap) +
        (∑ x ∈ v.R c, (gL x * dens v la φ c x bp + gR x * dens v la φ c b x)) +
        (∑ a ∈ v.R (c + 1), ∑ ap ∈ v.R (c + 1), gC a ap * dens v la φ (c + 1) a ap) := by
  have hcl := h.row_lt hb
  unfold View.blocks
  rw [h.states_pred (by omega), h.states (by omega), h.states_succ hcl]
  simp only [py_bind_ok]
  let e1 : Nat × Nat → List KCall := fun p =>
    if la.inc (c - 1) p.1 p.2 then
      [KCall.elem (gA p.1 p.2) b bp (c : Int) p.1 p.2 ((c - 1 : Nat) : Int)] else []
  let e2 : Nat → List KCall := fun x =>
    (if la.inc c x bp then [KCall.elem (gL x) b bp (c : Int) x bp (c : Int)] else []) ++
    (if la.inc c b x then [KCall.elem (gR x) b bp (c : Int) b x (c : Int)] else [])
  let e3 : Nat × Nat → List KCall := fun p =>
    if la.inc (c + 1) p.1 p.2 then
      [KCall.elem (gC p.1 p.2) b bp (c : Int) p.1 p.2 ((c + 1 : Nat) : Int)] else []
  have h1 : collect (prod2 (v.low c) (v.low c)) (fun p =>
      v.elemIf (fA p.1 p.2) b bp (c : Int) p.1 p.2 ((c : Int) - 1))
      = .ok ((prod2 (v.low c) (v.low c)).flatMap e1) := by
    apply collect_ok
    rintro ⟨a, ap⟩ hp
    obtain ⟨ha, hap⟩ := prod2_mem hp
    simp only at ha hap
    obtain ⟨_, m1, m2⟩ := h.low_mem ha
    obtain ⟨_, m3, _⟩ := h.low_mem hap
    simp only
    rw [m2, elemIf_ok h m1 m3 (fun _ => hA a ap ha hap)]
  have h2 : collect (v.row c) (fun x => do
      let y ← v.elemIf (fL x) b bp (c : Int) x bp (c : Int)
      let z ← v.elemIf (fR x) b bp (c : Int) b x (c : Int)
      pure (y ++ z)) = .ok ((v.row c).flatMap e2) := by
    apply collect_ok
    intro x hx
    rw [elemIf_ok h hx hbp (fun _ => hL x hx), elemIf_ok h hb hx (fun _ => hR x hx)]
    rfl
  have h3 : collect (prod2 (v.row (c + 1)) (v.row (c + 1))) (fun p =>
      v.elemIf (fC p.1 p.2) b bp (c : Int) p.1 p.2 ((c : Int) + 1))
      = .ok ((prod2 (v.row (c + 1)) (v.row (c + 1))).flatMap e3) := by
    apply collect_ok
    rintro ⟨a, ap⟩ hp
    obtain ⟨ha, hap⟩ := prod2_mem hp
    simp only at ha hap
    have := elemIf_ok (b := b) (bp := bp) (c := c) h ha hap (fun _ => hC a ap ha hap)
    simpa [e3] using this
  rw [h1, h2, h3]
  refine ⟨_, rfl, ?_, ?_⟩
  · intro k hk
    simp only [List.mem_append, List.mem_flatMap] at hk
    rcases hk with (⟨⟨a, ap⟩, hp, hk⟩ | ⟨x, hx, hk⟩) | ⟨⟨a, ap⟩, hp, hk⟩
    · obtain ⟨ha, hap⟩ := prod2_mem hp
      simp only at ha hap
      obtain ⟨_, m1, _⟩ := h.low_mem ha
      obtain ⟨_, m3, _⟩ := h.low_mem hap
      simp only [e1] at hk
      split at hk
      · rename_i hi'
        simp only [List.mem_singleton] at hk
        subst hk
        exact ⟨⟨by omega, hb, hbp, hi, by omega, m1, m3, hi'⟩, rfl⟩
      · simp at hk
    · simp only [e2, List.mem_append] at hk
      rcases hk with hk | hk
      · split at hk
        · rename_i hi'
          simp only [List.mem_singleton] at hk
          subst hk
          exact ⟨⟨by omega, hb, hbp, hi, by omega, hx, hbp, hi'⟩, rfl⟩
        · simp at hk
      · split at hk
        · rename_i hi'
          simp only [List.mem_singleton] at hk
          subst hk
          exact ⟨⟨by omega, hb, hbp, hi, by omega, hb, hx, hi'⟩, rfl⟩
        · simp at hk
    · obtain ⟨ha, hap⟩ := prod2_mem hp
      simp only at ha hap
      simp only [e3] at hk
      split at hk
      · rename_i hi'
        simp only [List.mem_singleton] at hk
        subst hk
        exact ⟨⟨by omega, hb, hbp, hi, by omega, ha, hap, hi'⟩, rfl⟩
      · simp at hk
  · intro φ
    rw [List.map_append, List.map_append, List.sum_append, List.sum_append]
    congr 1
    · congr 1
      · rw [sum_flatMap', View.Lo, ← sum_prod2 (h.low_nodup c) (h.low_nodup c)
          (fun a ap => gA a ap * dens v la φ (c - 1) a ap)]
        congr 1
        apply List.map_congr_left
        intro p _
        simp only [e1]
        split
        · simp [KCall.term]
        · rename_i hn; simp [dens, hn]
      · rw [sum_flatMap', View.R, List.sum_toFinset _ (h.nodup c)]
        congr 1
        apply List.map_congr_left
        intro x _
        simp only [e2]
        rw [List.map_append, List.sum_append]
        congr 1
        · split
          · simp [KCall.term]
          · rename_i hn; simp [dens, hn]
        · split
          · simp [KCall.term]
          · rename_i hn; simp [dens, hn]
    · rw [sum_flatMap', View.R, ← sum_prod2 (h.nodup (c + 1)) (h.nodup (c + 1))
          (fun a ap => gC a ap * dens v la φ (c + 1) a ap)]
      congr 1
      apply List.map_congr_left
      intro p _
      simp only [e3]
      split
      · simp [KCall.term]
      · rename_i hn; simp [dens, hn]

end VMul

end

theorem elemIf_ok {v : View} {la : Lab} (h : VOk v la) :
    type_of% (@VMul.elemIf_ok v la h.toVMul) := VMul.elemIf_ok h.toVMul

theorem blocks_ok {v : View} {la : Lab} (h : VOk v la) :
    type_of% (@VMul.blocks_ok v la h.toVMul) := VMul.blocks_ok h.toVMul

end

end Verif
