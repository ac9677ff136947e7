import Verif.Lemmas.Fct

/-! Closed forms for the approaches with coherences. -/

namespace Verif

open Finset
open scoped ComplexConjugate

noncomputable section

/-- The rows of an assembled kernel, given the sums `S` of the terms of the calls. -/
theorem VRep.assemble_rows {v : View} {la : Lab} {uni : Nat → Nat → Nat → Bool} (h : VRep v la uni)
    (symq : Bool) (E : Nat → ℝ) (coup : Nat → Nat → Int → Py (List KCall))
    (S : (Nat → ℝ) → Nat → Nat → Nat → ℂ)
    (hc : ∀ c b bp, b ∈ v.row c → bp ∈ v.row c → la.inc c b bp = true →
      ∃ ks, coup b bp c = .ok ks ∧ (∀ k ∈ ks, KGood v la k ∧ k.target = ((c : Int), b, bp)) ∧
        ∀ φ, (ks.map fun k => k.term v la φ).sum = S φ c b bp) :
    ∃ m, v.assemble v.ndm0r symq (v.genKern E coup) = .ok m ∧ m.cols = v.ndm0r ∧
      m.rows = (if symq then v.ndm0r else v.ndm0r + 1) ∧
      ∀ φ c b bp, b ∈ v.row c → bp ∈ v.row c → la.inc c b bp = true → uni c b bp = true →
        m.app φ (la.lab c b bp)
          = (((E b - E bp : ℝ) : ℂ) * dens v la φ c b bp + S φ c b bp).im ∧
        (b ≠ bp → m.app φ (v.imag (la.lab c b bp))
          = -(((E b - E bp : ℝ) : ℂ) * dens v la φ c b bp + S φ c b bp).re) := by
  choose! ks hk1 hk2 hk3 using hc
  obtain ⟨calls, g, hg, hr⟩ := h.genKern_rows E coup ks
    (fun c b bp hb hbp hi => ⟨hk1 c b bp hb hbp hi, hk2 c b bp hb hbp hi⟩)
  obtain ⟨m, gm, ad⟩ := h.runKern_ok calls hg
    (m := Mat.zeros (if symq then v.ndm0r else v.ndm0r + 1) v.ndm0r)
    (by simp only [Mat.zeros]; split <;> omega) rfl
  refine ⟨m, ?_, ad.cols, ad.rows, ?_⟩
  · unfold View.assemble
    rw [g]
    exact gm
  · intro φ c b bp hb hbp hi hu
    obtain ⟨r1, r2⟩ := hr 1 φ c b bp hb hbp hi hu
    have e : eqTerm v la E ks φ c b bp
        = ((E b - E bp : ℝ) : ℂ) * dens v la φ c b bp + S φ c b bp := by
      unfold eqTerm
      rw [hk3 c b bp hb hbp hi]
    rw [e] at r1 r2
    refine ⟨?_, ?_⟩
    · rw [ad.app, Mat.app_zeros, zero_add]; exact r1
    · intro hne
      rw [ad.app, Mat.app_zeros, zero_add, r2 hne, one_mul]

section
variable {v : View} {la : Lab} (h : VOk v la)
include h

/-- The rows of an assembled kernel, given the sums `S` of the terms of the calls. -/
theorem assemble_rows (symq : Bool) (E : Nat → ℝ) (coup : Nat → Nat → Int → Py (List KCall))
    (S : (Nat → ℝ) → Nat → Nat → Nat → ℂ)
    (hc : ∀ c b bp, b ∈ v.row c → bp ∈ v.row c → la.inc c b bp = true →
      ∃ ks, coup b bp c = .ok ks ∧ (∀ k ∈ ks, KGood v la k ∧ k.target = ((c : Int), b, bp)) ∧
        ∀ φ, (ks.map fun k => k.term v la φ).sum = S φ c b bp) :
    ∃ m, v.assemble v.ndm0r symq (v.genKern E coup) = .ok m ∧ m.cols = v.ndm0r ∧
      m.rows = (if symq then v.ndm0r else v.ndm0r + 1) ∧
      ∀ φ c b bp, (b, bp) ∈ combsR2 (v.row c) → la.inc c b bp = true →
        m.app φ (la.lab c b bp)
          = (((E b - E bp : ℝ) : ℂ) * dens v la φ c b bp + S φ c b bp).im ∧
        (b ≠ bp → m.app φ (v.imag (la.lab c b bp))
          = -(((E b - E bp : ℝ) : ℂ) * dens v la φ c b bp + S φ c b bp).re) := by
  obtain ⟨m, g1, g2, g3, g4⟩ := h.rep.assemble_rows symq E coup S hc
  refine ⟨m, g1, g2, g3, fun φ c b bp hm hi => ?_⟩
  obtain ⟨hb, hbp⟩ := combsR2_mem hm
  exact g4 φ c b bp hb hbp hi (h.combs_can hm hi)

end

/-! ### 1vN and Redfield

The two differ only in which of the two states the factors are taken for; `k0 l q x b bp` and
`k1 l q x xp b` stand for the factors. -/

/-- Tunnelling matrices. -/
abbrev TMat := Nat → Nat → Nat → ℂ

/-- Factors with two states and a third one. -/
abbrev KFct := Nat → Nat → Nat → Nat → Nat → ℂ

namespace Coh

def A (v : View) (T : TMat) (k0 : KFct) (c b bp a ap : Nat) : ℂ :=
  ∑ l ∈ range v.nleads, (T l b a * T l ap bp * conj (k0 l (c - 1) bp a ap)
    - T l b a * T l ap bp * k0 l (c - 1) b ap a)

def L (v : View) (T : TMat) (k0 k1 : KFct) (c b bp y : Nat) : ℂ :=
  ∑ a ∈ v.Lo c, ∑ l ∈ range v.nleads, T l b a * T l a y * conj (k1 l (c - 1) bp y a) +
  ∑ x ∈ v.R (c + 1), ∑ l ∈ range v.nleads, T l b x * T l x y * k0 l c x bp y

def R (v : View) (T : TMat) (k0 k1 : KFct) (c b bp y : Nat) : ℂ :=
  ∑ a ∈ v.Lo c, ∑ l ∈ range v.nleads, -T l y a * T l a bp * k1 l (c - 1) b y a +
  ∑ x ∈ v.R (c + 1), ∑ l ∈ range v.nleads, -T l y x * T l x bp * conj (k0 l c x b y)

def C (v : View) (T : TMat) (k1 : KFct) (c b bp x xp : Nat) : ℂ :=
  ∑ l ∈ range v.nleads, (T l b x * T l xp bp * k1 l c x xp bp
    - T l b x * T l xp bp * conj (k1 l c xp x b))

/-- The right-hand side of the equation of motion (times `i`), without the energy term. -/
def S (v : View) (T : TMat) (k0 k1 : KFct) (ρ : Nat → Nat → Nat → ℂ) (c b bp : Nat) : ℂ :=
  (∑ a ∈ v.Lo c, ∑ ap ∈ v.Lo c, A v T k0 c b bp a ap * ρ (c - 1) a ap) +
  (∑ y ∈ v.R c, (L v T k0 k1 c b bp y * ρ c y bp + R v T k0 k1 c b bp y * ρ c b y)) +
  (∑ x ∈ v.R (c + 1), ∑ xp ∈ v.R (c + 1), C v T k1 c b bp x xp * ρ (c + 1) x xp)

end Coh

section
variable {v : View} {la : Lab} (h : VMul v la)
include h

namespace VN1

namespace VMul

theorem coup_ok (T : TMat) (f : Nat → Nat → Amp) {c b bp : Nat} (hb : b ∈ v.row c)
    (hbp : bp ∈ v.row c) (hi : la.inc c b bp = true) :
    ∃ ks, coup v T f b bp c = .ok ks ∧
      (∀ k ∈ ks, KGood v la k ∧ k.target = ((c : Int), b, bp)) ∧
      ∀ φ, (ks.map fun k => k.term v la φ).sum
        = Coh.S v T (fun l q x b _ => (f l (la.ix1 q x b)).cur0)
          (fun l q x _ b => (f l (la.ix1 q x b)).cur1) (dens v la φ) c b bp := by
  have hcl := h.row_lt hb
  have up : ∀ {a x}, a ∈ v.low c → x ∈ v.row c → x ∈ v.row (c - 1 + 1) := by
    intro a x ha hx
    rw [Nat.sub_add_cancel (h.low_mem ha).1]; exact hx
  obtain ⟨ks, g1, g2, g3⟩ := h.blocks_ok hb hbp hi
    (fA := fctA v T f b bp c) (fL := fctL v T f b bp c) (fR := fctR v T f b bp c)
    (fC := fctC v T f b bp c)
    (gA := Coh.A v T (fun l q x b _ => (f l (la.ix1 q x b)).cur0) c b bp)
    (gL := Coh.L v T (fun l q x b _ => (f l (la.ix1 q x b)).cur0)
          (fun l q x _ b => (f l (la.ix1 q x b)).cur1) c b bp)
    (gR := Coh.R v T (fun l q x b _ => (f l (la.ix1 q x b)).cur0)
          (fun l q x _ b => (f l (la.ix1 q x b)).cur1) c b bp)
    (gC := Coh.C v T (fun l q x _ b => (f l (la.ix1 q x b)).cur1) c b bp)
    (by
      intro a ap ha hap
      obtain ⟨h0, ha', e⟩ := h.low_mem ha
      obtain ⟨_, hap', _⟩ := h.low_mem hap
      unfold fctA
      rw [e, h.ind1 _ _ _ (up ha hbp) ha', h.ind1 _ _ _ (up ha hb) hap']
      simp only [py_bind_ok]
      apply sumM_range
      intro l _
      rw [h.rd_ok f l (up ha hbp) ha', h.rd_ok f l (up ha hb) hap']
      rfl)
    (by
      intro y hy
      unfold fctL
      rw [h.states_pred (by omega), h.states_succ hcl]
      simp only [py_bind_ok]
      rw [sumM_toFinset (h.low_nodup c) (g := fun a => ∑ l ∈ range v.nleads,
          T l b a * T l a y * conj (f l (la.ix1 (c - 1) bp a)).cur1),
        sumM_toFinset (h.nodup (c + 1)) (g := fun x => ∑ l ∈ range v.nleads,
          T l b x * T l x y * (f l (la.ix1 c x bp)).cur0)]
      · rfl
      · intro x hx
        rw [h.ind1 _ _ _ hx hbp]
        simp only [py_bind_ok]
        apply sumM_range
        intro l _
        rw [h.rd_ok f l hx hbp]
        rfl
      · intro a ha
        obtain ⟨h0, ha', e⟩ := h.low_mem ha
        rw [e, h.ind1 _ _ _ (up ha hbp) ha']
        simp only [py_bind_ok]
        apply sumM_range
        intro l _
        rw [h.rd_ok f l (up ha hbp) ha']
        rfl)
    (by
      intro y hy
      unfold fctR
      rw [h.states_pred (by omega), h.states_succ hcl]
      simp only [py_bind_ok]
      rw [sumM_toFinset (h.low_nodup c) (g := fun a => ∑ l ∈ range v.nleads,
          -T l y a * T l a bp * (f l (la.ix1 (c - 1) b a)).cur1),
        sumM_toFinset (h.nodup (c + 1)) (g := fun x => ∑ l ∈ range v.nleads,
          -T l y x * T l x bp * conj (f l (la.ix1 c x b)).cur0)]
      · rfl
      · intro x hx
        rw [h.ind1 _ _ _ hx hb]
        simp only [py_bind_ok]
        apply sumM_range
        intro l _
        rw [h.rd_ok f l hx hb]
        rfl
      · intro a ha
        obtain ⟨h0, ha', e⟩ := h.low_mem ha
        rw [e, h.ind1 _ _ _ (up ha hb) ha']
        simp only [py_bind_ok]
        apply sumM_range
        intro l _
        rw [h.rd_ok f l (up ha hb) ha']
        rfl)
    (by
      intro x xp hx hxp
      unfold fctC
      rw [h.ind1 _ _ _ hx hbp, h.ind1 _ _ _ hxp hb]
      simp only [py_bind_ok]
      apply sumM_range
      intro l _
      rw [h.rd_ok f l hx hbp, h.rd_ok f l hxp hb]
      rfl)
  exact ⟨ks, g1, g2, fun φ => g3 φ⟩

end VMul

omit h in
theorem coup_ok {v : View} {la : Lab} (h : VOk v la) :
    type_of% (@VMul.coup_ok v la h.toVMul) := VMul.coup_ok h.toVMul

end VN1

namespace Redfield

namespace VMul

theorem coup_ok (T : TMat) (f : Nat → Nat → Amp) {c b bp : Nat} (hb : b ∈ v.row c)
    (hbp : bp ∈ v.row c) (hi : la.inc c b bp = true) :
    ∃ ks, coup v T f b bp c = .ok ks ∧
      (∀ k ∈ ks, KGood v la k ∧ k.target = ((c : Int), b, bp)) ∧
      ∀ φ, (ks.map fun k => k.term v la φ).sum
        = Coh.S v T (fun l q x _ bp => (f l (la.ix1 q x bp)).cur0)
          (fun l q _ xp b => (f l (la.ix1 q xp b)).cur1) (dens v la φ) c b bp := by
  have hcl := h.row_lt hb
  have up : ∀ {a x}, a ∈ v.low c → x ∈ v.row c → x ∈ v.row (c - 1 + 1) := by
    intro a x ha hx
    rw [Nat.sub_add_cancel (h.low_mem ha).1]; exact hx
  obtain ⟨ks, g1, g2, g3⟩ := h.blocks_ok hb hbp hi
    (fA := fctA v T f b bp c) (fL := fctL v T f b c) (fR := fctR v T f bp c)
    (fC := fctC v T f b bp c)
    (gA := Coh.A v T (fun l q x _ bp => (f l (la.ix1 q x bp)).cur0) c b bp)
    (gL := Coh.L v T (fun l q x _ bp => (f l (la.ix1 q x bp)).cur0)
          (fun l q _ xp b => (f l (la.ix1 q xp b)).cur1) c b bp)
    (gR := Coh.R v T (fun l q x _ bp => (f l (la.ix1 q x bp)).cur0)
          (fun l q _ xp b => (f l (la.ix1 q xp b)).cur1) c b bp)
    (gC := Coh.C v T (fun l q _ xp b => (f l (la.ix1 q xp b)).cur1) c b bp)
    (by
      intro a ap ha hap
      obtain ⟨h0, ha', e⟩ := h.low_mem ha
      obtain ⟨_, hap', _⟩ := h.low_mem hap
      unfold fctA
      rw [e, h.ind1 _ _ _ (up ha hbp) hap', h.ind1 _ _ _ (up ha hb) ha']
      simp only [py_bind_ok]
      apply sumM_range
      intro l _
      rw [h.rd_ok f l (up ha hbp) hap', h.rd_ok f l (up ha hb) ha']
      rfl)
    (by
      intro y hy
      unfold fctL
      rw [h.states_pred (by omega), h.states_succ hcl]
      simp only [py_bind_ok]
      rw [sumM_toFinset (h.low_nodup c) (g := fun a => ∑ l ∈ range v.nleads,
          T l b a * T l a y * conj (f l (la.ix1 (c - 1) y a)).cur1),
        sumM_toFinset (h.nodup (c + 1)) (g := fun x => ∑ l ∈ range v.nleads,
          T l b x * T l x y * (f l (la.ix1 c x y)).cur0)]
      · rfl
      · intro x hx
        rw [h.ind1 _ _ _ hx hy]
        simp only [py_bind_ok]
        apply sumM_range
        intro l _
        rw [h.rd_ok f l hx hy]
        rfl
      · intro a ha
        obtain ⟨h0, ha', e⟩ := h.low_mem ha
        rw [e, h.ind1 _ _ _ (up ha hy) ha']
        simp only [py_bind_ok]
        apply sumM_range
        intro l _
        rw [h.rd_ok f l (up ha hy) ha']
        rfl)
    (by
      intro y hy
      unfold fctR
      rw [h.states_pred (by omega), h.states_succ hcl]
      simp only [py_bind_ok]
      rw [sumM_toFinset (h.low_nodup c) (g := fun a => ∑ l ∈ range v.nleads,
          -T l y a * T l a bp * (f l (la.ix1 (c - 1) y a)).cur1),
        sumM_toFinset (h.nodup (c + 1)) (g := fun x => ∑ l ∈ range v.nleads,
          -T l y x * T l x bp * conj (f l (la.ix1 c x y)).cur0)]
      · rfl
      · intro x hx
        rw [h.ind1 _ _ _ hx hy]
        simp only [py_bind_ok]
        apply sumM_range
        intro l _
        rw [h.rd_ok f l hx hy]
        rfl
      · intro a ha
        obtain ⟨h0, ha', e⟩ := h.low_mem ha
        rw [e, h.ind1 _ _ _ (up ha hy) ha']
        simp only [py_bind_ok]
        apply sumM_range
        intro l _
        rw [h.rd_ok f l (up ha hy) ha']
        rfl)
    (by
      intro x xp hx hxp
      unfold fctC
      rw [h.ind1 _ _ _ hxp hbp, h.ind1 _ _ _ hx hb]
      simp only [py_bind_ok]
      apply sumM_range
      intro l _
      rw [h.rd_ok f l hxp hbp, h.rd_ok f l hx hb]
      rfl)
  exact ⟨ks, g1, g2, fun φ => g3 φ⟩

end VMul

omit h in
theorem coup_ok {v : View} {la : Lab} (h : VOk v la) :
    type_of% (@VMul.coup_ok v la h.toVMul) := VMul.coup_ok h.toVMul

end Redfield

end

/-! ### Sums -/

theorem split_sum (s t u : Finset Nat) (P Q P' Q' : Nat → Nat → ℂ) (r r' : Nat → ℂ) :
    ∑ y ∈ s, ((∑ a ∈ t, P y a + ∑ x ∈ u, Q y x) * r y +
      (∑ a ∈ t, P' y a + ∑ x ∈ u, Q' y x) * r' y)
    = ∑ a ∈ t, ∑ y ∈ s, (P y a * r y + P' y a * r' y) +
      ∑ x ∈ u, ∑ y ∈ s, (Q y x * r y + Q' y x * r' y) := by
  simp only [add_mul, sum_mul, sum_add_distrib]
  have h1 := sum_comm (s := s) (t := t) (f := fun y a => P y a * r y)
  have h2 := sum_comm (s := s) (t := t) (f := fun y a => P' y a * r' y)
  have h3 := sum_comm (s := s) (t := u) (f := fun y a => Q y a * r y)
  have h4 := sum_comm (s := s) (t := u) (f := fun y a => Q' y a * r' y)
  rw [h1, h2, h3, h4]
  ring

theorem sum_antisymm {β : Type} [AddCommGroup β] (s : Finset Nat) (g : Nat → Nat → β) :
    ∑ b ∈ s, ∑ bp ∈ s, (g b bp - g bp b) = 0 := by
  simp only [sum_sub_distrib]
  rw [sum_comm, sub_self]

namespace Coh

/-- Terms of the equation for `x` that involve the state `b` with one electron less. -/
def D (v : View) (T : TMat) (k0 k1 : KFct) (ρ : Nat → Nat → Nat → ℂ) (q x b : Nat) : ℂ :=
  ∑ bp ∈ v.R q, ∑ l ∈ range v.nleads, (T l x b * T l bp x * conj (k0 l q x b bp)
    - T l x b * T l bp x * k0 l q x bp b) * ρ q b bp +
  ∑ xp ∈ v.R (q + 1), ∑ l ∈ range v.nleads,
    (T l x b * T l b xp * conj (k1 l q x xp b) * ρ (q + 1) xp x
      - T l xp b * T l b x * k1 l q x xp b * ρ (q + 1) x xp)

/-- Terms of the equation for `b` that involve the state `x` with one electron more. -/
def U (v : View) (T : TMat) (k0 k1 : KFct) (ρ : Nat → Nat → Nat → ℂ) (q x b : Nat) : ℂ :=
  ∑ bp ∈ v.R q, ∑ l ∈ range v.nleads,
    (T l b x * T l x bp * k0 l q x b bp * ρ q bp b
      - T l bp x * T l x b * conj (k0 l q x b bp) * ρ q b bp) +
  ∑ xp ∈ v.R (q + 1), ∑ l ∈ range v.nleads, (T l b x * T l xp b * k1 l q x xp b
    - T l b x * T l xp b * conj (k1 l q xp x b)) * ρ (q + 1) x xp

section
variable {v : View} {la : Lab} (h : VOk v la)
include h

theorem S_diag (T : TMat) (k0 k1 : KFct) (ρ : Nat → Nat → Nat → ℂ) (q b : Nat) :
    S v T k0 k1 ρ q b b
      = ∑ a ∈ v.Lo q, D v T k0 k1 ρ (q - 1) b a + ∑ x ∈ v.R (q + 1), U v T k0 k1 ρ q x b := by
  have e2 : ∑ y ∈ v.R q, (L v T k0 k1 q b b y * ρ q y b + R v T k0 k1 q b b y * ρ q b y)
      = ∑ a ∈ v.Lo q, ∑ y ∈ v.R q, ∑ l ∈ range v.nleads,
          (T l b a * T l a y * conj (k1 l (q - 1) b y a) * ρ q y b
            - T l y a * T l a b * k1 l (q - 1) b y a * ρ q b y) +
        ∑ x ∈ v.R (q + 1), ∑ y ∈ v.R q, ∑ l ∈ range v.nleads,
          (T l b x * T l x y * k0 l q x b y * ρ q y b
            - T l y x * T l x b * conj (k0 l q x b y) * ρ q b y) := by
    unfold L R
    rw [split_sum]
    congr 1
    · refine sum_congr rfl fun a _ => sum_congr rfl fun y _ => ?_
      rw [sum_mul, sum_mul, ← sum_add_distrib]
      exact sum_congr rfl fun l _ => by ring
    · refine sum_congr rfl fun a _ => sum_congr rfl fun y _ => ?_
      rw [sum_mul, sum_mul, ← sum_add_distrib]
      exact sum_congr rfl fun l _ => by ring
  unfold S
  rw [e2]
  unfold D U
  simp only [sum_add_distrib]
  have e1 : ∑ a ∈ v.Lo q, ∑ ap ∈ v.Lo q, A v T k0 q b b a ap * ρ (q - 1) a ap
      = ∑ a ∈ v.Lo q, ∑ ap ∈ v.R (q - 1), ∑ l ∈ range v.nleads,
        (T l b a * T l ap b * conj (k0 l (q - 1) b a ap)
          - T l b a * T l ap b * k0 l (q - 1) b ap a) * ρ (q - 1) a ap := by
    refine sum_congr rfl fun a ha => ?_
    have hq := (h.low_mem (by simpa [View.Lo] using ha)).1
    have : v.Lo q = v.R (q - 1) := by rw [← Lo_succ h, Nat.sub_add_cancel hq]
    rw [this]
    refine sum_congr rfl fun ap _ => ?_
    unfold A
    rw [sum_mul]
  have e3 : ∑ x ∈ v.R (q + 1), ∑ xp ∈ v.R (q + 1), C v T k1 q b b x xp * ρ (q + 1) x xp
      = ∑ x ∈ v.R (q + 1), ∑ xp ∈ v.R (q + 1), ∑ l ∈ range v.nleads,
        (T l b x * T l xp b * k1 l q x xp b
          - T l b x * T l xp b * conj (k1 l q xp x b)) * ρ (q + 1) x xp := by
    refine sum_congr rfl fun x _ => sum_congr rfl fun xp _ => ?_
    unfold C
    rw [sum_mul]
  have e4 : ∑ a ∈ v.Lo q, ∑ y ∈ v.R q, ∑ l ∈ range v.nleads,
          (T l b a * T l a y * conj (k1 l (q - 1) b y a) * ρ q y b
            - T l y a * T l a b * k1 l (q - 1) b y a * ρ q b y)
      = ∑ a ∈ v.Lo q, ∑ xp ∈ v.R (q - 1 + 1), ∑ l ∈ range v.nleads,
        (T l b a * T l a xp * conj (k1 l (q - 1) b xp a) * ρ (q - 1 + 1) xp b
          - T l xp a * T l a b * k1 l (q - 1) b xp a * ρ (q - 1 + 1) b xp) := by
    refine sum_congr rfl fun a ha => ?_
    have hq := (h.low_mem (by simpa [View.Lo] using ha)).1
    rw [Nat.sub_add_cancel hq]
  rw [e1, e3, e4]
  ring

/-- The trace is conserved, for any matrices, factors and density matrix. -/
theorem trace (T : TMat) (k0 k1 : KFct) (ρ : Nat → Nat → Nat → ℂ) :
    ∑ q ∈ range v.ncharge, ∑ b ∈ v.R q, S v T k0 k1 ρ q b b = 0 := by
  refine Eq.trans (sum_congr rfl fun q _ => sum_congr rfl fun b _ => S_diag h T k0 k1 ρ q b) ?_
  rw [balance h (D := D v T k0 k1 ρ) (U := U v T k0 k1 ρ)]
  apply sum_eq_zero
  intro q _
  have e : ∀ x b, D v T k0 k1 ρ q x b + U v T k0 k1 ρ q x b
      = ∑ bp ∈ v.R q, ((∑ l ∈ range v.nleads, T l b x * T l x bp * k0 l q x b bp * ρ q bp b)
          - ∑ l ∈ range v.nleads, T l bp x * T l x b * k0 l q x bp b * ρ q b bp) +
        ∑ xp ∈ v.R (q + 1), ((∑ l ∈ range v.nleads,
            T l x b * T l b xp * conj (k1 l q x xp b) * ρ (q + 1) xp x)
          - ∑ l ∈ range v.nleads, T l xp b * T l b x * conj (k1 l q xp x b) * ρ (q + 1) x xp) := by
    intro x b
    unfold D U
    rw [add_add_add_comm, ← sum_add_distrib, ← sum_add_distrib]
    congr 1
    · refine sum_congr rfl fun bp _ => ?_
      rw [← sum_add_distrib, ← sum_sub_distrib]
      exact sum_congr rfl fun l _ => by ring
    · refine sum_congr rfl fun xp _ => ?_
      rw [← sum_add_distrib, ← sum_sub_distrib]
      exact sum_congr rfl fun l _ => by ring
  simp only [e, sum_add_distrib]
  have z1 : ∑ x ∈ v.R (q + 1), ∑ b ∈ v.R q, ∑ bp ∈ v.R q,
      ((∑ l ∈ range v.nleads, T l b x * T l x bp * k0 l q x b bp * ρ q bp b)
          - ∑ l ∈ range v.nleads, T l bp x * T l x b * k0 l q x bp b * ρ q b bp) = 0 :=
    sum_eq_zero fun x _ => sum_antisymm (v.R q) fun b bp =>
      ∑ l ∈ range v.nleads, T l b x * T l x bp * k0 l q x b bp * ρ q bp b
  have z2 : ∑ x ∈ v.R (q + 1), ∑ b ∈ v.R q, ∑ xp ∈ v.R (q + 1),
      ((∑ l ∈ range v.nleads, T l x b * T l b xp * conj (k1 l q x xp b) * ρ (q + 1) xp x)
          - ∑ l ∈ range v.nleads, T l xp b * T l b x * conj (k1 l q xp x b) * ρ (q + 1) x xp)
      = 0 := by
    rw [sum_comm]
    exact sum_eq_zero fun b _ => sum_antisymm (v.R (q + 1)) fun x xp =>
      ∑ l ∈ range v.nleads, T l x b * T l b xp * conj (k1 l q x xp b) * ρ (q + 1) xp x
  rw [z1, z2, add_zero]

/-! ### Current -/

/-- The amplitude whose imaginary part is the current between `b` and `x` through lead `l`. -/
def Z (v : View) (T : TMat) (k0 k1 : KFct) (ρ : Nat → Nat → Nat → ℂ) (l q x b : Nat) : ℂ :=
  ∑ bp ∈ v.R q, T l b x * T l x bp * ρ q bp b * k0 l q x b bp +
  ∑ xp ∈ v.R (q + 1), T l b x * ρ (q + 1) x xp * T l xp b * k1 l q x xp b

/-- The equation for `b` in terms of the amplitudes, for Hermitian matrices. -/
theorem S_herm (T : TMat) (hT : ∀ l b c, T l b c = conj (T l c b)) (k0 k1 : KFct)
    (ρ : Nat → Nat → Nat → ℂ)
    (hρ : ∀ q b bp, b ∈ v.R q → bp ∈ v.R q → ρ q b bp = conj (ρ q bp b))
    {q b : Nat} (hb : b ∈ v.R q) :
    S v T k0 k1 ρ q b b
      = ∑ a ∈ v.Lo q, ∑ l ∈ range v.nleads,
          (conj (Z v T k0 k1 ρ l (q - 1) b a) - Z v T k0 k1 ρ l (q - 1) b a) +
        ∑ x ∈ v.R (q + 1), ∑ l ∈ range v.nleads,
          (Z v T k0 k1 ρ l q x b - conj (Z v T k0 k1 ρ l q x b)) := by
  rw [S_diag h]
  have cz : ∀ l q x b, x ∈ v.R (q + 1) → b ∈ v.R q → conj (Z v T k0 k1 ρ l q x b)
      = ∑ bp ∈ v.R q, T l x b * T l bp x * ρ q b bp * conj (k0 l q x b bp) +
        ∑ xp ∈ v.R (q + 1), T l x b * ρ (q + 1) xp x * T l b xp * conj (k1 l q x xp b) := by
    intro l q x b hx hb
    unfold Z
    rw [map_add, map_sum, map_sum]
    congr 1
    · refine sum_congr rfl fun bp hbp => ?_
      rw [map_mul, map_mul, map_mul, ← hT l x b, ← hT l bp x, ← hρ q b bp hb hbp]
    · refine sum_congr rfl fun xp hxp => ?_
      rw [map_mul, map_mul, map_mul, ← hT l x b, ← hT l b xp, ← hρ (q + 1) xp x hxp hx]
  congr 1
  · -- terms with one electron less
    rcases q with _ | q
    · rw [Lo_zero h]; simp
    · rw [Lo_succ h, Nat.add_sub_cancel]
      have hx := hb
      rw [show ∑ a ∈ v.R q, D v T k0 k1 ρ q b a
          = ∑ a ∈ v.R q, ∑ ap ∈ v.R q, (∑ l ∈ range v.nleads,
              T l b a * T l ap b * conj (k0 l q b a ap) * ρ q a ap
              - ∑ l ∈ range v.nleads, T l b a * T l ap b * k0 l q b ap a * ρ q a ap) +
            ∑ a ∈ v.R q, ∑ xp ∈ v.R (q + 1), ∑ l ∈ range v.nleads,
              (T l b a * T l a xp * conj (k1 l q b xp a) * ρ (q + 1) xp b
                - T l xp a * T l a b * k1 l q b xp a * ρ (q + 1) b xp) by
        rw [← sum_add_distrib]
        refine sum_congr rfl fun a _ => ?_
        unfold D
        congr 1
        refine sum_congr rfl fun ap _ => ?_
        rw [← sum_sub_distrib]
        exact sum_congr rfl fun l _ => by ring]
      have sw : ∑ a ∈ v.R q, ∑ ap ∈ v.R q, (∑ l ∈ range v.nleads,
              T l b a * T l ap b * conj (k0 l q b a ap) * ρ q a ap
              - ∑ l ∈ range v.nleads, T l b a * T l ap b * k0 l q b ap a * ρ q a ap)
          = ∑ a ∈ v.R q, ∑ ap ∈ v.R q, (∑ l ∈ range v.nleads,
              T l b a * T l ap b * conj (k0 l q b a ap) * ρ q a ap
              - ∑ l ∈ range v.nleads, T l b ap * T l a b * k0 l q b a ap * ρ q ap a) := by
        simp only [sum_sub_distrib]
        congr 1
        rw [sum_comm]
      rw [sw, ← sum_add_distrib]
      refine sum_congr rfl fun a ha => ?_
      have hz : ∑ l ∈ range v.nleads, (conj (Z v T k0 k1 ρ l q b a) - Z v T k0 k1 ρ l q b a)
          = ∑ l ∈ range v.nleads,
            (∑ ap ∈ v.R q, (T l b a * T l ap b * ρ q a ap * conj (k0 l q b a ap)
              - T l a b * T l b ap * ρ q ap a * k0 l q b a ap) +
            ∑ xp ∈ v.R (q + 1), (T l b a * ρ (q + 1) xp b * T l a xp * conj (k1 l q b xp a)
              - T l a b * ρ (q + 1) b xp * T l xp a * k1 l q b xp a)) := by
        refine sum_congr rfl fun l _ => ?_
        rw [cz l q b a hx ha]
        unfold Z
        rw [sum_sub_distrib, sum_sub_distrib]
        ring
      rw [hz, sum_add_distrib]
      congr 1
      · rw [sum_comm]
        refine sum_congr rfl fun ap _ => ?_
        rw [← sum_sub_distrib]
        exact sum_congr rfl fun l _ => by ring
      · rw [sum_comm]
        refine sum_congr rfl fun xp _ => ?_
        exact sum_congr rfl fun l _ => by ring
  · -- terms with one electron more
    rw [show ∑ x ∈ v.R (q + 1), U v T k0 k1 ρ q x b
          = ∑ x ∈ v.R (q + 1), ∑ bp ∈ v.R q, ∑ l ∈ range v.nleads,
              (T l b x * T l x bp * k0 l q x b bp * ρ q bp b
                - T l bp x * T l x b * conj (k0 l q x b bp) * ρ q b bp) +
            ∑ x ∈ v.R (q + 1), ∑ xp ∈ v.R (q + 1), (∑ l ∈ range v.nleads,
              T l b x * T l xp b * k1 l q x xp b * ρ (q + 1) x xp
              - ∑ l ∈ range v.nleads,
                T l b x * T l xp b * conj (k1 l q xp x b) * ρ (q + 1) x xp) by
        rw [← sum_add_distrib]
        refine sum_congr rfl fun x _ => ?_
        unfold U
        congr 1
        refine sum_congr rfl fun xp _ => ?_
        rw [← sum_sub_distrib]
        exact sum_congr rfl fun l _ => by ring]
    have sw : ∑ x ∈ v.R (q + 1), ∑ xp ∈ v.R (q + 1), (∑ l ∈ range v.nleads,
              T l b x * T l xp b * k1 l q x xp b * ρ (q + 1) x xp
              - ∑ l ∈ range v.nleads,
                T l b x * T l xp b * conj (k1 l q xp x b) * ρ (q + 1) x xp)
          = ∑ x ∈ v.R (q + 1), ∑ xp ∈ v.R (q + 1), (∑ l ∈ range v.nleads,
              T l b x * T l xp b * k1 l q x xp b * ρ (q + 1) x xp
              - ∑ l ∈ range v.nleads,
                T l b xp * T l x b * conj (k1 l q x xp b) * ρ (q + 1) xp x) := by
      simp only [sum_sub_distrib]
      congr 1
      rw [sum_comm]
    rw [sw, ← sum_add_distrib]
    refine sum_congr rfl fun x hx => ?_
    have hz : ∑ l ∈ range v.nleads, (Z v T k0 k1 ρ l q x b - conj (Z v T k0 k1 ρ l q x b))
        = ∑ l ∈ range v.nleads,
          (∑ bp ∈ v.R q, (T l b x * T l x bp * ρ q bp b * k0 l q x b bp
            - T l x b * T l bp x * ρ q b bp * conj (k0 l q x b bp)) +
          ∑ xp ∈ v.R (q + 1), (T l b x * ρ (q + 1) x xp * T l xp b * k1 l q x xp b
            - T l x b * ρ (q + 1) xp x * T l b xp * conj (k1 l q x xp b))) := by
      refine sum_congr rfl fun l _ => ?_
      rw [cz l q x b hx hb]
      unfold Z
      rw [sum_sub_distrib, sum_sub_distrib]
      ring
    rw [hz, sum_add_distrib]
    congr 1
    · rw [sum_comm]
      refine sum_congr rfl fun bp _ => ?_
      exact sum_congr rfl fun l _ => by ring
    · rw [sum_comm]
      refine sum_congr rfl fun xp _ => ?_
      rw [← sum_sub_distrib]
      exact sum_congr rfl fun l _ => by ring

/-- The imaginary parts of the diagonal equations, weighted by `w`. -/
theorem weighted (T : TMat) (hT : ∀ l b c, T l b c = conj (T l c b)) (k0 k1 : KFct)
    (ρ : Nat → Nat → Nat → ℂ)
    (hρ : ∀ q b bp, b ∈ v.R q → bp ∈ v.R q → ρ q b bp = conj (ρ q bp b)) (w : Nat → Nat → ℝ) :
    ∑ q ∈ range v.ncharge, ∑ b ∈ v.R q, w q b * (S v T k0 k1 ρ q b b).im
      = ∑ q ∈ range (v.ncharge - 1), ∑ x ∈ v.R (q + 1), ∑ b ∈ v.R q,
        (w (q + 1) x - w q b) * ∑ l ∈ range v.nleads, -2 * (Z v T k0 k1 ρ l q x b).im := by
  have hb := balance h
    (D := fun q x b => w (q + 1) x * ∑ l ∈ range v.nleads, -2 * (Z v T k0 k1 ρ l q x b).im)
    (U := fun q x b => w q b * ∑ l ∈ range v.nleads, 2 * (Z v T k0 k1 ρ l q x b).im)
  refine Eq.trans ?_ (hb.trans (sum_congr rfl fun q _ => sum_congr rfl fun x _ =>
    sum_congr rfl fun b _ => ?_))
  · refine sum_congr rfl fun q _ => sum_congr rfl fun b hb => ?_
    rw [S_herm h T hT k0 k1 ρ hρ hb, Complex.add_im, mul_add, Complex.im_sum, Complex.im_sum,
      mul_sum, mul_sum]
    congr 1
    · refine sum_congr rfl fun a ha => ?_
      rw [Nat.sub_add_cancel (h.low_mem (by simpa [View.Lo] using ha)).1, Complex.im_sum]
      congr 1
      refine sum_congr rfl fun l _ => ?_
      rw [Complex.sub_im, Complex.conj_im]
      ring
    · refine sum_congr rfl fun x _ => ?_
      rw [Complex.im_sum]
      congr 1
      refine sum_congr rfl fun l _ => ?_
      rw [Complex.sub_im, Complex.conj_im]
      ring
  · rw [sub_mul, sub_eq_add_neg]
    congr 1
    rw [← mul_neg, ← sum_neg_distrib]
    congr 1
    exact sum_congr rfl fun l _ => by ring

end

end Coh

end

end Verif
