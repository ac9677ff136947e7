import Verif.Lemmas.Basis
import Verif.Props.Coherent
import Verif.Props.RTD

/-! C70: the approaches with coherences give the same for every choice of the eigenstates. -/

namespace Verif

open Finset
open Complex (I)
open scoped ComplexConjugate

noncomputable section

namespace Coh

/-- The part of `S` for one lead. -/
def SL (v : View) (T : TMat) (k0 k1 : KFct) (ρ : Nat → Nat → Nat → ℂ) (l c b bp : Nat) : ℂ :=
  (∑ a ∈ v.Lo c, ∑ ap ∈ v.Lo c, T l b a * T l ap bp * (conj (k0 l (c - 1) bp a ap) - k0 l (c - 1) b ap a) *
    ρ (c - 1) a ap) +
  (∑ y ∈ v.R c, ∑ a ∈ v.Lo c, T l b a * T l a y * conj (k1 l (c - 1) bp y a) * ρ c y bp) +
  (∑ y ∈ v.R c, ∑ x ∈ v.R (c + 1), T l b x * T l x y * k0 l c x bp y * ρ c y bp) +
  (∑ y ∈ v.R c, ∑ a ∈ v.Lo c, T l y a * T l a bp * (-k1 l (c - 1) b y a) * ρ c b y) +
  (∑ y ∈ v.R c, ∑ x ∈ v.R (c + 1), T l y x * T l x bp * (-conj (k0 l c x b y)) * ρ c b y) +
  (∑ x ∈ v.R (c + 1), ∑ xp ∈ v.R (c + 1), T l b x * T l xp bp * (k1 l c x xp bp - conj (k1 l c xp x b)) *
    ρ (c + 1) x xp)

theorem sum_move {s t r : Finset Nat} (F : Nat → Nat → Nat → ℂ) :
    ∑ x ∈ s, ∑ y ∈ t, ∑ l ∈ r, F x y l = ∑ l ∈ r, ∑ x ∈ s, ∑ y ∈ t, F x y l := by
  rw [sum_congr rfl fun x _ => sum_comm, sum_comm]

theorem S_leads (v : View) (T : TMat) (k0 k1 : KFct) (ρ : Nat → Nat → Nat → ℂ) (c b bp : Nat) :
    S v T k0 k1 ρ c b bp = ∑ l ∈ range v.nleads, SL v T k0 k1 ρ l c b bp := by
  unfold S SL A L R C
  simp only [sum_add_distrib, add_mul, sum_mul]
  simp only [sum_move (r := range v.nleads)]
  rw [show ∀ a b c d e f : ℂ, a + ((b + c) + (d + e)) + f = a + b + c + d + e + f by intros; ring]
  refine congrArg₂ (· + ·) (congrArg₂ (· + ·) (congrArg₂ (· + ·) (congrArg₂ (· + ·) (congrArg₂ (· + ·) ?_ ?_) ?_) ?_) ?_) ?_
  all_goals exact sum_congr rfl fun _ _ => sum_congr rfl fun _ _ => sum_congr rfl fun _ _ => by ring

end Coh

/-- The part of the lead `l` in the equation of the Lindblad approach. -/
def Lindblad.SL (v : View) (t : TMat) (ρ : Nat → Nat → Nat → ℂ) (l c b bp : Nat) : ℂ :=
  (∑ a ∈ v.Lo c, ∑ ap ∈ v.Lo c, t l b a * conj (t l bp ap) * I * ρ (c - 1) a ap) +
  (∑ y ∈ v.R c, ∑ a ∈ v.Lo c, conj (t l a b) * t l a y * (-(1 / 2) * I) * ρ c y bp) +
  (∑ y ∈ v.R c, ∑ a ∈ v.R (c + 1), conj (t l a b) * t l a y * (-(1 / 2) * I) * ρ c y bp) +
  (∑ y ∈ v.R c, ∑ a ∈ v.Lo c, conj (t l a y) * t l a bp * (-(1 / 2) * I) * ρ c b y) +
  (∑ y ∈ v.R c, ∑ a ∈ v.R (c + 1), conj (t l a y) * t l a bp * (-(1 / 2) * I) * ρ c b y) +
  ∑ x ∈ v.R (c + 1), ∑ xp ∈ v.R (c + 1), t l b x * conj (t l bp xp) * I * ρ (c + 1) x xp

section
variable {v : View} {la : Lab} (h : VOk v la) {E E' : Nat → ℝ} {U : Nat → Nat → ℂ} (hB : EigenbasisTo v la E E' U)
include h hB

omit h in
theorem EigenbasisTo.ortho (q : Nat) : Ortho (v.R q) U := fun z hz z' hz' =>
  hB.unitary q z (by simpa [View.R] using hz) z' (by simpa [View.R] using hz')

omit h in
theorem EigenbasisTo.en (q : Nat) : ∀ b ∈ v.R q, ∀ y ∈ v.R q, U b y ≠ 0 → E' b = E y := fun b hb y hy =>
  hB.energy q b (by simpa [View.R] using hb) y (by simpa [View.R] using hy)

omit h hB in
theorem NewTba.trU {w : Nat → ℂ} {T T' : TMat} (hT : NewTba v U w T T') (l q : Nat) :
    Tr (v.R (q + 1)) (v.R q) U (w l) (T l) (T' l) := fun c hc b hb =>
  hT.up l q c (by simpa [View.R] using hc) b (by simpa [View.R] using hb)

omit h hB in
theorem NewTba.trD {w : Nat → ℂ} {T T' : TMat} (hT : NewTba v U w T T') (l q : Nat) :
    Tr (v.R q) (v.R (q + 1)) U (conj (w l)) (T l) (T' l) := fun b hb c hc =>
  hT.down l q c (by simpa [View.R] using hc) b (by simpa [View.R] using hb)

/-- A factor that is a function of the energies of the three states. -/
def OfEnergy0 (v : View) (E : Nat → ℝ) (k : KFct) (g : Nat → ℝ → ℝ → ℝ → ℂ) : Prop :=
  ∀ l < v.nleads, ∀ q, ∀ x ∈ v.R (q + 1), ∀ b ∈ v.R q, ∀ bp ∈ v.R q, k l q x b bp = g l (E x) (E b) (E bp)

/-- The same for a pair of states with the higher charge. -/
def OfEnergy1 (v : View) (E : Nat → ℝ) (k : KFct) (g : Nat → ℝ → ℝ → ℝ → ℂ) : Prop :=
  ∀ l < v.nleads, ∀ q, ∀ x ∈ v.R (q + 1), ∀ xp ∈ v.R (q + 1), ∀ b ∈ v.R q, k l q x xp b = g l (E x) (E xp) (E b)

/-- The factors of the two calculations are the same functions of the energies. -/
structure OfEnergies (v : View) (E E' : Nat → ℝ) (k0 k1 k0' k1' : KFct) (g0 g1 : Nat → ℝ → ℝ → ℝ → ℂ) : Prop where
  h0 : OfEnergy0 v E k0 g0
  h1 : OfEnergy1 v E k1 g1
  h0' : OfEnergy0 v E' k0' g0
  h1' : OfEnergy1 v E' k1' g1

theorem Coh.SL_rot {w : Nat → ℂ} {T T' : TMat} (hT : NewTba v U w T T') {k0 k1 k0' k1' : KFct}
    {g0 g1 : Nat → ℝ → ℝ → ℝ → ℂ} (hk : OfEnergies v E E' k0 k1 k0' k1' g0 g1) {ρ ρ' : Nat → Nat → Nat → ℂ} (hρ : NewDens v U ρ ρ') {l : Nat} (hl : l < v.nleads)
    {c b bp : Nat} (hb : b ∈ v.R c) (hbp : bp ∈ v.R c) :
    Coh.SL v T' k0' k1' ρ' l c b bp = rot (v.R c) U (Coh.SL v T k0 k1 ρ l c) b bp := by
  have hw := hT.phase l
  have hw' : conj (w l) * w l = 1 := by rw [mul_comm]; exact hw
  have hρ' : ∀ q, ∀ a ∈ v.R q, ∀ ap ∈ v.R q, ρ' q a ap = rot (v.R q) U (ρ q) a ap := fun q a ha ap hap =>
    hρ q a (by simpa [View.R] using ha) ap (by simpa [View.R] using hap)
  unfold Coh.SL
  rw [rot_add, rot_add, rot_add, rot_add, rot_add]
  refine congrArg₂ (· + ·) (congrArg₂ (· + ·) (congrArg₂ (· + ·) (congrArg₂ (· + ·) (congrArg₂ (· + ·) ?_ ?_) ?_) ?_) ?_) ?_
  · rcases c with _ | c
    · rw [Lo_zero h]; simp [rot]
    · rw [Lo_succ h, Nat.add_sub_cancel]
      refine sand (hB.en _) (hB.en _) (hB.ortho _) (hT.trU l c) (hT.trD l c) hw (hρ' c)
        (fun b bp a ap => conj (k0 l c bp a ap) - k0 l c b ap a) (fun b bp a ap => conj (k0' l c bp a ap) - k0' l c b ap a)
        (fun b bp a ap => conj (g0 l bp a ap) - g0 l b ap a) ?_ ?_ hb hbp
      · intro b hb bp hbp a ha ap hap
        rw [hk.h0 l hl c bp hbp a ha ap hap, hk.h0 l hl c b hb ap hap a ha]
      · intro b hb bp hbp a ha ap hap
        rw [hk.h0' l hl c bp hbp a ha ap hap, hk.h0' l hl c b hb ap hap a ha]
  · rcases c with _ | c
    · rw [Lo_zero h]; simp [rot]
    · rw [Lo_succ h, Nat.add_sub_cancel]
      refine left (hB.en _) (hB.en _) (hB.ortho _) (hB.ortho _) (hT.trU l c) (hT.trD l c) hw (hρ' _)
        (fun b bp y a => conj (k1 l c bp y a)) (fun b bp y a => conj (k1' l c bp y a))
        (fun b bp y a => conj (g1 l bp y a)) ?_ ?_ hb hbp
      · intro b hb bp hbp x hx a ha
        rw [hk.h1 l hl c bp hbp x hx a ha]
      · intro b hb bp hbp x hx a ha
        rw [hk.h1' l hl c bp hbp x hx a ha]
  · refine left (hB.en _) (hB.en _) (hB.ortho _) (hB.ortho _) (hT.trD l c) (hT.trU l c) hw' (hρ' _)
        (fun b bp y x => k0 l c x bp y) (fun b bp y x => k0' l c x bp y) (fun b bp y x => g0 l x bp y) ?_ ?_ hb hbp
    · intro b hb bp hbp x hx a ha
      exact hk.h0 l hl c a ha bp hbp x hx
    · intro b hb bp hbp x hx a ha
      exact hk.h0' l hl c a ha bp hbp x hx
  · rcases c with _ | c
    · rw [Lo_zero h]; simp [rot]
    · rw [Lo_succ h, Nat.add_sub_cancel]
      refine right (hB.en _) (hB.en _) (hB.ortho _) (hB.ortho _) (hT.trU l c) (hT.trD l c) hw (hρ' _)
        (fun b bp y a => -k1 l c b y a) (fun b bp y a => -k1' l c b y a) (fun b bp y a => -g1 l b y a) ?_ ?_ hb hbp
      · intro b hb bp hbp x hx a ha
        rw [hk.h1 l hl c b hb x hx a ha]
      · intro b hb bp hbp x hx a ha
        rw [hk.h1' l hl c b hb x hx a ha]
  · refine right (hB.en _) (hB.en _) (hB.ortho _) (hB.ortho _) (hT.trD l c) (hT.trU l c) hw' (hρ' _)
        (fun b bp y x => -conj (k0 l c x b y)) (fun b bp y x => -conj (k0' l c x b y)) (fun b bp y x => -conj (g0 l x b y))
        ?_ ?_ hb hbp
    · intro b hb bp hbp x hx a ha
      rw [hk.h0 l hl c a ha b hb x hx]
    · intro b hb bp hbp x hx a ha
      rw [hk.h0' l hl c a ha b hb x hx]
  · refine sand (hB.en _) (hB.en _) (hB.ortho _) (hT.trD l c) (hT.trU l c) hw' (hρ' (c + 1))
        (fun b bp x xp => k1 l c x xp bp - conj (k1 l c xp x b)) (fun b bp x xp => k1' l c x xp bp - conj (k1' l c xp x b))
        (fun b bp x xp => g1 l x xp bp - conj (g1 l xp x b)) ?_ ?_ hb hbp
    · intro b hb bp hbp a ha ap hap
      rw [hk.h1 l hl c a ha ap hap bp hbp, hk.h1 l hl c ap hap a ha b hb]
    · intro b hb bp hbp a ha ap hap
      rw [hk.h1' l hl c a ha ap hap bp hbp, hk.h1' l hl c ap hap a ha b hb]

theorem Coh.S_rot {w : Nat → ℂ} {T T' : TMat} (hT : NewTba v U w T T') {k0 k1 k0' k1' : KFct}
    {g0 g1 : Nat → ℝ → ℝ → ℝ → ℂ} (hk : OfEnergies v E E' k0 k1 k0' k1' g0 g1) {ρ ρ' : Nat → Nat → Nat → ℂ} (hρ : NewDens v U ρ ρ')
    {c b bp : Nat} (hb : b ∈ v.R c) (hbp : bp ∈ v.R c) :
    Coh.S v T' k0' k1' ρ' c b bp = rot (v.R c) U (Coh.S v T k0 k1 ρ c) b bp := by
  have e : Coh.S v T k0 k1 ρ c = fun b bp => ∑ l ∈ range v.nleads, Coh.SL v T k0 k1 ρ l c b bp := by
    funext b bp; exact Coh.S_leads v T k0 k1 ρ c b bp
  rw [e, rot_sum, Coh.S_leads]
  exact sum_congr rfl fun l hl => Coh.SL_rot h hB hT hk hρ (mem_range.1 hl) hb hbp

omit hB in
/-- The equation for the transposed element. -/
theorem Coh.S_anti {T : TMat} (hT : ∀ l b c, T l b c = conj (T l c b)) (k0 k1 : KFct) {ρ : Nat → Nat → Nat → ℂ}
    (hρ : ∀ q b bp, b ∈ v.R q → bp ∈ v.R q → ρ q b bp = conj (ρ q bp b)) {c b bp : Nat} (hb : b ∈ v.R c)
    (hbp : bp ∈ v.R c) : Coh.S v T k0 k1 ρ c bp b = -conj (Coh.S v T k0 k1 ρ c b bp) := by
  have hlo : ∀ a ∈ v.Lo c, a ∈ v.R (c - 1) := by
    intro a ha
    have := h.low_mem (c := c) (a := a) (by simpa [View.Lo] using ha)
    exact (mem_R h).2 this.2.1
  rw [Coh.S_leads, Coh.S_leads, map_sum, ← sum_neg_distrib]
  refine sum_congr rfl fun l _ => ?_
  unfold Coh.SL
  simp only [map_add, map_sum, map_mul, map_sub, map_neg, Complex.conj_conj, neg_add]
  have e1 : ∀ a b c d e f : ℂ, a + b + c + d + e + f = a + d + e + b + c + f := by intros; ring
  rw [e1]
  refine congrArg₂ (· + ·) (congrArg₂ (· + ·) (congrArg₂ (· + ·) (congrArg₂ (· + ·) (congrArg₂ (· + ·) ?_ ?_) ?_) ?_) ?_) ?_
  · rw [sum_comm]
    simp only [← sum_neg_distrib]
    refine sum_congr rfl fun a ha => sum_congr rfl fun ap hap => ?_
    rw [← hT l a b, ← hT l bp ap, ← hρ _ _ _ (hlo ap hap) (hlo a ha)]
    ring
  · simp only [← sum_neg_distrib]
    refine sum_congr rfl fun y hy => sum_congr rfl fun a ha => ?_
    rw [← hT l a b, ← hT l y a, ← hρ _ _ _ hbp hy]
    ring
  · simp only [← sum_neg_distrib]
    refine sum_congr rfl fun y hy => sum_congr rfl fun a ha => ?_
    rw [← hT l a b, ← hT l y a, ← hρ _ _ _ hbp hy]
    ring
  · simp only [← sum_neg_distrib]
    refine sum_congr rfl fun y hy => sum_congr rfl fun a ha => ?_
    rw [← hT l a y, ← hT l bp a, ← hρ _ _ _ hy hb]
    ring
  · simp only [← sum_neg_distrib]
    refine sum_congr rfl fun y hy => sum_congr rfl fun a ha => ?_
    rw [← hT l a y, ← hT l bp a, ← hρ _ _ _ hy hb]
    ring
  · rw [sum_comm]
    simp only [← sum_neg_distrib]
    refine sum_congr rfl fun a ha => sum_congr rfl fun ap hap => ?_
    rw [← hT l a b, ← hT l bp ap, ← hρ _ _ _ hap ha]
    ring

omit hB in
/-- The derivative of the density matrix is `-i X`, with the right-hand side `X`. -/
theorem dens_app {m : Mat} {E : Nat → ℝ} {S : (Nat → ℝ) → Nat → Nat → Nat → ℂ}
    (rows : ∀ φ c b bp, (b, bp) ∈ combsR2 (v.row c) → la.inc c b bp = true →
        m.app φ (la.lab c b bp)
          = (((E b - E bp : ℝ) : ℂ) * dens v la φ c b bp + S φ c b bp).im ∧
        (b ≠ bp → m.app φ (v.imag (la.lab c b bp))
          = -(((E b - E bp : ℝ) : ℂ) * dens v la φ c b bp + S φ c b bp).re))
    {φ : Nat → ℝ} (anti : ∀ c b bp, b ∈ v.row c → bp ∈ v.row c → S φ c bp b = -conj (S φ c b bp))
    {c b bp : Nat} (hb : b ∈ v.row c) (hbp : bp ∈ v.row c) :
    dens v la (m.app φ) c b bp = if la.inc c b bp then
      -I * (((E b - E bp : ℝ) : ℂ) * dens v la φ c b bp + S φ c b bp) else 0 := by
  have can : ∀ b bp, (b, bp) ∈ combs2 (v.row c) → dens v la (m.app φ) c b bp = if la.inc c b bp then
      -I * (((E b - E bp : ℝ) : ℂ) * dens v la φ c b bp + S φ c b bp) else 0 := by
    intro b bp hm
    have hne : b ≠ bp := combs2_ne (h.nodup c) hm
    by_cases hi : la.inc c b bp = true
    · obtain ⟨r1, r2⟩ := rows φ c b bp (combsR2_iff.2 (Or.inl hm)) hi
      rw [if_pos hi, dens, if_pos hi, if_neg hne, if_pos (h.can_ord c b bp hm hi), r1, r2 hne]
      generalize ((E b - E bp : ℝ) : ℂ) * dens v la φ c b bp + S φ c b bp = X
      apply Complex.ext <;> simp
    · rw [if_neg hi, dens, if_neg hi]
  by_cases e : b = bp
  · subst e
    obtain ⟨r1, _⟩ := rows φ c b b (combsR2_iff.2 (Or.inr ⟨rfl, hb⟩)) (h.inc_diag c b hb)
    rw [dens, if_pos (h.inc_diag c b hb), if_pos rfl, if_pos (h.inc_diag c b hb), r1, sub_self, Complex.ofReal_zero,
      zero_mul, zero_add]
    have := congrArg Complex.re (anti c b b hb hb)
    simp only [Complex.neg_re, Complex.conj_re] at this
    apply Complex.ext <;> simp; linarith
  · rcases combs2_complete hb hbp e with hm | hm
    · exact can b bp hm
    · rw [h.dens_herm (m.app φ) hbp hb, can bp b hm, h.inc_symm c b bp hb hbp]
      split
      · rw [h.dens_herm φ hbp hb, anti c bp b hbp hb]
        simp only [map_mul, map_neg, map_add, Complex.conj_I, Complex.conj_ofReal]
        push_cast
        ring
      · simp

/-- The derivative in the new basis. -/
theorem dens_step {m m' : Mat} {S S' : (Nat → ℝ) → Nat → Nat → Nat → ℂ}
    (rows : ∀ φ c b bp, (b, bp) ∈ combsR2 (v.row c) → la.inc c b bp = true →
        m.app φ (la.lab c b bp)
          = (((E b - E bp : ℝ) : ℂ) * dens v la φ c b bp + S φ c b bp).im ∧
        (b ≠ bp → m.app φ (v.imag (la.lab c b bp))
          = -(((E b - E bp : ℝ) : ℂ) * dens v la φ c b bp + S φ c b bp).re))
    (rows' : ∀ φ c b bp, (b, bp) ∈ combsR2 (v.row c) → la.inc c b bp = true →
        m'.app φ (la.lab c b bp)
          = (((E' b - E' bp : ℝ) : ℂ) * dens v la φ c b bp + S' φ c b bp).im ∧
        (b ≠ bp → m'.app φ (v.imag (la.lab c b bp))
          = -(((E' b - E' bp : ℝ) : ℂ) * dens v la φ c b bp + S' φ c b bp).re))
    {φ φ' : Nat → ℝ} (anti : ∀ c b bp, b ∈ v.row c → bp ∈ v.row c → S φ c bp b = -conj (S φ c b bp))
    (anti' : ∀ c b bp, b ∈ v.row c → bp ∈ v.row c → S' φ' c bp b = -conj (S' φ' c b bp))
    (hρ : NewDens v U (dens v la φ) (dens v la φ'))
    (hS : ∀ c b bp, b ∈ v.row c → bp ∈ v.row c → S' φ' c b bp = rot (v.R c) U (S φ c) b bp) :
    NewDens v U (dens v la (m.app φ)) (dens v la (m'.app φ')) := by
  intro c b hb bp hbp
  rw [dens_app h rows' anti' hb hbp, hρ c b hb bp hbp, hS c b bp hb hbp]
  unfold rot View.R
  rw [mul_sum, ← sum_add_distrib, mul_sum]
  have e : ∀ y ∈ (v.row c).toFinset, ∀ yp ∈ (v.row c).toFinset,
      U b y * dens v la (m.app φ) c y yp * conj (U bp yp) = if la.inc c b bp then
        -I * (((E' b - E' bp : ℝ) : ℂ) * (U b y * dens v la φ c y yp * conj (U bp yp))
          + U b y * S φ c y yp * conj (U bp yp)) else 0 := by
    intro y hy yp hyp
    rw [List.mem_toFinset] at hy hyp
    by_cases h1 : U b y = 0
    · simp [h1]
    by_cases h2 : U bp yp = 0
    · simp [h2]
    rw [dens_app h rows anti hy hyp, hB.inc c b hb bp hbp y hy yp hyp h1 h2, hB.energy c b hb y hy h1,
      hB.energy c bp hbp yp hyp h2]
    split
    · ring
    · ring
  rw [sum_congr rfl fun y hy => sum_congr rfl fun yp hyp => e y hy yp hyp]
  split
  · refine sum_congr rfl fun y _ => ?_
    rw [mul_sum, ← sum_add_distrib, mul_sum]
  · simp

omit h in
/-- Back from the new basis. -/
theorem rot_zero {q : Nat} {F : Nat → Nat → ℂ} (hz : ∀ b ∈ v.row q, ∀ bp ∈ v.row q, rot (v.row q).toFinset U F b bp = 0)
    {y yp : Nat} (hy : y ∈ v.row q) (hyp : yp ∈ v.row q) : F y yp = 0 := by
  have o := hB.unitary q
  have e : ∑ b ∈ (v.row q).toFinset, ∑ bp ∈ (v.row q).toFinset,
      conj (U b y) * rot (v.row q).toFinset U F b bp * U bp yp = 0 :=
    sum_eq_zero fun b hb => sum_eq_zero fun bp hbp => by
      rw [hz b (List.mem_toFinset.1 hb) bp (List.mem_toFinset.1 hbp)]; ring
  have e2 : ∑ b ∈ (v.row q).toFinset, ∑ bp ∈ (v.row q).toFinset,
      conj (U b y) * rot (v.row q).toFinset U F b bp * U bp yp
      = ∑ z ∈ (v.row q).toFinset, ∑ zp ∈ (v.row q).toFinset, F z zp *
        ((∑ b ∈ (v.row q).toFinset, conj (U b y) * U b z) * ∑ bp ∈ (v.row q).toFinset, conj (U bp zp) * U bp yp) := by
    have : ∀ z zp, F z zp *
        ((∑ b ∈ (v.row q).toFinset, conj (U b y) * U b z) * ∑ bp ∈ (v.row q).toFinset, conj (U bp zp) * U bp yp) =
        ∑ b ∈ (v.row q).toFinset, ∑ bp ∈ (v.row q).toFinset, conj (U b y) * (U b z * F z zp * conj (U bp zp)) * U bp yp := by
      intro z zp
      rw [sum_mul_sum, mul_sum]
      refine sum_congr rfl fun b _ => ?_
      rw [mul_sum]
      exact sum_congr rfl fun bp _ => by ring
    rw [sum_congr rfl fun z _ => sum_congr rfl fun zp _ => this z zp]
    simp only [rot, mul_sum, sum_mul]
    rw [sum_congr rfl fun b _ => sum_comm, sum_comm]
    refine sum_congr rfl fun z _ => ?_
    rw [sum_congr rfl fun b _ => sum_comm, sum_comm]
  rw [e] at e2
  rw [sum_congr rfl fun z hz => sum_congr rfl fun zp hzp => by
    rw [o y hy z (List.mem_toFinset.1 hz), o zp (List.mem_toFinset.1 hzp) yp hyp]] at e2
  rw [sum_eq_single y, sum_eq_single yp] at e2
  · simpa using e2.symm
  · intro z _ hne; simp [hne]
  · intro hn; exact absurd (List.mem_toFinset.2 hyp) hn
  · intro z _ hne
    exact sum_eq_zero fun zp _ => by simp [Ne.symm hne]
  · intro hn; exact absurd (List.mem_toFinset.2 hy) hn

omit hB in
theorem dens_eq_zero {φ : Nat → ℝ} : (∀ q, ∀ b ∈ v.row q, ∀ bp ∈ v.row q, dens v la φ q b bp = 0) ↔
    ∀ i < v.ndm0r, φ i = 0 := by
  have hr := h.ndm0r
  constructor
  · intro hz i hi
    by_cases hk : i < v.ndm0
    · obtain ⟨c, b, bp, hb, hbp, hinc, e⟩ := h.lab_surj i hk
      have := congrArg Complex.re (hz c b hb bp hbp)
      rw [dens, if_pos hinc, e] at this
      exact this
    · obtain ⟨c, b, bp, hb, hbp, hinc, e⟩ := h.lab_surj (i - v.ndm0 + v.npauli) (by omega)
      have hne : b ≠ bp := by
        rintro rfl
        have := h.lab_diag c b hb
        omega
      have := congrArg Complex.im (hz c b hb bp hbp)
      rw [dens, if_pos hinc, if_neg hne, e] at this
      have hi : v.imag (i - v.ndm0 + v.npauli) = i := by unfold View.imag; omega
      rw [hi] at this
      simp only at this
      split at this
      · exact this
      · simpa using this
  · intro hz q b hb bp hbp
    unfold dens
    split
    · rename_i hinc
      by_cases e : b = bp
      · subst e
        have := h.lab_diag q b hb
        have := h.np_le
        rw [hz _ (by omega)]; simp [Complex.ext_iff]
      · have := h.lab_off q b bp hb hbp e hinc
        rw [hz _ (by omega), hz (v.imag _) (by unfold View.imag; omega)]
        simp [Complex.ext_iff]
    · rfl

omit hB in
/-- Every Hermitian matrix that vanishes where elements are left out is stored in some vector. -/
theorem exists_dens (ρ : Nat → Nat → Nat → ℂ)
    (herm : ∀ q b bp, b ∈ v.row q → bp ∈ v.row q → ρ q bp b = conj (ρ q b bp))
    (excl : ∀ q b bp, b ∈ v.row q → bp ∈ v.row q → la.inc q b bp = false → ρ q b bp = 0) :
    ∃ φ : Nat → ℝ, ∀ q, ∀ b ∈ v.row q, ∀ bp ∈ v.row q, dens v la φ q b bp = ρ q b bp := by
  have hs := h.lab_surj
  choose! c b bp hb hbp hinc hl using hs
  refine ⟨fun k => if k < v.ndm0 then (ρ (c k) (b k) (bp k)).re else
    let i := k - v.ndm0 + v.npauli
    if la.can (c i) (b i) (bp i) then (ρ (c i) (b i) (bp i)).im else -(ρ (c i) (b i) (bp i)).im, ?_⟩
  intro q x hx xp hxp
  unfold dens
  dsimp only
  by_cases hi : la.inc q x xp = true
  · rw [if_pos hi]
    have hlt : la.lab q x xp < v.ndm0 := by
      by_cases e : x = xp
      · subst e
        have := h.lab_diag q x hx; have := h.np_le; omega
      · exact (h.lab_off q x xp hx hxp e hi).2
    have hre : (ρ (c (la.lab q x xp)) (b (la.lab q x xp)) (bp (la.lab q x xp))).re = (ρ q x xp).re := by
      have k := la.lab q x xp
      obtain ⟨e1, e2⟩ := h.lab_inj _ _ _ q x xp (hb _ hlt) (hbp _ hlt) (hinc _ hlt) hx hxp hi (hl _ hlt)
      rcases e2 with ⟨e2, e3⟩ | ⟨e2, e3⟩
      · rw [e1, e2, e3]
      · rw [e1, e2, e3, herm q x xp hx hxp, Complex.conj_re]
    have hdiag : (ρ q x x).im = 0 := by
      have := congrArg Complex.im (herm q x x hx hx)
      simp only [Complex.conj_im] at this
      linarith
    by_cases e : x = xp
    · subst e
      rw [if_pos rfl, if_pos hlt, hre]
      apply Complex.ext
      · rfl
      · exact hdiag.symm
    · have hoff := h.lab_off q x xp hx hxp e hi
      have hk : v.imag (la.lab q x xp) - v.ndm0 + v.npauli = la.lab q x xp := by unfold View.imag; omega
      have hnl : ¬ v.imag (la.lab q x xp) < v.ndm0 := by unfold View.imag; omega
      rw [if_neg e, if_pos hlt, hre, if_neg hnl, hk]
      obtain ⟨e1, e2⟩ := h.lab_inj _ _ _ q x xp (hb _ hlt) (hbp _ hlt) (hinc _ hlt) hx hxp hi (hl _ hlt)
      apply Complex.ext
      · rfl
      · rcases e2 with ⟨e2, e3⟩ | ⟨e2, e3⟩
        · rw [e1, e2, e3]
          cases la.can q x xp <;> simp
        · rw [e1, e2, e3, h.can_off q x xp hx hxp e hi, herm q x xp hx hxp]
          cases la.can q x xp <;> simp
  · rw [if_neg hi, excl q x xp hx hxp (by simpa using hi)]

/-- The density matrix in the new basis can be stored. -/
theorem exists_new (φ : Vec) : ∃ φ' : Vec, φ'.size = v.ndm0r ∧ NewDens v U (dens v la φ.val) (dens v la φ'.val) := by
  obtain ⟨f, hf⟩ := exists_dens h (fun q => rot (v.row q).toFinset U (dens v la φ.val q))
    (fun q b bp hb hbp => by
      rw [rot_conj]
      refine rot_congr bp b fun y hy yp hyp _ _ => ?_
      exact h.dens_herm φ.val (List.mem_toFinset.1 hyp) (List.mem_toFinset.1 hy))
    (fun q b bp hb hbp hi => by
      unfold rot
      refine sum_eq_zero fun y hy => sum_eq_zero fun yp hyp => ?_
      rw [List.mem_toFinset] at hy hyp
      by_cases h1 : U b y = 0
      · simp [h1]
      by_cases h2 : U bp yp = 0
      · simp [h2]
      have : la.inc q y yp = false := by rw [← hB.inc q b hb bp hbp y hy yp hyp h1 h2, hi]
      rw [dens, this]; simp)
  exact ⟨⟨v.ndm0r, f⟩, rfl, fun q b hb bp hbp => hf q b hb bp hbp⟩

theorem trace_new {φ φ' : Nat → ℝ} (hρ : NewDens v U (dens v la φ) (dens v la φ')) :
    ∑ i ∈ range v.npauli, φ' i = ∑ i ∈ range v.npauli, φ i := by
  rw [sum_pop h, sum_pop h]
  have e : ∀ (φ : Nat → ℝ) q b, b ∈ v.R q → φ (la.lab q b b) = (dens v la φ q b b).re := by
    intro φ q b hb
    rw [dens, if_pos (h.inc_diag q b ((mem_R h).1 hb))]
  refine sum_congr rfl fun q _ => ?_
  rw [sum_congr rfl fun b hb => e φ' q b hb, sum_congr rfl fun b hb => e φ q b hb, ← Complex.re_sum, ← Complex.re_sum,
    ← rot_trace (hB.ortho q) (dens v la φ q)]
  congr 1
  exact sum_congr rfl fun b hb => hρ q b ((mem_R h).1 hb) b ((mem_R h).1 hb)

theorem zero_new {ψ ψ' : Nat → ℝ} (hρ : NewDens v U (dens v la ψ) (dens v la ψ')) :
    (∀ i < v.ndm0r, ψ i = 0) ↔ ∀ i < v.ndm0r, ψ' i = 0 := by
  rw [← dens_eq_zero h, ← dens_eq_zero h]
  constructor
  · intro hz q b hb bp hbp
    rw [hρ q b hb bp hbp]
    unfold rot
    refine sum_eq_zero fun y hy => sum_eq_zero fun yp hyp => ?_
    rw [hz q y (List.mem_toFinset.1 hy) yp (List.mem_toFinset.1 hyp)]; ring
  · intro hz q b hb bp hbp
    exact rot_zero hB (fun b hb bp hbp => by rw [← hρ q b hb bp hbp]; exact hz q b hb bp hbp) hb hbp

/-- The sums in the currents of 1vN and Redfield. -/
theorem Coh.Z_rot {w : Nat → ℂ} {T T' : TMat} (hT : NewTba v U w T T') {k0 k1 k0' k1' : KFct}
    {g0 g1 : Nat → ℝ → ℝ → ℝ → ℂ} (hk : OfEnergies v E E' k0 k1 k0' k1' g0 g1) {ρ ρ' : Nat → Nat → Nat → ℂ} (hρ : NewDens v U ρ ρ') {l : Nat} (hl : l < v.nleads) (q : Nat) :
    ∑ x ∈ v.R (q + 1), ∑ b ∈ v.R q, Coh.Z v T' k0' k1' ρ' l q x b = ∑ x ∈ v.R (q + 1), ∑ b ∈ v.R q, Coh.Z v T k0 k1 ρ l q x b := by
  have hw := hT.phase l
  have hw' : conj (w l) * w l = 1 := by rw [mul_comm]; exact hw
  have hρ' : ∀ q, ∀ a ∈ v.R q, ∀ ap ∈ v.R q, ρ' q a ap = rot (v.R q) U (ρ q) a ap := fun q a ha ap hap =>
    hρ q a ((mem_R h).1 ha) ap ((mem_R h).1 hap)
  have e : ∀ (T : TMat) (k0 k1 : KFct) (ρ : Nat → Nat → Nat → ℂ), ∑ x ∈ v.R (q + 1), ∑ b ∈ v.R q, Coh.Z v T k0 k1 ρ l q x b =
      ∑ b ∈ v.R q, ∑ y ∈ v.R q, ∑ a ∈ v.R (q + 1), T l b a * T l a y * k0 l q a b y * ρ q y b +
      ∑ b ∈ v.R q, ∑ a ∈ v.R (q + 1), ∑ ap ∈ v.R (q + 1), T l b a * T l ap b * k1 l q a ap b * ρ (q + 1) a ap := by
    intro T k0 k1 ρ
    unfold Coh.Z
    simp only [sum_add_distrib]
    refine congrArg₂ (· + ·) ?_ ?_
    · rw [sum_comm]
      refine sum_congr rfl fun b _ => ?_
      rw [sum_comm]
      exact sum_congr rfl fun y _ => sum_congr rfl fun a _ => by ring
    · rw [sum_comm]
      exact sum_congr rfl fun b _ => sum_congr rfl fun y _ => sum_congr rfl fun a _ => by ring
  rw [e, e]
  refine congrArg₂ (· + ·) ?_ ?_
  · rw [← rot_trace (hB.ortho q) fun b bp => ∑ y ∈ v.R q, ∑ a ∈ v.R (q + 1), T l b a * T l a y * k0 l q a bp y * ρ q y bp]
    refine sum_congr rfl fun b hb => ?_
    refine left (hB.en _) (hB.en _) (hB.ortho _) (hB.ortho _) (hT.trD l q) (hT.trU l q) hw' (hρ' _)
        (fun b bp y x => k0 l q x bp y) (fun b bp y x => k0' l q x bp y) (fun b bp y x => g0 l x bp y) ?_ ?_ hb hb
    · intro b hb bp hbp x hx a ha
      exact hk.h0 l hl q a ha bp hbp x hx
    · intro b hb bp hbp x hx a ha
      exact hk.h0' l hl q a ha bp hbp x hx
  · rw [← rot_trace (hB.ortho q) fun b bp => ∑ a ∈ v.R (q + 1), ∑ ap ∈ v.R (q + 1),
      T l b a * T l ap bp * k1 l q a ap bp * ρ (q + 1) a ap]
    refine sum_congr rfl fun b hb => ?_
    refine sand (hB.en _) (hB.en _) (hB.ortho _) (hT.trD l q) (hT.trU l q) hw' (hρ' (q + 1))
        (fun b bp x xp => k1 l q x xp bp) (fun b bp x xp => k1' l q x xp bp) (fun b bp x xp => g1 l x xp bp) ?_ ?_ hb hb
    · intro b hb bp hbp a ha ap hap
      exact hk.h1 l hl q a ha ap hap bp hbp
    · intro b hb bp hbp a ha ap hap
      exact hk.h1' l hl q a ha ap hap bp hbp

omit hB in
theorem Coh.cur_sum (Z : Nat → Nat → Nat → ℂ) : ∑ q ∈ range (v.ncharge - 1), ∑ c ∈ v.R (q + 1), ∑ b ∈ v.R q, -2 * (Z q c b).im =
    ∑ q ∈ range (v.ncharge - 1), -2 * (∑ c ∈ v.R (q + 1), ∑ b ∈ v.R q, Z q c b).im := by
  refine sum_congr rfl fun q _ => ?_
  simp only [Complex.im_sum, mul_sum]

omit hB in
theorem Coh.S_anti' {T : TMat} (hT : ∀ l b c, T l b c = conj (T l c b)) (k0 k1 : KFct) (φ : Nat → ℝ) (c b bp : Nat)
    (hb : b ∈ v.row c) (hbp : bp ∈ v.row c) :
    Coh.S v T k0 k1 (dens v la φ) c bp b = -conj (Coh.S v T k0 k1 (dens v la φ) c b bp) := by
  apply Coh.S_anti h hT
  · intro q b bp hb hbp
    exact h.dens_herm φ ((mem_R h).1 hbp) ((mem_R h).1 hb)
  · exact (mem_R h).2 hb
  · exact (mem_R h).2 hbp

theorem Coh.S_rot' {w : Nat → ℂ} {T T' : TMat} (hT : NewTba v U w T T') {k0 k1 k0' k1' : KFct}
    {g0 g1 : Nat → ℝ → ℝ → ℝ → ℂ} (hk : OfEnergies v E E' k0 k1 k0' k1' g0 g1) {φ φ' : Nat → ℝ} (hρ : NewDens v U (dens v la φ) (dens v la φ')) (c b bp : Nat)
    (hb : b ∈ v.row c) (hbp : bp ∈ v.row c) :
    Coh.S v T' k0' k1' (dens v la φ') c b bp = rot (v.R c) U (Coh.S v T k0 k1 (dens v la φ) c) b bp := by
  apply Coh.S_rot h hB hT hk hρ
  · exact (mem_R h).2 hb
  · exact (mem_R h).2 hbp

/-- The common part of the proofs for 1vN and Redfield. -/
theorem Coh.same {w : Nat → ℂ} {T T' : TMat} (hH : ∀ l b c, T l b c = conj (T l c b))
    (hH' : ∀ l b c, T' l b c = conj (T' l c b)) (hT : NewTba v U w T T') {k0 k1 e0 e1 k0' k1' e0' e1' : KFct}
    {g0 g1 i0 i1 : Nat → ℝ → ℝ → ℝ → ℂ} (hk : OfEnergies v E E' k0 k1 k0' k1' g0 g1)
    (he : OfEnergies v E E' e0 e1 e0' e1' i0 i1) {m m' : Mat} (hc : m.cols = v.ndm0r)
    (hc' : m'.cols = v.ndm0r)
    (rows : ∀ φ c b bp, (b, bp) ∈ combsR2 (v.row c) → la.inc c b bp = true →
        m.app φ (la.lab c b bp)
          = (((E b - E bp : ℝ) : ℂ) * dens v la φ c b bp + Coh.S v T k0 k1 (dens v la φ) c b bp).im ∧
        (b ≠ bp → m.app φ (v.imag (la.lab c b bp))
          = -(((E b - E bp : ℝ) : ℂ) * dens v la φ c b bp + Coh.S v T k0 k1 (dens v la φ) c b bp).re))
    (rows' : ∀ φ c b bp, (b, bp) ∈ combsR2 (v.row c) → la.inc c b bp = true →
        m'.app φ (la.lab c b bp)
          = (((E' b - E' bp : ℝ) : ℂ) * dens v la φ c b bp + Coh.S v T' k0' k1' (dens v la φ) c b bp).im ∧
        (b ≠ bp → m'.app φ (v.imag (la.lab c b bp))
          = -(((E' b - E' bp : ℝ) : ℂ) * dens v la φ c b bp + Coh.S v T' k0' k1' (dens v la φ) c b bp).re))
    {cur cur' : Vec → Py (List CEv)}
    (hcur : ∀ φ : Vec, φ.size = v.ndm0r → ∃ evs, cur φ = .ok evs ∧ ∀ l < v.nleads,
      current evs l = ∑ q ∈ range (v.ncharge - 1), ∑ c ∈ v.R (q + 1), ∑ b ∈ v.R q,
          -2 * (Coh.Z v T k0 k1 (dens v la φ.val) l q c b).im ∧
      energyCurrent evs l = ∑ q ∈ range (v.ncharge - 1), ∑ c ∈ v.R (q + 1), ∑ b ∈ v.R q,
          -2 * (Coh.Z v T e0 e1 (dens v la φ.val) l q c b).im)
    (hcur' : ∀ φ : Vec, φ.size = v.ndm0r → ∃ evs, cur' φ = .ok evs ∧ ∀ l < v.nleads,
      current evs l = ∑ q ∈ range (v.ncharge - 1), ∑ c ∈ v.R (q + 1), ∑ b ∈ v.R q,
          -2 * (Coh.Z v T' k0' k1' (dens v la φ.val) l q c b).im ∧
      energyCurrent evs l = ∑ q ∈ range (v.ncharge - 1), ∑ c ∈ v.R (q + 1), ∑ b ∈ v.R q,
          -2 * (Coh.Z v T' e0' e1' (dens v la φ.val) l q c b).im) :
    SameUpTo v la U m m' cur cur' := by
  have hstep : ∀ φ φ' : Vec, NewDens v U (dens v la φ.val) (dens v la φ'.val) →
      NewDens v U (dens v la fun i => ∑ j ∈ range v.ndm0r, m.val i j * φ.val j)
        (dens v la fun i => ∑ j ∈ range v.ndm0r, m'.val i j * φ'.val j) := by
    intro φ φ' hρ
    have := dens_step h hB (S := fun φ => Coh.S v T k0 k1 (dens v la φ)) (S' := fun φ => Coh.S v T' k0' k1' (dens v la φ))
      rows rows' (φ := φ.val) (φ' := φ'.val) (Coh.S_anti' h hH k0 k1 _) (Coh.S_anti' h hH' k0' k1' _) hρ (Coh.S_rot' h hB hT hk hρ)
    unfold Mat.app at this
    rw [hc, hc'] at this
    exact this
  refine ⟨exists_new h hB, fun φ φ' hρ => trace_new h hB hρ, hstep, fun φ φ' hρ => zero_new h hB (hstep φ φ' hρ), ?_⟩
  intro φ φ' hs hs' hρ
  obtain ⟨evs, g, ge⟩ := hcur φ hs
  obtain ⟨evs', g', ge'⟩ := hcur' φ' hs'
  refine ⟨evs, evs', g, g', fun l hl => ?_⟩
  rw [(ge l hl).1, (ge l hl).2, (ge' l hl).1, (ge' l hl).2]
  simp only [Coh.cur_sum h]
  constructor
  · exact sum_congr rfl fun q _ => by rw [Coh.Z_rot h hB hT hk hρ hl q]
  · exact sum_congr rfl fun q _ => by rw [Coh.Z_rot h hB hT he hρ hl q]

/-- The integrals as a function of the energies of the two states. -/
def ampOf (lib : NumLib) (L : Leads) (l : Nat) (ex eb : ℝ) : Amp := amp1vN lib (fun b => if b = 0 then ex else eb) L l 0 1

omit h hB in
theorem amp1vN_of (lib : NumLib) (E : Nat → ℝ) (L : Leads) (l x b : Nat) :
    amp1vN lib E L l x b = ampOf lib L l (E x) (E b) := rfl

omit h hB in
theorem amp1vN_energy (lib : NumLib) (E : Nat → ℝ) (L : Leads) (l : Nat) {x x' b b' : Nat} (hx : E x = E x') (hb : E b = E b') :
    amp1vN lib E L l x b = amp1vN lib E L l x' b' := by
  unfold amp1vN; rw [hx, hb]

/-- **C81** for 1vN: the two calculations give the same results up to the change of the basis. -/
theorem c81_1vN (symq : Bool) (lib : NumLib) {w : Nat → ℂ} (L : Leads) (hH : ∀ l b c, L.Tba l b c = conj (L.Tba l c b))
    {T' : Nat → Nat → Nat → ℂ} (hH' : ∀ l b c, T' l b c = conj (T' l c b)) (hT : NewTba v U w L.Tba T') :
    ∃ f f' m m', genFct1vN v lib E L = .ok f ∧ genFct1vN v lib E' { L with Tba := T' } = .ok f' ∧
      VN1.kernel v symq E L.Tba f = .ok m ∧ VN1.kernel v symq E' T' f' = .ok m' ∧
      SameUpTo v la U m m' (fun φ => List.map (·.ev) <$> VN1.genCurrent v L.Tba f φ)
        (fun φ => List.map (·.ev) <$> VN1.genCurrent v T' f' φ) := by
  obtain ⟨f, gf, hf⟩ := fillFct_ok h (⟨0, 0, 0, 0⟩ : Amp) (amp1vN lib E L)
  obtain ⟨f', gf', hf'⟩ := fillFct_ok h (⟨0, 0, 0, 0⟩ : Amp) (amp1vN lib E' L)
  obtain ⟨m, g, hc, _, rows⟩ := assemble_rows h symq E (VN1.coup v L.Tba f) _
    (fun c b bp hb hbp hi => VN1.coup_ok h L.Tba f hb hbp hi)
  obtain ⟨m', g', hc', _, rows'⟩ := assemble_rows h symq E' (VN1.coup v T' f') _
    (fun c b bp hb hbp hi => VN1.coup_ok h T' f' hb hbp hi)
  have z : ∀ p0 p1 : Amp → ℂ, OfEnergies v E E' (fun l q x b _ => p0 (f l (la.ix1 q x b)))
      (fun l q x _ b => p1 (f l (la.ix1 q x b))) (fun l q x b _ => p0 (f' l (la.ix1 q x b)))
      (fun l q x _ b => p1 (f' l (la.ix1 q x b))) (fun l ex eb _ => p0 (ampOf lib L l ex eb))
      (fun l ex _ eb => p1 (ampOf lib L l ex eb)) := by
    intro p0 p1
    refine ⟨?_, ?_, ?_, ?_⟩
    · intro l hl q x hx b hb bp _
      dsimp only; rw [hf q x b l ((mem_R h).1 hx) ((mem_R h).1 hb) hl, amp1vN_of]
    · intro l hl q x hx xp _ b hb
      dsimp only; rw [hf q x b l ((mem_R h).1 hx) ((mem_R h).1 hb) hl, amp1vN_of]
    · intro l hl q x hx b hb bp _
      dsimp only; rw [hf' q x b l ((mem_R h).1 hx) ((mem_R h).1 hb) hl, amp1vN_of]
    · intro l hl q x hx xp _ b hb
      dsimp only; rw [hf' q x b l ((mem_R h).1 hx) ((mem_R h).1 hb) hl, amp1vN_of]
  refine ⟨f, f', m, m', gf, gf', g, g', Coh.same h hB hH hH' hT (z (·.cur0) (·.cur1)) (z (·.en0) (·.en1)) hc hc'
    rows rows' ?_ ?_⟩
  · intro φ hs
    obtain ⟨evs, ge, _, hev⟩ := VN1.genCurrent_ok h L.Tba f φ (by omega)
    exact ⟨evs.map (·.ev), by rw [ge]; rfl, hev⟩
  · intro φ hs
    obtain ⟨evs, ge, _, hev⟩ := VN1.genCurrent_ok h T' f' φ (by omega)
    exact ⟨evs.map (·.ev), by rw [ge]; rfl, hev⟩

/-- **C81** for Redfield. -/
theorem c81_redfield (symq : Bool) (lib : NumLib) {w : Nat → ℂ} (L : Leads)
    (hH : ∀ l b c, L.Tba l b c = conj (L.Tba l c b)) {T' : Nat → Nat → Nat → ℂ}
    (hH' : ∀ l b c, T' l b c = conj (T' l c b)) (hT : NewTba v U w L.Tba T') :
    ∃ f f' m m', genFct1vN v lib E L = .ok f ∧ genFct1vN v lib E' { L with Tba := T' } = .ok f' ∧
      Redfield.kernel v symq E L.Tba f = .ok m ∧ Redfield.kernel v symq E' T' f' = .ok m' ∧
      SameUpTo v la U m m' (fun φ => List.map (·.ev) <$> Redfield.genCurrent v L.Tba f φ)
        (fun φ => List.map (·.ev) <$> Redfield.genCurrent v T' f' φ) := by
  obtain ⟨f, gf, hf⟩ := fillFct_ok h (⟨0, 0, 0, 0⟩ : Amp) (amp1vN lib E L)
  obtain ⟨f', gf', hf'⟩ := fillFct_ok h (⟨0, 0, 0, 0⟩ : Amp) (amp1vN lib E' L)
  obtain ⟨m, g, hc, _, rows⟩ := assemble_rows h symq E (Redfield.coup v L.Tba f) _
    (fun c b bp hb hbp hi => Redfield.coup_ok h L.Tba f hb hbp hi)
  obtain ⟨m', g', hc', _, rows'⟩ := assemble_rows h symq E' (Redfield.coup v T' f') _
    (fun c b bp hb hbp hi => Redfield.coup_ok h T' f' hb hbp hi)
  have z : ∀ p0 p1 : Amp → ℂ, OfEnergies v E E' (fun l q x _ bp => p0 (f l (la.ix1 q x bp)))
      (fun l q _ xp b => p1 (f l (la.ix1 q xp b))) (fun l q x _ bp => p0 (f' l (la.ix1 q x bp)))
      (fun l q _ xp b => p1 (f' l (la.ix1 q xp b))) (fun l ex _ eb => p0 (ampOf lib L l ex eb))
      (fun l _ ex eb => p1 (ampOf lib L l ex eb)) := by
    intro p0 p1
    refine ⟨?_, ?_, ?_, ?_⟩
    · intro l hl q x hx b _ bp hbp
      dsimp only; rw [hf q x bp l ((mem_R h).1 hx) ((mem_R h).1 hbp) hl, amp1vN_of]
    · intro l hl q x _ xp hxp b hb
      dsimp only; rw [hf q xp b l ((mem_R h).1 hxp) ((mem_R h).1 hb) hl, amp1vN_of]
    · intro l hl q x hx b _ bp hbp
      dsimp only; rw [hf' q x bp l ((mem_R h).1 hx) ((mem_R h).1 hbp) hl, amp1vN_of]
    · intro l hl q x _ xp hxp b hb
      dsimp only; rw [hf' q xp b l ((mem_R h).1 hxp) ((mem_R h).1 hb) hl, amp1vN_of]
  refine ⟨f, f', m, m', gf, gf', g, g', Coh.same h hB hH hH' hT (z (·.cur0) (·.cur1)) (z (·.en0) (·.en1)) hc hc'
    rows rows' ?_ ?_⟩
  · intro φ hs
    obtain ⟨evs, ge, _, hev⟩ := Redfield.genCurrent_ok h L.Tba f φ (by omega)
    exact ⟨evs.map (·.ev), by rw [ge]; rfl, hev⟩
  · intro φ hs
    obtain ⟨evs, ge, _, hev⟩ := Redfield.genCurrent_ok h T' f' φ (by omega)
    exact ⟨evs.map (·.ev), by rw [ge]; rfl, hev⟩

omit h hB in
theorem Lindblad.S_leads' (t : TMat) (ρ : Nat → Nat → Nat → ℂ) (c b bp : Nat) :
    Lindblad.S v t ρ c b bp = ∑ l ∈ range v.nleads, Lindblad.SL v t ρ l c b bp := by
  have hA : ∀ (P : Finset Nat) (q : Nat), ∑ a ∈ P, ∑ ap ∈ P, I * (∑ l ∈ range v.nleads, t l b a * conj (t l bp ap)) * ρ q a ap =
      ∑ l ∈ range v.nleads, ∑ a ∈ P, ∑ ap ∈ P, t l b a * conj (t l bp ap) * I * ρ q a ap := by
    intro P q
    rw [sum_comm (s := range v.nleads)]
    refine sum_congr rfl fun a _ => ?_
    rw [sum_comm (s := range v.nleads)]
    refine sum_congr rfl fun ap _ => ?_
    rw [mul_sum, sum_mul]
    exact sum_congr rfl fun l _ => by ring
  have hK : ∀ (P : Finset Nat) (x y : Nat) (z : ℂ), I * (∑ a ∈ P, ∑ l ∈ range v.nleads, -(1 / 2) * conj (t l a x) * t l a y) * z =
      ∑ l ∈ range v.nleads, ∑ a ∈ P, conj (t l a x) * t l a y * (-(1 / 2) * I) * z := by
    intro P x y z
    rw [sum_comm (s := range v.nleads), mul_sum, sum_mul]
    refine sum_congr rfl fun a _ => ?_
    rw [mul_sum, sum_mul]
    exact sum_congr rfl fun l _ => by ring
  unfold Lindblad.S Lindblad.SL
  rw [hA, hA]
  simp only [Lindblad.K, mul_add, add_mul, hK, sum_add_distrib]
  rw [sum_comm (s := v.R c), sum_comm (s := v.R c), sum_comm (s := v.R c), sum_comm (s := v.R c)]
  ring

omit hB in
theorem Lindblad.S_leads (t : TMat) (ρ : Nat → Nat → Nat → ℂ) (c b bp : Nat) :
    Lindblad.S v t ρ c b bp = ∑ l ∈ range v.nleads, Lindblad.SL v t ρ l c b bp :=
  Lindblad.S_leads' t ρ c b bp

theorem Lindblad.SL_rot {w : Nat → ℂ} {T T' : TMat} (hT : NewTba v U w T T') {ρ ρ' : Nat → Nat → Nat → ℂ}
    (hρ : NewDens v U ρ ρ') (l : Nat) {c b bp : Nat} (hb : b ∈ v.R c) (hbp : bp ∈ v.R c) :
    Lindblad.SL v T' ρ' l c b bp = rot (v.R c) U (Lindblad.SL v T ρ l c) b bp := by
  have hw := hT.phase l
  have hw' : conj (w l) * w l = 1 := by rw [mul_comm]; exact hw
  have hw2 : conj (w l) * conj (conj (w l)) = 1 := by rw [Complex.conj_conj]; exact hw'
  have hw3 : conj (conj (w l)) * conj (w l) = 1 := by rw [Complex.conj_conj]; exact hw
  have hρ' : ∀ q, ∀ a ∈ v.R q, ∀ ap ∈ v.R q, ρ' q a ap = rot (v.R q) U (ρ q) a ap := fun q a ha ap hap =>
    hρ q a (by simpa [View.R] using ha) ap (by simpa [View.R] using hap)
  unfold Lindblad.SL
  rw [rot_add, rot_add, rot_add, rot_add, rot_add]
  refine congrArg₂ (· + ·) (congrArg₂ (· + ·) (congrArg₂ (· + ·) (congrArg₂ (· + ·) (congrArg₂ (· + ·) ?_ ?_) ?_) ?_) ?_) ?_
  · rcases c with _ | c
    · rw [Lo_zero h]; simp [rot]
    · rw [Lo_succ h, Nat.add_sub_cancel]
      exact sand (hB.en _) (hB.en _) (hB.ortho _) (hT.trU l c) (hT.trU l c).dagger hw (hρ' c) (fun _ _ _ _ => I) (fun _ _ _ _ => I) (fun _ _ _ _ => I)
        (fun _ _ _ _ _ _ _ _ => rfl) (fun _ _ _ _ _ _ _ _ => rfl) hb hbp
  · rcases c with _ | c
    · rw [Lo_zero h]; simp [rot]
    · rw [Lo_succ h]
      exact left (hB.en _) (hB.en _) (hB.ortho _) (hB.ortho _) (hT.trD l c).dagger (hT.trD l c) hw3 (hρ' _)
        (fun _ _ _ _ => -(1 / 2) * I) (fun _ _ _ _ => -(1 / 2) * I) (fun _ _ _ _ => -(1 / 2) * I)
        (fun _ _ _ _ _ _ _ _ => rfl) (fun _ _ _ _ _ _ _ _ => rfl) hb hbp
  · exact left (hB.en _) (hB.en _) (hB.ortho _) (hB.ortho _) (hT.trU l c).dagger (hT.trU l c) hw' (hρ' _)
        (fun _ _ _ _ => -(1 / 2) * I) (fun _ _ _ _ => -(1 / 2) * I) (fun _ _ _ _ => -(1 / 2) * I)
        (fun _ _ _ _ _ _ _ _ => rfl) (fun _ _ _ _ _ _ _ _ => rfl) hb hbp
  · rcases c with _ | c
    · rw [Lo_zero h]; simp [rot]
    · rw [Lo_succ h]
      exact right (hB.en _) (hB.en _) (hB.ortho _) (hB.ortho _) (hT.trD l c).dagger (hT.trD l c) hw3 (hρ' _)
        (fun _ _ _ _ => -(1 / 2) * I) (fun _ _ _ _ => -(1 / 2) * I) (fun _ _ _ _ => -(1 / 2) * I)
        (fun _ _ _ _ _ _ _ _ => rfl) (fun _ _ _ _ _ _ _ _ => rfl) hb hbp
  · exact right (hB.en _) (hB.en _) (hB.ortho _) (hB.ortho _) (hT.trU l c).dagger (hT.trU l c) hw' (hρ' _)
        (fun _ _ _ _ => -(1 / 2) * I) (fun _ _ _ _ => -(1 / 2) * I) (fun _ _ _ _ => -(1 / 2) * I)
        (fun _ _ _ _ _ _ _ _ => rfl) (fun _ _ _ _ _ _ _ _ => rfl) hb hbp
  · exact sand (hB.en _) (hB.en _) (hB.ortho _) (hT.trD l c) (hT.trD l c).dagger hw2 (hρ' (c + 1)) (fun _ _ _ _ => I) (fun _ _ _ _ => I) (fun _ _ _ _ => I)
        (fun _ _ _ _ _ _ _ _ => rfl) (fun _ _ _ _ _ _ _ _ => rfl) hb hbp

theorem Lindblad.S_rot {w : Nat → ℂ} {T T' : TMat} (hT : NewTba v U w T T') {φ φ' : Nat → ℝ}
    (hρ : NewDens v U (dens v la φ) (dens v la φ')) (c b bp : Nat) (hb : b ∈ v.row c) (hbp : bp ∈ v.row c) :
    Lindblad.S v T' (dens v la φ') c b bp = rot (v.R c) U (Lindblad.S v T (dens v la φ) c) b bp := by
  have e : Lindblad.S v T (dens v la φ) c = fun b bp => ∑ l ∈ range v.nleads, Lindblad.SL v T (dens v la φ) l c b bp := by
    funext b bp; exact Lindblad.S_leads h T _ c b bp
  rw [e, rot_sum, Lindblad.S_leads h]
  exact sum_congr rfl fun l _ => Lindblad.SL_rot h hB hT hρ l ((mem_R h).2 hb) ((mem_R h).2 hbp)

omit hB in
theorem Lindblad.S_anti (t : TMat) (φ : Nat → ℝ) (c b bp : Nat) (hb : b ∈ v.row c) (hbp : bp ∈ v.row c) :
    Lindblad.S v t (dens v la φ) c bp b = -conj (Lindblad.S v t (dens v la φ) c b bp) := by
  have hρ : ∀ q, ∀ x ∈ v.R q, ∀ y ∈ v.R q, conj (dens v la φ q x y) = dens v la φ q y x := fun q x hx y hy =>
    (h.dens_herm φ ((mem_R h).1 hx) ((mem_R h).1 hy)).symm
  have hlo : ∀ a ∈ v.Lo c, a ∈ v.R (c - 1) := by
    intro a ha
    have := h.low_mem (c := c) (a := a) (by simpa [View.Lo] using ha)
    exact (mem_R h).2 this.2.1
  have hb' := (mem_R h).2 hb
  have hbp' := (mem_R h).2 hbp
  rw [Lindblad.S_leads h, Lindblad.S_leads h, map_sum, ← sum_neg_distrib]
  refine sum_congr rfl fun l _ => ?_
  unfold Lindblad.SL
  simp only [map_add, map_sum, map_mul, map_neg, Complex.conj_conj, neg_add, Complex.conj_I, map_div₀, map_one, map_ofNat]
  have e1 : ∀ a b c d e f : ℂ, a + b + c + d + e + f = a + d + e + b + c + f := by intros; ring
  rw [e1]
  refine congrArg₂ (· + ·) (congrArg₂ (· + ·) (congrArg₂ (· + ·) (congrArg₂ (· + ·) (congrArg₂ (· + ·) ?_ ?_) ?_) ?_) ?_) ?_
  · rw [sum_comm]
    simp only [← sum_neg_distrib]
    refine sum_congr rfl fun a ha => sum_congr rfl fun ap hap => ?_
    rw [hρ _ _ (hlo a ha) _ (hlo ap hap)]
    ring
  · simp only [← sum_neg_distrib]
    refine sum_congr rfl fun y hy => sum_congr rfl fun a ha => ?_
    rw [hρ _ _ hy _ hbp']
    ring
  · simp only [← sum_neg_distrib]
    refine sum_congr rfl fun y hy => sum_congr rfl fun a ha => ?_
    rw [hρ _ _ hy _ hbp']
    ring
  · simp only [← sum_neg_distrib]
    refine sum_congr rfl fun y hy => sum_congr rfl fun a ha => ?_
    rw [hρ _ _ hb' _ hy]
    ring
  · simp only [← sum_neg_distrib]
    refine sum_congr rfl fun y hy => sum_congr rfl fun a ha => ?_
    rw [hρ _ _ hb' _ hy]
    ring
  · rw [sum_comm]
    simp only [← sum_neg_distrib]
    refine sum_congr rfl fun a ha => sum_congr rfl fun ap hap => ?_
    rw [hρ _ _ ha _ hap]
    ring

theorem Lindblad.flow_rot {w : Nat → ℂ} {T T' : TMat} (hT : NewTba v U w T T') {ρ ρ' : Nat → Nat → Nat → ℂ}
    (hρ : NewDens v U ρ ρ') (l : Nat) (i : Nat → ℝ → ℂ) :
    Lindblad.flow v T' ρ' (fun q b => i q (E' b)) l = Lindblad.flow v T ρ (fun q b => i q (E b)) l := by
  have hw := hT.phase l
  have hw' : conj (w l) * w l = 1 := by rw [mul_comm]; exact hw
  have hw2 : conj (w l) * conj (conj (w l)) = 1 := by rw [Complex.conj_conj]; exact hw'
  have hρ' : ∀ q, ∀ a ∈ v.R q, ∀ ap ∈ v.R q, ρ' q a ap = rot (v.R q) U (ρ q) a ap := fun q a ha ap hap =>
    hρ q a (by simpa [View.R] using ha) ap (by simpa [View.R] using hap)
  have e : ∀ (g : Nat → Nat → ℂ) (T : TMat) (ρ : Nat → Nat → Nat → ℂ) (q : Nat), ∑ x ∈ v.R (q + 1), ∑ b ∈ v.R q,
      (∑ xp ∈ v.R (q + 1), (g q b - 1 / 2 * (g (q + 1) x + g (q + 1) xp)) * Lindblad.P T ρ l (q + 1) b x xp +
      ∑ bp ∈ v.R q, (g (q + 1) x - 1 / 2 * (g q b + g q bp)) * Lindblad.P T ρ l q x b bp) =
      ∑ b ∈ v.R q, ∑ a ∈ v.R (q + 1), ∑ ap ∈ v.R (q + 1),
        T l b a * conj (T l b ap) * (g q b - 1 / 2 * (g (q + 1) a + g (q + 1) ap)) * ρ (q + 1) a ap +
      ∑ b ∈ v.R (q + 1), ∑ a ∈ v.R q, ∑ ap ∈ v.R q,
        T l b a * conj (T l b ap) * (g (q + 1) b - 1 / 2 * (g q a + g q ap)) * ρ q a ap := by
    intro g T ρ q
    unfold Lindblad.P
    simp only [sum_add_distrib]
    refine congrArg₂ (· + ·) ?_ ?_
    · rw [sum_comm]
      exact sum_congr rfl fun b _ => sum_congr rfl fun y _ => sum_congr rfl fun a _ => by ring
    · exact sum_congr rfl fun b _ => sum_congr rfl fun y _ => sum_congr rfl fun a _ => by ring
  unfold Lindblad.flow
  refine sum_congr rfl fun q _ => ?_
  rw [e (fun q b => i q (E' b)), e (fun q b => i q (E b))]
  refine congrArg₂ (· + ·) ?_ ?_
  · rw [← rot_trace (hB.ortho q) fun b bp => ∑ a ∈ v.R (q + 1), ∑ ap ∈ v.R (q + 1),
        T l b a * conj (T l bp ap) * (i q (E b) - 1 / 2 * (i (q + 1) (E a) + i (q + 1) (E ap))) * ρ (q + 1) a ap]
    refine sum_congr rfl fun b hb => ?_
    refine sand (hB.en _) (hB.en _) (hB.ortho _) (hT.trD l q) (hT.trD l q).dagger hw2 (hρ' (q + 1))
        _ _ (fun b _ a ap => i q b - 1 / 2 * (i (q + 1) a + i (q + 1) ap))
        (fun _ _ _ _ _ _ _ _ => rfl) (fun _ _ _ _ _ _ _ _ => rfl) hb hb
  · rw [← rot_trace (hB.ortho (q + 1)) fun b bp => ∑ a ∈ v.R q, ∑ ap ∈ v.R q,
        T l b a * conj (T l bp ap) * (i (q + 1) (E b) - 1 / 2 * (i q (E a) + i q (E ap))) * ρ q a ap]
    refine sum_congr rfl fun b hb => ?_
    refine sand (hB.en _) (hB.en _) (hB.ortho _) (hT.trU l q) (hT.trU l q).dagger hw (hρ' q)
        _ _ (fun b _ a ap => i (q + 1) b - 1 / 2 * (i q a + i q ap))
        (fun _ _ _ _ _ _ _ _ => rfl) (fun _ _ _ _ _ _ _ _ => rfl) hb hb

/-- The jump matrices in the new basis. -/
theorem Lindblad.jump_rot {w : Nat → ℂ} {L : Leads} {T' t t' : TMat} (hT : NewTba v U w L.Tba T')
    (ht : ∀ q x b l, x ∈ v.row (q + 1) → b ∈ v.row q → l < v.nleads →
      t l x b = Real.sqrt (funcPauli (E x - E b) (L.mu l) (L.T l) (L.Dm l) (L.Dp l) L.itype).1
        * L.Tba l x b ∧
      t l b x = Real.sqrt (funcPauli (E x - E b) (L.mu l) (L.T l) (L.Dm l) (L.Dp l) L.itype).2
        * L.Tba l b x)
    (ht' : ∀ q x b l, x ∈ v.row (q + 1) → b ∈ v.row q → l < v.nleads →
      t' l x b = Real.sqrt (funcPauli (E' x - E' b) (L.mu l) (L.T l) (L.Dm l) (L.Dp l) L.itype).1
        * T' l x b ∧
      t' l b x = Real.sqrt (funcPauli (E' x - E' b) (L.mu l) (L.T l) (L.Dm l) (L.Dp l) L.itype).2
        * T' l b x) :
    NewTba v U w (fun l b c => if l < v.nleads then t l b c else 0) (fun l b c => if l < v.nleads then t' l b c else 0) := by
  refine ⟨hT.phase, ?_, ?_⟩
  · intro l q c hc b hb
    by_cases hl : l < v.nleads
    · simp only [if_pos hl]
      have k := (hT.trU l q).weight
        (fun x b => ((Real.sqrt (funcPauli (E x - E b) (L.mu l) (L.T l) (L.Dm l) (L.Dp l) L.itype).1 : ℝ) : ℂ))
        (fun x b => ((Real.sqrt (funcPauli (E' x - E' b) (L.mu l) (L.T l) (L.Dm l) (L.Dp l) L.itype).1 : ℝ) : ℂ))
        (fun b hb y hy a ha z hz h1 h2 => by rw [hB.en _ b hb y hy h1, hB.en _ a ha z hz h2])
        c ((mem_R h).2 hc) b ((mem_R h).2 hb)
      rw [(ht' q c b l hc hb hl).1]
      refine k.trans ?_
      congr 1
      refine sum_congr rfl fun y hy => sum_congr rfl fun z hz => ?_
      rw [(ht q y z l ((mem_R h).1 hy) ((mem_R h).1 hz) hl).1]
    · simp [if_neg hl]
  · intro l q c hc b hb
    by_cases hl : l < v.nleads
    · simp only [if_pos hl]
      have k := (hT.trD l q).weight
        (fun b x => ((Real.sqrt (funcPauli (E x - E b) (L.mu l) (L.T l) (L.Dm l) (L.Dp l) L.itype).2 : ℝ) : ℂ))
        (fun b x => ((Real.sqrt (funcPauli (E' x - E' b) (L.mu l) (L.T l) (L.Dm l) (L.Dp l) L.itype).2 : ℝ) : ℂ))
        (fun b hb y hy a ha z hz h1 h2 => by rw [hB.en _ b hb y hy h1, hB.en _ a ha z hz h2])
        b ((mem_R h).2 hb) c ((mem_R h).2 hc)
      rw [(ht' q c b l hc hb hl).2]
      refine k.trans ?_
      congr 1
      refine sum_congr rfl fun z hz => sum_congr rfl fun y hy => ?_
      rw [(ht q y z l ((mem_R h).1 hy) ((mem_R h).1 hz) hl).2]
    · simp [if_neg hl]

omit h hB in
theorem Lindblad.S_lt (t : TMat) : Lindblad.S v (fun l b c => if l < v.nleads then t l b c else 0) = Lindblad.S v t := by
  have e : ∀ (f : Nat → ℂ) (g : Nat → ℂ), (∀ l < v.nleads, f l = g l) → ∑ l ∈ range v.nleads, f l = ∑ l ∈ range v.nleads, g l :=
    fun f g hfg => sum_congr rfl fun l hl => hfg l (mem_range.1 hl)
  funext ρ c b bp
  unfold Lindblad.S Lindblad.K
  have e1 : ∀ x y, ∑ l ∈ range v.nleads, (if l < v.nleads then t l b x else 0) * conj (if l < v.nleads then t l bp y else 0) =
      ∑ l ∈ range v.nleads, t l b x * conj (t l bp y) := fun x y => e _ _ fun l hl => by simp [hl]
  have e2 : ∀ a x y, ∑ l ∈ range v.nleads, -(1 / 2) * conj (if l < v.nleads then t l a x else 0) *
      (if l < v.nleads then t l a y else 0) = ∑ l ∈ range v.nleads, -(1 / 2) * conj (t l a x) * t l a y :=
    fun a x y => e _ _ fun l hl => by simp [hl]
  simp only [e1, e2]

omit h hB in
theorem Lindblad.flow_lt (t : TMat) (ρ : Nat → Nat → Nat → ℂ) (g : Nat → Nat → ℂ) {l : Nat} (hl : l < v.nleads) :
    Lindblad.flow v (fun l b c => if l < v.nleads then t l b c else 0) ρ g l = Lindblad.flow v t ρ g l := by
  unfold Lindblad.flow Lindblad.P
  simp only [if_pos hl]

/-- **C81** for Lindblad, with the jump matrices of both bases. -/
theorem c81_lindblad (symq : Bool) {w : Nat → ℂ} (L : Leads) {T' : Nat → Nat → Nat → ℂ} (hT : NewTba v U w L.Tba T') :
    ∃ t t' m m', Lindblad.genFct v E L = .ok t ∧ Lindblad.genFct v E' { L with Tba := T' } = .ok t' ∧
      Lindblad.kernel v symq E t = .ok m ∧ Lindblad.kernel v symq E' t' = .ok m' ∧
      SameUpTo v la U m m' (Lindblad.genCurrent v E t) (Lindblad.genCurrent v E' t') := by
  obtain ⟨t, gt, ht⟩ := Lindblad.genFct_ok h E L
  obtain ⟨t', gt', ht'⟩ := Lindblad.genFct_ok h E' { L with Tba := T' }
  obtain ⟨m, g, hc, _, rows⟩ := assemble_rows h symq E (Lindblad.coup v t) _
    (fun c b bp hb hbp hi => Lindblad.coup_ok h t hb hbp hi)
  obtain ⟨m', g', hc', _, rows'⟩ := assemble_rows h symq E' (Lindblad.coup v t') _
    (fun c b bp hb hbp hi => Lindblad.coup_ok h t' hb hbp hi)
  have hJ := Lindblad.jump_rot h hB hT ht ht'
  have hstep : ∀ φ φ' : Vec, NewDens v U (dens v la φ.val) (dens v la φ'.val) →
      NewDens v U (dens v la fun i => ∑ j ∈ range v.ndm0r, m.val i j * φ.val j)
        (dens v la fun i => ∑ j ∈ range v.ndm0r, m'.val i j * φ'.val j) := by
    intro φ φ' hρ
    have hS := Lindblad.S_rot h hB hJ hρ
    rw [Lindblad.S_lt, Lindblad.S_lt] at hS
    have := dens_step h hB (S := fun φ => Lindblad.S v t (dens v la φ)) (S' := fun φ => Lindblad.S v t' (dens v la φ))
      rows rows' (φ := φ.val) (φ' := φ'.val) (Lindblad.S_anti h t _) (Lindblad.S_anti h t' _) hρ hS
    unfold Mat.app at this
    rw [hc, hc'] at this
    exact this
  refine ⟨t, t', m, m', gt, gt', g, g', exists_new h hB, fun φ φ' hρ => trace_new h hB hρ, hstep,
    fun φ φ' hρ => zero_new h hB (hstep φ φ' hρ), ?_⟩
  intro φ φ' hs hs' hρ
  obtain ⟨evs, ge, hev⟩ := Lindblad.genCurrent_ok h E t φ (by omega)
  obtain ⟨evs', ge', hev'⟩ := Lindblad.genCurrent_ok h E' t' φ' (by omega)
  refine ⟨evs, evs', ge, ge', fun l hl => ?_⟩
  rw [(hev l hl).1, (hev l hl).2, (hev' l hl).1, (hev' l hl).2]
  have k1 := Lindblad.flow_rot h hB hJ hρ l (fun q _ => (q : ℂ))
  have k2 := Lindblad.flow_rot h hB hJ hρ l (fun _ e => (e : ℂ))
  rw [Lindblad.flow_lt _ _ _ hl, Lindblad.flow_lt _ _ _ hl] at k1 k2
  rw [k1, k2]
  exact ⟨rfl, rfl⟩

omit hB in
/-- Hermitian tunnelling matrices have Hermitian counterparts in the new basis. -/
theorem exists_newTba {w : Nat → ℂ} (hw : ∀ l, w l * conj (w l) = 1) {T : Nat → Nat → Nat → ℂ}
    (hT : ∀ l b c, T l b c = conj (T l c b)) :
    ∃ T', (∀ l b c, T' l b c = conj (T' l c b)) ∧ NewTba v U w T T' := by
  let G : Nat → Nat → Nat → Nat → ℂ := fun q l x b =>
    w l * ∑ y ∈ (v.row (q + 1)).toFinset, ∑ z ∈ (v.row q).toFinset, U x y * T l y z * conj (U b z)
  let F : Nat → Nat → Nat → ℂ := fun l x b =>
    ∑ q ∈ range v.ncharge, if x ∈ v.row (q + 1) ∧ b ∈ v.row q then G q l x b else 0
  have hF : ∀ l q x b, x ∈ v.row (q + 1) → b ∈ v.row q → F l x b = G q l x b ∧ F l b x = 0 := by
    intro l q x b hx hb
    have hq : q < v.ncharge := by
      by_contra hq
      rw [h.last q (by omega)] at hb
      simp at hb
    constructor
    · simp only [F]
      rw [sum_eq_single q, if_pos ⟨hx, hb⟩]
      · intro q' _ hne
        rw [if_neg]
        rintro ⟨_, h2⟩
        exact hne (h.disj _ _ _ h2 hb)
      · intro hn; exact absurd (mem_range.2 hq) hn
    · refine sum_eq_zero fun q' _ => ?_
      rw [if_neg]
      rintro ⟨h1, h2⟩
      have := h.disj _ _ _ h1 hb
      have := h.disj _ _ _ h2 hx
      omega
  refine ⟨fun l x b => F l x b + conj (F l b x), ?_, hw, ?_, ?_⟩
  · intro l b c
    simp only [map_add, Complex.conj_conj]
    ring
  · intro l q c hc b hb
    obtain ⟨h1, h2⟩ := hF l q c b hc hb
    simp only [h1, h2, map_zero, add_zero, G]
  · intro l q c hc b hb
    obtain ⟨h1, h2⟩ := hF l q c b hc hb
    simp only [h1, h2, zero_add, G, map_mul, map_sum]
    rw [sum_comm]
    congr 1
    refine sum_congr rfl fun z _ => sum_congr rfl fun y _ => ?_
    rw [← hT l z y, Complex.conj_conj]
    ring

end

section
variable {v : View} {la : Lab} (h : VOk v la) {E : Nat → ℝ} {U : Nat → Nat → ℂ} (hB : Eigenbasis v la E U)
include h hB

omit h in
theorem Eigenbasis.to : EigenbasisTo v la E E U := ⟨hB.unitary, hB.energy, hB.inc⟩

/-- **C70** for 1vN: the factors are the same in the new basis, and with them the results are the same up to the change
of the basis. -/
theorem c70_1vN (symq : Bool) (lib : NumLib) {w : Nat → ℂ} (L : Leads) (hH : ∀ l b c, L.Tba l b c = conj (L.Tba l c b))
    {T' : Nat → Nat → Nat → ℂ} (hH' : ∀ l b c, T' l b c = conj (T' l c b)) (hT : NewTba v U w L.Tba T') :
    ∃ f m m', genFct1vN v lib E L = .ok f ∧ genFct1vN v lib E { L with Tba := T' } = .ok f ∧
      VN1.kernel v symq E L.Tba f = .ok m ∧ VN1.kernel v symq E T' f = .ok m' ∧
      SameUpTo v la U m m' (fun φ => List.map (·.ev) <$> VN1.genCurrent v L.Tba f φ)
        (fun φ => List.map (·.ev) <$> VN1.genCurrent v T' f φ) := by
  obtain ⟨f, f', m, m', h1, h2, h3, h4, h5⟩ := c81_1vN h hB.to symq lib L hH hH' hT
  cases Except.ok.inj (h1.symm.trans h2)
  exact ⟨f, m, m', h1, h2, h3, h4, h5⟩

/-- **C70** for Redfield. -/
theorem c70_redfield (symq : Bool) (lib : NumLib) {w : Nat → ℂ} (L : Leads)
    (hH : ∀ l b c, L.Tba l b c = conj (L.Tba l c b)) {T' : Nat → Nat → Nat → ℂ}
    (hH' : ∀ l b c, T' l b c = conj (T' l c b)) (hT : NewTba v U w L.Tba T') :
    ∃ f m m', genFct1vN v lib E L = .ok f ∧ genFct1vN v lib E { L with Tba := T' } = .ok f ∧
      Redfield.kernel v symq E L.Tba f = .ok m ∧ Redfield.kernel v symq E T' f = .ok m' ∧
      SameUpTo v la U m m' (fun φ => List.map (·.ev) <$> Redfield.genCurrent v L.Tba f φ)
        (fun φ => List.map (·.ev) <$> Redfield.genCurrent v T' f φ) := by
  obtain ⟨f, f', m, m', h1, h2, h3, h4, h5⟩ := c81_redfield h hB.to symq lib L hH hH' hT
  cases Except.ok.inj (h1.symm.trans h2)
  exact ⟨f, m, m', h1, h2, h3, h4, h5⟩

/-- **C70** for Lindblad, with the jump matrices of both bases. -/
theorem c70_lindblad (symq : Bool) {w : Nat → ℂ} (L : Leads) {T' : Nat → Nat → Nat → ℂ} (hT : NewTba v U w L.Tba T') :
    ∃ t t' m m', Lindblad.genFct v E L = .ok t ∧ Lindblad.genFct v E { L with Tba := T' } = .ok t' ∧
      Lindblad.kernel v symq E t = .ok m ∧ Lindblad.kernel v symq E t' = .ok m' ∧
      SameUpTo v la U m m' (Lindblad.genCurrent v E t) (Lindblad.genCurrent v E t') :=
  c81_lindblad h hB.to symq L hT

end

/-- A change of basis for two levels of equal energy: the two states with one electron are mixed, the one with two
electrons gets a phase. -/
def uEx (b y : Nat) : ℂ :=
  if b = 1 ∧ y = 1 then 3 / 5 else if b = 1 ∧ y = 2 then 4 / 5 * I else if b = 2 ∧ y = 1 then 4 / 5 * I
  else if b = 2 ∧ y = 2 then 3 / 5 else if b = 3 ∧ y = 3 then I else if b = y then 1 else 0

/-- The hypotheses of the theorems for C70 hold for two orbitals of equal energy with interaction and two leads. -/
example : ∃ (v : View) (la : Lab) (E : Nat → ℝ) (U : Nat → Nat → ℂ) (w : Nat → ℂ) (L : Leads) (T' : Nat → Nat → Nat → ℂ),
    VOk v la ∧ Eigenbasis v la E U ∧ (∀ l b c, L.Tba l b c = conj (L.Tba l c b)) ∧
    (∀ l b c, T' l b c = conj (T' l c b)) ∧ NewTba v U w L.Tba T' ∧ v.nleads = 2 ∧ v.row 1 = [1, 2] ∧
    U 1 2 ≠ 0 ∧ w 1 ≠ 1 ∧ L.Tba 0 1 0 ≠ 0 := by
  obtain ⟨d, _, hv, ha, hst, _⟩ := RTD.view_all
  have hrow : ∀ q b, b ∈ (d.view 2).row q → (q = 0 ∧ b = 0) ∨ (q = 1 ∧ (b = 1 ∨ b = 2)) ∨ (q = 2 ∧ b = 3) := by
    intro q b hb
    have : b ∈ (d.statesdm[q]?).getD [] := hb
    rw [hst] at this
    match q with
    | 0 => simp at this; simp [this]
    | 1 => simp at this; simp [this]
    | 2 => simp at this; simp [this]
    | 3 => simp at this
    | q + 4 => simp at this
  have r0 : (d.view 2).row 0 = [0] := by show (d.statesdm[0]?).getD [] = _; rw [hst]; rfl
  have r1 : (d.view 2).row 1 = [1, 2] := by show (d.statesdm[1]?).getD [] = _; rw [hst]; rfl
  have r2 : (d.view 2).row 2 = [3] := by show (d.statesdm[2]?).getD [] = _; rw [hst]; rfl
  let w : Nat → ℂ := fun l => if l = 1 then I else 1
  have hw : ∀ l, w l * conj (w l) = 1 := by intro l; simp only [w]; split <;> simp
  let T : Nat → Nat → Nat → ℂ := fun l b c => (l + 1 + b + c : ℕ)
  have hT : ∀ l b c, T l b c = conj (T l c b) := by
    intro l b c; simp only [T, Complex.conj_natCast]; push_cast; ring
  obtain ⟨T', hT', hN⟩ := exists_newTba hv (U := uEx) hw hT
  refine ⟨d.view 2, d.labOf, fun b => if b = 0 then 0 else if b = 3 then 7 else 1, uEx, w,
    ⟨fun l => l, fun l => l + 1, fun _ => -60, fun _ => 60, T, 0, 10000⟩, T', hv, ⟨?_, ?_, ?_⟩, hT, hT', hN, rfl, r1,
    ?_, ?_, ?_⟩
  · intro q y hy y' hy'
    rcases hrow q y hy with ⟨rfl, rfl⟩ | ⟨rfl, h1⟩ | ⟨rfl, rfl⟩
    · rcases hrow 0 y' hy' with ⟨_, rfl⟩ | ⟨h, _⟩ | ⟨h, _⟩
      · rw [r0]; simp [uEx]
      · omega
      · omega
    · rcases hrow 1 y' hy' with ⟨h, _⟩ | ⟨_, h2⟩ | ⟨h, _⟩
      · omega
      · rw [r1]
        rcases h1 with rfl | rfl <;> rcases h2 with rfl | rfl <;>
          simp [uEx, Complex.ext_iff, map_ofNat] <;> norm_num
      · omega
    · rcases hrow 2 y' hy' with ⟨h, _⟩ | ⟨h, _⟩ | ⟨_, rfl⟩
      · omega
      · omega
      · rw [r2]; simp [uEx]
  · intro q b hb y hy _
    rcases hrow q b hb with ⟨rfl, rfl⟩ | ⟨rfl, h1⟩ | ⟨rfl, rfl⟩
    · rcases hrow 0 y hy with ⟨_, rfl⟩ | ⟨h, _⟩ | ⟨h, _⟩
      · rfl
      · omega
      · omega
    · rcases hrow 1 y hy with ⟨h, _⟩ | ⟨_, h2⟩ | ⟨h, _⟩
      · omega
      · rcases h1 with rfl | rfl <;> rcases h2 with rfl | rfl <;> norm_num
      · omega
    · rcases hrow 2 y hy with ⟨h, _⟩ | ⟨h, _⟩ | ⟨_, rfl⟩
      · omega
      · omega
      · rfl
  · intro q b hb bp hbp y hy yp hyp _ _
    rw [ha q b bp hb hbp, ha q y yp hy hyp]
  · simp [uEx]
  · simp [w, Complex.ext_iff]
  · simp only [T]; norm_num

end

end Verif
