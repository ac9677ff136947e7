import Verif.Lemmas.CohCur

/-! Closed forms for the Lindblad approach. -/

namespace Verif

open Finset
open Complex (I)
open scoped ComplexConjugate

noncomputable section

theorem sumM_range' {β : Type} [AddCommMonoid β] (n : Nat) (g : Nat → β) :
    sumM (List.range n) (fun x => (pure (g x) : Py β)) = .ok (∑ l ∈ range n, g l) :=
  sumM_range fun _ _ => rfl

theorem sumM_toFinset' {β : Type} [AddCommMonoid β] {l : List Nat} (hn : l.Nodup) (g : Nat → β) :
    sumM l (fun x => (pure (g x) : Py β)) = .ok (∑ x ∈ l.toFinset, g x) :=
  sumM_toFinset hn fun _ _ => rfl

namespace Lindblad

/-- What `b, bp` of charge `q` contribute to a jump to `z`. -/
def P (t : TMat) (ρ : Nat → Nat → Nat → ℂ) (l q z b bp : Nat) : ℂ :=
  t l z b * conj (t l z bp) * ρ q b bp

/-- `decay` as a sum. -/
def K (v : View) (t : TMat) (c x y : Nat) : ℂ :=
  I * (∑ a ∈ v.Lo c, ∑ l ∈ range v.nleads, -(1 / 2) * conj (t l a x) * t l a y +
    ∑ z ∈ v.R (c + 1), ∑ l ∈ range v.nleads, -(1 / 2) * conj (t l z x) * t l z y)

/-- The right-hand side of the equation of motion (times `i`), without the energy term. -/
def S (v : View) (t : TMat) (ρ : Nat → Nat → Nat → ℂ) (c b bp : Nat) : ℂ :=
  (∑ a ∈ v.Lo c, ∑ ap ∈ v.Lo c,
    I * (∑ l ∈ range v.nleads, t l b a * conj (t l bp ap)) * ρ (c - 1) a ap) +
  (∑ y ∈ v.R c, (K v t c b y * ρ c y bp + K v t c y bp * ρ c b y)) +
  (∑ x ∈ v.R (c + 1), ∑ xp ∈ v.R (c + 1),
    I * (∑ l ∈ range v.nleads, t l b x * conj (t l bp xp)) * ρ (c + 1) x xp)

/-- Gain of `x` from `b`, and loss of `x` to `b`, where `b` has one electron less. -/
def D (v : View) (t : TMat) (ρ : Nat → Nat → Nat → ℂ) (q x b : Nat) : ℂ :=
  ∑ bp ∈ v.R q, ∑ l ∈ range v.nleads, P t ρ l q x b bp +
  ∑ xp ∈ v.R (q + 1), ∑ l ∈ range v.nleads,
    -(1 / 2) * (P t ρ l (q + 1) b xp x + P t ρ l (q + 1) b x xp)

/-- Gain of `b` from `x`, and loss of `b` to `x`, where `x` has one electron more. -/
def U (v : View) (t : TMat) (ρ : Nat → Nat → Nat → ℂ) (q x b : Nat) : ℂ :=
  ∑ xp ∈ v.R (q + 1), ∑ l ∈ range v.nleads, P t ρ l (q + 1) b x xp +
  ∑ bp ∈ v.R q, ∑ l ∈ range v.nleads,
    -(1 / 2) * (P t ρ l q x bp b + P t ρ l q x b bp)

section
variable {v : View} {la : Lab} (h : VMul v la)
include h

namespace VMul

theorem coup_ok (t : TMat) {c b bp : Nat} (hb : b ∈ v.row c)
    (hbp : bp ∈ v.row c) (hi : la.inc c b bp = true) :
    ∃ ks, coup v t b bp c = .ok ks ∧
      (∀ k ∈ ks, KGood v la k ∧ k.target = ((c : Int), b, bp)) ∧
      ∀ φ, (ks.map fun k => k.term v la φ).sum = S v t (dens v la φ) c b bp := by
  have hcl := h.row_lt hb
  have hj : ∀ x y z w, jump v t x y z w
      = .ok (I * ∑ l ∈ range v.nleads, t l x z * conj (t l y w)) := by
    intro x y z w
    unfold jump
    rw [sumM_range']
    rfl
  have hd : ∀ x y, decay v t c x y = .ok (K v t c x y) := by
    intro x y
    unfold decay
    rw [h.states_pred (by omega), h.states_succ hcl]
    simp only [py_bind_ok]
    simp only [sumM_range']
    rw [sumM_toFinset (h.low_nodup c) (fun a _ => rfl),
      sumM_toFinset (h.nodup (c + 1)) (fun a _ => rfl)]
    rfl
  obtain ⟨ks, g1, g2, g3⟩ := h.blocks_ok hb hbp hi
    (fA := fun a ap => jump v t b bp a ap) (fL := fun y => decay v t c b y)
    (fR := fun y => decay v t c y bp) (fC := fun x xp => jump v t b bp x xp)
    (gA := fun a ap => I * ∑ l ∈ range v.nleads, t l b a * conj (t l bp ap))
    (gL := fun y => K v t c b y) (gR := fun y => K v t c y bp)
    (gC := fun a ap => I * ∑ l ∈ range v.nleads, t l b a * conj (t l bp ap))
    (fun a ap _ _ => hj b bp a ap) (fun y _ => hd b y) (fun y _ => hd y bp)
    (fun a ap _ _ => hj b bp a ap)
  exact ⟨ks, g1, g2, g3⟩

theorem S_diag (t : TMat) (ρ : Nat → Nat → Nat → ℂ) (q b : Nat) :
    S v t ρ q b b = I * (∑ a ∈ v.Lo q, D v t ρ (q - 1) b a + ∑ x ∈ v.R (q + 1), U v t ρ q x b) := by
  have e2 : ∑ y ∈ v.R q, (K v t q b y * ρ q y b + K v t q y b * ρ q b y)
      = I * (∑ a ∈ v.Lo q, ∑ y ∈ v.R q, ∑ l ∈ range v.nleads,
          -(1 / 2) * (P t ρ l q a y b + P t ρ l q a b y) +
        ∑ x ∈ v.R (q + 1), ∑ y ∈ v.R q, ∑ l ∈ range v.nleads,
          -(1 / 2) * (P t ρ l q x y b + P t ρ l q x b y)) := by
    unfold K
    simp only [mul_assoc I, ← mul_add I, ← mul_sum _ _ I]
    congr 1
    rw [split_sum]
    congr 1
    · refine sum_congr rfl fun a _ => sum_congr rfl fun y _ => ?_
      rw [sum_mul, sum_mul, ← sum_add_distrib]
      exact sum_congr rfl fun l _ => by unfold P; ring
    · refine sum_congr rfl fun a _ => sum_congr rfl fun y _ => ?_
      rw [sum_mul, sum_mul, ← sum_add_distrib]
      exact sum_congr rfl fun l _ => by unfold P; ring
  unfold S
  rw [e2]
  unfold D U
  have e1 : ∑ a ∈ v.Lo q, ∑ ap ∈ v.Lo q,
        I * (∑ l ∈ range v.nleads, t l b a * conj (t l b ap)) * ρ (q - 1) a ap
      = I * ∑ a ∈ v.Lo q, ∑ ap ∈ v.R (q - 1), ∑ l ∈ range v.nleads, P t ρ l (q - 1) b a ap := by
    rw [mul_sum]
    refine sum_congr rfl fun a ha => ?_
    have hq := (h.low_mem (by simpa [View.Lo] using ha)).1
    have : v.Lo q = v.R (q - 1) := by rw [← h.Lo_succ, Nat.sub_add_cancel hq]
    rw [this, mul_sum]
    refine sum_congr rfl fun ap _ => ?_
    rw [mul_assoc, sum_mul]
    rfl
  have e3 : ∑ x ∈ v.R (q + 1), ∑ xp ∈ v.R (q + 1),
        I * (∑ l ∈ range v.nleads, t l b x * conj (t l b xp)) * ρ (q + 1) x xp
      = I * ∑ x ∈ v.R (q + 1), ∑ xp ∈ v.R (q + 1), ∑ l ∈ range v.nleads,
        P t ρ l (q + 1) b x xp := by
    rw [mul_sum]
    refine sum_congr rfl fun a ha => ?_
    rw [mul_sum]
    refine sum_congr rfl fun ap _ => ?_
    rw [mul_assoc, sum_mul]
    rfl
  have e4 : ∑ a ∈ v.Lo q, ∑ y ∈ v.R q, ∑ l ∈ range v.nleads,
          -(1 / 2) * (P t ρ l q a y b + P t ρ l q a b y)
      = ∑ a ∈ v.Lo q, ∑ xp ∈ v.R (q - 1 + 1), ∑ l ∈ range v.nleads,
        -(1 / 2) * (P t ρ l (q - 1 + 1) a xp b + P t ρ l (q - 1 + 1) a b xp) := by
    refine sum_congr rfl fun a ha => ?_
    have hq := (h.low_mem (by simpa [View.Lo] using ha)).1
    rw [Nat.sub_add_cancel hq]
  rw [e1, e3, e4]
  simp only [sum_add_distrib]
  ring

/-- The sum over all jumps, each weighted with the difference between the weight of the final
state and the mean weight of the initial ones. -/
def _root_.Verif.Lindblad.flow (v : View) (t : TMat) (ρ : Nat → Nat → Nat → ℂ) (w : Nat → Nat → ℂ) (l : Nat) : ℂ :=
  ∑ q ∈ range (v.ncharge - 1), ∑ x ∈ v.R (q + 1), ∑ b ∈ v.R q,
    (∑ xp ∈ v.R (q + 1), (w q b - 1 / 2 * (w (q + 1) x + w (q + 1) xp)) * P t ρ l (q + 1) b x xp +
    ∑ bp ∈ v.R q, (w (q + 1) x - 1 / 2 * (w q b + w q bp)) * P t ρ l q x b bp)

/-- The diagonal equations weighted by `w`. -/
theorem weighted (t : TMat) (ρ : Nat → Nat → Nat → ℂ) (w : Nat → Nat → ℂ) :
    ∑ q ∈ range v.ncharge, ∑ b ∈ v.R q, w q b * S v t ρ q b b
      = I * ∑ l ∈ range v.nleads, flow v t ρ w l := by
  have hb := h.balance (D := fun q x b => w (q + 1) x * D v t ρ q x b)
    (U := fun q x b => w q b * U v t ρ q x b)
  have e : ∑ q ∈ range v.ncharge, ∑ b ∈ v.R q, w q b * S v t ρ q b b
      = I * ∑ q ∈ range v.ncharge, ∑ b ∈ v.R q, (∑ a ∈ v.Lo q,
        w (q - 1 + 1) b * D v t ρ (q - 1) b a + ∑ x ∈ v.R (q + 1), w q b * U v t ρ q x b) := by
    rw [mul_sum]
    refine sum_congr rfl fun q _ => ?_
    rw [mul_sum]
    refine sum_congr rfl fun b _ => ?_
    rw [S_diag h, mul_left_comm, mul_add, mul_sum, mul_sum]
    congr 2
    refine sum_congr rfl fun a ha => ?_
    have hq := (h.low_mem (by simpa [View.Lo] using ha)).1
    rw [Nat.sub_add_cancel hq]
  rw [e, hb]
  congr 1
  unfold flow
  rw [sum_comm]
  refine sum_congr rfl fun q _ => ?_
  -- the antisymmetric rest vanishes
  have z : ∑ x ∈ v.R (q + 1), ∑ b ∈ v.R q, (w (q + 1) x * D v t ρ q x b + w q b * U v t ρ q x b)
      = ∑ x ∈ v.R (q + 1), ∑ b ∈ v.R q, ∑ l ∈ range v.nleads,
        (∑ xp ∈ v.R (q + 1),
          (w q b - 1 / 2 * (w (q + 1) x + w (q + 1) xp)) * P t ρ l (q + 1) b x xp +
        ∑ bp ∈ v.R q, (w (q + 1) x - 1 / 2 * (w q b + w q bp)) * P t ρ l q x b bp) := by
    have t1 : ∀ x b, w (q + 1) x * D v t ρ q x b + w q b * U v t ρ q x b
        = (∑ l ∈ range v.nleads, (∑ xp ∈ v.R (q + 1),
          (w q b - 1 / 2 * (w (q + 1) x + w (q + 1) xp)) * P t ρ l (q + 1) b x xp +
        ∑ bp ∈ v.R q, (w (q + 1) x - 1 / 2 * (w q b + w q bp)) * P t ρ l q x b bp)) +
        ∑ bp ∈ v.R q, ((∑ l ∈ range v.nleads, 1 / 2 * w q bp * P t ρ l q x b bp)
          - ∑ l ∈ range v.nleads, 1 / 2 * w q b * P t ρ l q x bp b) +
        ∑ xp ∈ v.R (q + 1), ((∑ l ∈ range v.nleads, 1 / 2 * w (q + 1) xp * P t ρ l (q + 1) b x xp)
          - ∑ l ∈ range v.nleads, 1 / 2 * w (q + 1) x * P t ρ l (q + 1) b xp x) := by
      intro x b
      unfold D U
      rw [sum_add_distrib, sum_comm (s := range v.nleads) (t := v.R (q + 1)),
        sum_comm (s := range v.nleads) (t := v.R q)]
      simp only [mul_add, mul_sum, ← sum_sub_distrib, ← sum_add_distrib]
      rw [show ∀ a b c d : ℂ, a + b + (c + d) = (b + c) + (a + d) by intros; ring,
        show ∀ a b c d : ℂ, a + b + c + d = (a + d) + (b + c) by intros; ring]
      simp only [← sum_add_distrib]
      congr 1
      · refine sum_congr rfl fun xp _ => sum_congr rfl fun l _ => by ring
      · refine sum_congr rfl fun bp _ => sum_congr rfl fun l _ => by ring
    simp only [t1]
    have z1 : ∑ x ∈ v.R (q + 1), ∑ b ∈ v.R q, ∑ bp ∈ v.R q,
        ((∑ l ∈ range v.nleads, 1 / 2 * w q bp * P t ρ l q x b bp)
          - ∑ l ∈ range v.nleads, 1 / 2 * w q b * P t ρ l q x bp b) = 0 :=
      sum_eq_zero fun x _ => sum_antisymm (v.R q) fun b bp =>
        ∑ l ∈ range v.nleads, 1 / 2 * w q bp * P t ρ l q x b bp
    have z2 : ∑ x ∈ v.R (q + 1), ∑ b ∈ v.R q, ∑ xp ∈ v.R (q + 1),
        ((∑ l ∈ range v.nleads, 1 / 2 * w (q + 1) xp * P t ρ l (q + 1) b x xp)
          - ∑ l ∈ range v.nleads, 1 / 2 * w (q + 1) x * P t ρ l (q + 1) b xp x) = 0 := by
      rw [sum_comm]
      exact sum_eq_zero fun b _ => sum_antisymm (v.R (q + 1)) fun x xp =>
        ∑ l ∈ range v.nleads, 1 / 2 * w (q + 1) xp * P t ρ l (q + 1) b x xp
    have sa : ∀ (f g k : Nat → Nat → ℂ), ∑ x ∈ v.R (q + 1), ∑ b ∈ v.R q, (f x b + g x b + k x b)
        = ∑ x ∈ v.R (q + 1), ∑ b ∈ v.R q, f x b + ∑ x ∈ v.R (q + 1), ∑ b ∈ v.R q, g x b +
          ∑ x ∈ v.R (q + 1), ∑ b ∈ v.R q, k x b := by
      intro f g k; simp only [sum_add_distrib]
    rw [sa, z1, z2, add_zero, add_zero]
  rw [z, sum_comm (s := range v.nleads)]
  refine sum_congr rfl fun x _ => ?_
  rw [sum_comm]

/-- The currents in closed form. -/
theorem genCurrent_ok (E : Nat → ℝ) (t : TMat) (φ : Vec) (hs : v.ndm0r ≤ φ.size) :
    ∃ evs, genCurrent v E t φ = .ok evs ∧ ∀ l, l < v.nleads →
      current evs l = (flow v t (dens v la φ.val) (fun q _ => (q : ℂ)) l).re ∧
      energyCurrent evs l = (flow v t (dens v la φ.val) (fun _ b => (E b : ℂ)) l).re := by
  let ρ := dens v la φ.val
  let g : Nat → Nat → Nat → Nat → CEv := fun q b bp l =>
    ⟨l, (∑ a ∈ v.Lo q, -(t l a b * ρ q b bp * conj (t l a bp)) +
        ∑ c ∈ v.R (q + 1), t l c b * ρ q b bp * conj (t l c bp)).re,
      (∑ a ∈ v.Lo q, ((E a - 1 / 2 * (E b + E bp) : ℝ) : ℂ) * (t l a b * ρ q b bp * conj (t l a bp)) +
        ∑ c ∈ v.R (q + 1), ((E c - 1 / 2 * (E b + E bp) : ℝ) : ℂ) *
          (t l c b * ρ q b bp * conj (t l c bp))).re⟩
  have hpair : ∀ (s : Finset Nat) (f k : Nat → ℂ),
      ∑ x ∈ s, (f x, k x) = (∑ x ∈ s, f x, ∑ x ∈ s, k x) := by
    intro s f k
    refine Prod.ext ?_ ?_
    · simp [Prod.fst_sum]
    · simp [Prod.snd_sum]
  have hct : ∀ q b bp l, q < v.ncharge → curTerm v E t (ρ q b bp) b bp (q : Int) l
      = .ok (g q b bp l) := by
    intro q b bp l hq
    unfold curTerm
    rw [h.states_pred (by omega), h.states_succ hq]
    simp only [py_bind_ok]
    rw [sumM_toFinset' (h.low_nodup q), sumM_toFinset' (h.nodup (q + 1)), hpair, hpair]
    rfl
  let ev : Nat → Nat × Nat → List CEv := fun q p =>
    if la.inc q p.1 p.2 then (List.range v.nleads).flatMap fun l => [g q p.1 p.2 l] else []
  have hg : genCurrent v E t φ = .ok ((List.range v.ncharge).flatMap fun q =>
      (prod2 (v.row q) (v.row q)).flatMap fun p => ev q p) := by
    unfold genCurrent
    apply collect_ok
    intro q hq
    have hq' : q < v.ncharge := List.mem_range.1 hq
    rw [h.states (by omega)]
    simp only [py_bind_ok]
    apply collect_ok
    rintro ⟨b, bp⟩ hp
    obtain ⟨hb, hbp⟩ := prod2_mem hp
    simp only at hb hbp
    simp only
    rw [h.isIncluded hb hbp]
    simp only [py_bind_ok, ev]
    split
    · rw [h.phi0Element hb hbp φ hs]
      simp only [py_bind_ok]
      apply collect_ok
      intro l _
      rw [hct q b bp l hq']
      rfl
    · rfl
  have hsum : ∀ (f : CEv → ℝ) (l : Nat), l < v.nleads →
      (∀ q b bp, la.inc q b bp ≠ true → f (g q b bp l) = 0) →
      ((((List.range v.ncharge).flatMap fun q =>
        (prod2 (v.row q) (v.row q)).flatMap fun p => ev q p).map fun e =>
          if e.l = l then f e else 0).sum)
      = ∑ q ∈ range v.ncharge, ∑ b ∈ v.R q, ∑ bp ∈ v.R q, f (g q b bp l) := by
    intro f l hl hz
    rw [sum_flatMap', sum_range_list]
    refine sum_congr rfl fun q _ => ?_
    rw [sum_flatMap', View.R, ← sum_prod2 (h.nodup q) (h.nodup q) (fun b bp => f (g q b bp l))]
    congr 1
    apply List.map_congr_left
    rintro ⟨b, bp⟩ _
    simp only [ev]
    split
    · rw [sum_flatMap']
      simp only [List.map_cons, List.map_nil, List.sum_cons, List.sum_nil, add_zero]
      exact leads_sum v.nleads (fun l => f (g q b bp l)) hl
    · rename_i hi
      rw [hz q b bp hi]; rfl
  -- both currents at once
  have hflow : ∀ (w : Nat → Nat → ℂ) (l : Nat),
      ∑ q ∈ range v.ncharge, ∑ b ∈ v.R q, ∑ bp ∈ v.R q,
        (∑ a ∈ v.Lo q, (w (q - 1) a - 1 / 2 * (w q b + w q bp)) * P t ρ l q a b bp +
        ∑ c ∈ v.R (q + 1), (w (q + 1) c - 1 / 2 * (w q b + w q bp)) * P t ρ l q c b bp)
      = flow v t ρ w l := by
    intro w l
    have hb := h.balance
      (D := fun q x b => ∑ xp ∈ v.R (q + 1),
        (w q b - 1 / 2 * (w (q + 1) x + w (q + 1) xp)) * P t ρ l (q + 1) b x xp)
      (U := fun q x b => ∑ bp ∈ v.R q,
        (w (q + 1) x - 1 / 2 * (w q b + w q bp)) * P t ρ l q x b bp)
    refine Eq.trans ?_ hb
    refine sum_congr rfl fun q _ => sum_congr rfl fun b _ => ?_
    rw [sum_add_distrib]
    congr 1
    · rw [sum_comm]
      refine sum_congr rfl fun a ha => ?_
      have hq := (h.low_mem (by simpa [View.Lo] using ha)).1
      rw [Nat.sub_add_cancel hq]
    · rw [sum_comm]
  refine ⟨_, hg, ?_⟩
  intro l hl
  constructor
  · rw [current_eq, hsum (fun e => e.i) l hl]
    · rw [← hflow, Complex.re_sum]
      refine sum_congr rfl fun q _ => ?_
      rw [Complex.re_sum]
      refine sum_congr rfl fun b _ => ?_
      rw [Complex.re_sum]
      refine sum_congr rfl fun bp _ => ?_
      simp only [g]
      congr 2
      · refine sum_congr rfl fun a ha => ?_
        have hq := (h.low_mem (by simpa [View.Lo] using ha)).1
        rw [Nat.cast_sub hq]
        unfold P; push_cast; ring
      · refine sum_congr rfl fun a ha => ?_
        unfold P; push_cast; ring
    · intro q b bp hi
      simp only [g]
      simp [ρ, h.dens_excl hi]
  · rw [energyCurrent_eq, hsum (fun e => e.e) l hl]
    · rw [← hflow, Complex.re_sum]
      refine sum_congr rfl fun q _ => ?_
      rw [Complex.re_sum]
      refine sum_congr rfl fun b _ => ?_
      rw [Complex.re_sum]
      refine sum_congr rfl fun bp _ => ?_
      simp only [g]
      congr 2
      · refine sum_congr rfl fun a ha => ?_
        unfold P; push_cast; ring
      · refine sum_congr rfl fun a ha => ?_
        unfold P; push_cast; ring
    · intro q b bp hi
      simp only [g]
      simp [ρ, h.dens_excl hi]

/-! ### Jump matrices -/

/-- The jump matrices made by `generate_fct`. -/
theorem genFct_ok (E : Nat → ℝ) (L : Leads) :
    ∃ t, genFct v E L = .ok t ∧ ∀ q x b l, x ∈ v.row (q + 1) → b ∈ v.row q → l < v.nleads →
      t l x b = Real.sqrt (funcPauli (E x - E b) (L.mu l) (L.T l) (L.Dm l) (L.Dp l) L.itype).1
        * L.Tba l x b ∧
      t l b x = Real.sqrt (funcPauli (E x - E b) (L.mu l) (L.T l) (L.Dm l) (L.Dp l) L.itype).2
        * L.Tba l b x := by
  let up : Nat → Nat → Nat → ℂ := fun l x b =>
    Real.sqrt (funcPauli (E x - E b) (L.mu l) (L.T l) (L.Dm l) (L.Dp l) L.itype).1 * L.Tba l x b
  let dn : Nat → Nat → Nat → ℂ := fun l x b =>
    Real.sqrt (funcPauli (E x - E b) (L.mu l) (L.T l) (L.Dm l) (L.Dp l) L.itype).2 * L.Tba l b x
  let Q : TMat → Nat × Nat × Nat × Nat → Prop := fun t i =>
    i.2.2.1 ∈ v.row (i.2.1 + 1) → i.2.2.2 ∈ v.row i.2.1 →
      t i.1 i.2.2.1 i.2.2.2 = up i.1 i.2.2.1 i.2.2.2 ∧
      t i.1 i.2.2.2 i.2.2.1 = dn i.1 i.2.2.1 i.2.2.2
  have key := foldlM_est Q (fun (q : Nat) i => i.2.1 = q ∧ i.1 < v.nleads)
    (xs := List.range (v.ncharge - 1))
    (step := fun t (charge : Nat) => do
      let Bs ← v.states (charge + 1)
      let As ← v.states charge
      (prod2 Bs As).foldlM
        (fun t p =>
          (List.range v.nleads).foldlM
            (fun t l =>
              let r := funcPauli (E p.1 - E p.2) (L.mu l) (L.T l) (L.Dm l) (L.Dp l) L.itype
              let t := wr3 t l p.1 p.2 (Real.sqrt r.1 * L.Tba l p.1 p.2)
              pure (wr3 t l p.2 p.1 (Real.sqrt r.2 * L.Tba l p.2 p.1))) t) t)
    (by
      intro q hq s
      have hq' : q < v.ncharge := by have := List.mem_range.1 hq; omega
      rw [h.states_succ hq', h.states (by omega)]
      simp only [py_bind_ok]
      obtain ⟨s', g, k, d⟩ := foldlM_est Q (fun (p : Nat × Nat) i => i.2.1 = q ∧ i.2.2 = p ∧
          i.1 < v.nleads) (xs := prod2 (v.row (q + 1)) (v.row q))
        (step := fun t p =>
          (List.range v.nleads).foldlM
            (fun t l =>
              let r := funcPauli (E p.1 - E p.2) (L.mu l) (L.T l) (L.Dm l) (L.Dp l) L.itype
              let t := wr3 t l p.1 p.2 (Real.sqrt r.1 * L.Tba l p.1 p.2)
              pure (wr3 t l p.2 p.1 (Real.sqrt r.2 * L.Tba l p.2 p.1))) t)
        (by
          rintro ⟨c, b⟩ hp s
          obtain ⟨hc, hb⟩ := prod2_mem hp
          simp only at hc hb
          obtain ⟨s', g, k, d⟩ := foldlM_est Q (fun (l : Nat) i => i = (l, q, c, b))
            (xs := List.range v.nleads)
            (step := fun t l => (pure (wr3 (wr3 t l c b (up l c b)) l b c (dn l c b)) : Py TMat))
            (by
              intro l _ s
              have hcb : c ≠ b := by
                rintro rfl
                have := h.disj _ _ _ hc hb
                omega
              refine ⟨_, rfl, ?_, ?_⟩
              · rintro ⟨l', q', c', b'⟩ hi hc' hb'
                simp only at hc' hb' hi ⊢
                have hi := hi hc' hb'
                have n1 : ¬ (c' = b ∧ b' = c) := by
                  rintro ⟨rfl, rfl⟩
                  have := h.disj _ _ _ hc' hb
                  have := h.disj _ _ _ hb' hc
                  omega
                have n2 : ¬ (b' = c ∧ c' = b) := fun e => n1 ⟨e.2, e.1⟩
                unfold wr3
                by_cases e : l' = l ∧ c' = c ∧ b' = b
                · obtain ⟨rfl, rfl, rfl⟩ := e
                  refine ⟨?_, by simp⟩
                  rw [if_neg (by rintro ⟨_, e1, _⟩; exact hcb e1), if_pos ⟨rfl, rfl, rfl⟩]
                · refine ⟨?_, ?_⟩
                  · rw [if_neg (fun e' => n1 e'.2), if_neg e]; exact hi.1
                  · rw [if_neg (fun e' => e ⟨e'.1, e'.2.2, e'.2.1⟩), if_neg (fun e' => n2 e'.2)]
                    exact hi.2
              · rintro i rfl hc' hb'
                unfold wr3
                refine ⟨?_, by simp⟩
                rw [if_neg (by rintro ⟨_, e1, _⟩; exact hcb e1), if_pos ⟨rfl, rfl, rfl⟩]) s
          refine ⟨s', g, k, ?_⟩
          rintro ⟨l, q', c', b'⟩ ⟨rfl, e, hl⟩
          simp only [Prod.mk.injEq] at e
          obtain ⟨rfl, rfl⟩ := e
          exact d l (List.mem_range.2 hl) _ rfl) s
      refine ⟨s', g, k, ?_⟩
      rintro ⟨l, q', c', b'⟩ ⟨rfl, hl⟩ hc' hb'
      simp only at hc' hb'
      exact d (c', b') (by simp only [prod2, List.mem_flatMap, List.mem_map]
                           exact ⟨c', hc', b', hb', rfl⟩) _ ⟨rfl, rfl, hl⟩ hc' hb')
    (fun _ _ _ => 0)
  obtain ⟨t, g, _, d⟩ := key
  refine ⟨t, g, ?_⟩
  intro q c b l hc hb hl
  have := h.row_lt hc
  exact d q (List.mem_range.2 (by omega)) (l, q, c, b) ⟨rfl, hl⟩ hc hb

end VMul

end

theorem coup_ok {v : View} {la : Lab} (h : VOk v la) :
    type_of% (@VMul.coup_ok v la h.toVMul) := VMul.coup_ok h.toVMul

theorem S_diag {v : View} {la : Lab} (h : VOk v la) :
    type_of% (@VMul.S_diag v la h.toVMul) := VMul.S_diag h.toVMul

theorem weighted {v : View} {la : Lab} (h : VOk v la) :
    type_of% (@VMul.weighted v la h.toVMul) := VMul.weighted h.toVMul

theorem genCurrent_ok {v : View} {la : Lab} (h : VOk v la) :
    type_of% (@VMul.genCurrent_ok v la h.toVMul) := VMul.genCurrent_ok h.toVMul

theorem genFct_ok {v : View} {la : Lab} (h : VOk v la) :
    type_of% (@VMul.genFct_ok v la h.toVMul) := VMul.genFct_ok h.toVMul

end Lindblad

end

end Verif
