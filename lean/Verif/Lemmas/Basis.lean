import Verif.Lemmas.Lindblad
import Verif.Spec.Basis

/-! Sums that transform like matrices under a change of the basis of degenerate states. -/

namespace Verif

open Finset
open Complex (I)
open scoped ComplexConjugate

noncomputable section

theorem rot_add (P : Finset Nat) (U F G : Nat → Nat → ℂ) (b bp : Nat) :
    rot P U (fun x y => F x y + G x y) b bp = rot P U F b bp + rot P U G b bp := by
  unfold rot
  simp only [← sum_add_distrib]
  exact sum_congr rfl fun _ _ => sum_congr rfl fun _ _ => by ring

theorem rot_smul (P : Finset Nat) (U F : Nat → Nat → ℂ) (k : ℂ) (b bp : Nat) :
    rot P U (fun x y => k * F x y) b bp = k * rot P U F b bp := by
  unfold rot
  simp only [mul_sum]
  exact sum_congr rfl fun _ _ => sum_congr rfl fun _ _ => by ring

theorem rot_sum {ι : Type} (P : Finset Nat) (s : Finset ι) (U : Nat → Nat → ℂ) (F : ι → Nat → Nat → ℂ) (b bp : Nat) :
    rot P U (fun x y => ∑ l ∈ s, F l x y) b bp = ∑ l ∈ s, rot P U (F l) b bp := by
  unfold rot
  simp only [mul_sum, sum_mul]
  rw [sum_congr rfl fun y _ => sum_comm, sum_comm]

theorem rot_congr {P : Finset Nat} {U F G : Nat → Nat → ℂ} (b bp : Nat)
    (h : ∀ y ∈ P, ∀ yp ∈ P, U b y ≠ 0 → U bp yp ≠ 0 → F y yp = G y yp) : rot P U F b bp = rot P U G b bp := by
  unfold rot
  refine sum_congr rfl fun y hy => sum_congr rfl fun yp hyp => ?_
  by_cases h1 : U b y = 0
  · simp [h1]
  by_cases h2 : U bp yp = 0
  · simp [h2]
  rw [h y hy yp hyp h1 h2]

theorem rot_conj (P : Finset Nat) (U F : Nat → Nat → ℂ) (b bp : Nat) :
    conj (rot P U F b bp) = rot P U (fun x y => conj (F y x)) bp b := by
  unfold rot
  rw [map_sum]
  simp only [map_sum, map_mul, Complex.conj_conj]
  rw [sum_comm]
  exact sum_congr rfl fun _ _ => sum_congr rfl fun _ _ => by ring

/-- The columns of `U` are orthonormal. -/
def Ortho (P : Finset Nat) (U : Nat → Nat → ℂ) : Prop :=
  ∀ z ∈ P, ∀ z' ∈ P, ∑ b ∈ P, conj (U b z) * U b z' = if z = z' then 1 else 0

theorem Ortho.conj {P : Finset Nat} {U : Nat → Nat → ℂ} (h : Ortho P U) : Ortho P (fun b y => conj (U b y)) := by
  intro z hz z' hz'
  have := congrArg (starRingEnd ℂ) (h z hz z' hz')
  rw [map_sum] at this
  simp only [map_mul] at this
  rw [this]
  split <;> simp

/-- The trace does not depend on the basis. -/
theorem rot_trace {P : Finset Nat} {U : Nat → Nat → ℂ} (h : Ortho P U) (F : Nat → Nat → ℂ) :
    ∑ b ∈ P, rot P U F b b = ∑ b ∈ P, F b b := by
  unfold rot
  rw [sum_comm]
  refine sum_congr rfl fun y hy => ?_
  rw [sum_comm, sum_eq_single y]
  · have : ∀ b, U b y * F y y * (starRingEnd ℂ) (U b y) = F y y * ((starRingEnd ℂ) (U b y) * U b y) := by intro b; ring
    simp only [this, ← mul_sum]
    rw [h y hy y hy, if_pos rfl, mul_one]
  · intro z hz hne
    have : ∀ b, U b y * F y z * (starRingEnd ℂ) (U b z) = F y z * ((starRingEnd ℂ) (U b z) * U b y) := by intro b; ring
    simp only [this, ← mul_sum]
    rw [h z hz y hy, if_neg hne, mul_zero]
  · intro hn; exact absurd hy hn

/-- `X'` is `X` in the new bases of `P` and `Q`, up to a factor. -/
def Tr (P Q : Finset Nat) (U : Nat → Nat → ℂ) (w : ℂ) (X X' : Nat → Nat → ℂ) : Prop :=
  ∀ b ∈ P, ∀ a ∈ Q, X' b a = w * ∑ y ∈ P, ∑ z ∈ Q, U b y * X y z * conj (U a z)

section
variable {P Q : Finset Nat} {U : Nat → Nat → ℂ} {w w' : ℂ} {X X' : Nat → Nat → ℂ}

theorem Tr.right (h : Tr P Q U w X X') (hQ : Ortho Q U) {b z : Nat} (hb : b ∈ P) (hz : z ∈ Q) :
    ∑ a ∈ Q, X' b a * U a z = w * ∑ y ∈ P, U b y * X y z := by
  rw [sum_congr rfl fun a ha => by rw [h b hb a ha]]
  have e : ∀ a, (w * ∑ y ∈ P, ∑ z ∈ Q, U b y * X y z * conj (U a z)) * U a z
      = ∑ z' ∈ Q, (w * ∑ y ∈ P, U b y * X y z') * (conj (U a z') * U a z) := by
    intro a
    rw [sum_comm, mul_sum, sum_mul]
    refine sum_congr rfl fun z' _ => ?_
    rw [← sum_mul]; ring
  simp only [e]
  rw [sum_comm]
  simp only [← mul_sum]
  rw [sum_congr rfl fun z' hz' => by rw [hQ z' hz' z hz]]
  simp [hz]

theorem Tr.transpose (h : Tr P Q U w X X') :
    Tr Q P (fun b y => conj (U b y)) w (fun a b => X b a) (fun a b => X' b a) := by
  intro a ha b hb
  simp only
  rw [h b hb a ha, sum_comm]
  congr 1
  refine sum_congr rfl fun z _ => sum_congr rfl fun y _ => ?_
  rw [Complex.conj_conj]; ring

theorem Tr.conj (h : Tr P Q U w X X') :
    Tr P Q (fun b y => conj (U b y)) (conj w) (fun b a => conj (X b a)) (fun b a => conj (X' b a)) := by
  intro b hb a ha
  simp only
  rw [h b hb a ha]
  simp only [map_mul, map_sum]

/-- `X⁺`. -/
theorem Tr.dagger (h : Tr P Q U w X X') :
    Tr Q P U (starRingEnd ℂ w) (fun a b => conj (X b a)) (fun a b => conj (X' b a)) := by
  have := h.transpose.conj
  intro a ha b hb
  rw [this a ha b hb]
  simp only [Complex.conj_conj]

theorem Tr.weight (h : Tr P Q U w X X') (k k' : Nat → Nat → ℂ)
    (hk : ∀ b ∈ P, ∀ y ∈ P, ∀ a ∈ Q, ∀ z ∈ Q, U b y ≠ 0 → U a z ≠ 0 → k' b a = k y z) :
    Tr P Q U w (fun b a => k b a * X b a) (fun b a => k' b a * X' b a) := by
  intro b hb a ha
  simp only
  rw [h b hb a ha, mul_left_comm, mul_sum]
  congr 1
  refine sum_congr rfl fun y hy => ?_
  rw [mul_sum]
  refine sum_congr rfl fun z hz => ?_
  by_cases h1 : U b y = 0
  · simp [h1]
  by_cases h2 : U a z = 0
  · simp [h2]
  rw [hk b hb y hy a ha z hz h1 h2]; ring

/-- `X ρ Y` with a factor `κ` that depends only on the energies of the four states. -/
theorem sand {E E' : Nat → ℝ} (hE : ∀ b ∈ P, ∀ y ∈ P, U b y ≠ 0 → E' b = E y)
    (hE' : ∀ b ∈ Q, ∀ y ∈ Q, U b y ≠ 0 → E' b = E y) (hQ : Ortho Q U) {Y Y' : Nat → Nat → ℂ} (hX : Tr P Q U w X X')
    (hY : Tr Q P U w' Y Y') (hw : w * w' = 1) {ρ ρ' : Nat → Nat → ℂ} (hρ : ∀ a ∈ Q, ∀ ap ∈ Q, ρ' a ap = rot Q U ρ a ap)
    (κ κ' : Nat → Nat → Nat → Nat → ℂ) (g : ℝ → ℝ → ℝ → ℝ → ℂ)
    (hκ : ∀ b ∈ P, ∀ bp ∈ P, ∀ a ∈ Q, ∀ ap ∈ Q, κ b bp a ap = g (E b) (E bp) (E a) (E ap))
    (hκ' : ∀ b ∈ P, ∀ bp ∈ P, ∀ a ∈ Q, ∀ ap ∈ Q, κ' b bp a ap = g (E' b) (E' bp) (E' a) (E' ap))
    {b bp : Nat} (hb : b ∈ P) (hbp : bp ∈ P) :
    ∑ a ∈ Q, ∑ ap ∈ Q, X' b a * Y' ap bp * κ' b bp a ap * ρ' a ap =
      rot P U (fun b bp => ∑ a ∈ Q, ∑ ap ∈ Q, X b a * Y ap bp * κ b bp a ap * ρ a ap) b bp := by
  have hY' : ∀ zp ∈ Q, ∑ ap ∈ Q, Y' ap bp * conj (U ap zp) = w' * ∑ yp ∈ P, Y zp yp * conj (U bp yp) := by
    intro zp hzp
    rw [hY.transpose.right hQ.conj hbp hzp]
    simp only [mul_comm]
  have e1 : ∑ a ∈ Q, ∑ ap ∈ Q, X' b a * Y' ap bp * κ' b bp a ap * ρ' a ap =
      ∑ a ∈ Q, ∑ ap ∈ Q, ∑ z ∈ Q, ∑ zp ∈ Q, g (E' b) (E' bp) (E z) (E zp) * ρ z zp * ((X' b a * U a z) * (Y' ap bp * conj (U ap zp))) := by
    refine sum_congr rfl fun a ha => sum_congr rfl fun ap hap => ?_
    rw [hρ a ha ap hap, rot, mul_sum]
    refine sum_congr rfl fun z hz => ?_
    rw [mul_sum]
    refine sum_congr rfl fun zp hzp => ?_
    by_cases h1 : U a z = 0
    · simp [h1]
    by_cases h2 : U ap zp = 0
    · simp [h2]
    rw [hκ' b hb bp hbp a ha ap hap, hE' a ha z hz h1, hE' ap hap zp hzp h2]
    ring
  have e2 : ∑ a ∈ Q, ∑ ap ∈ Q, ∑ z ∈ Q, ∑ zp ∈ Q, g (E' b) (E' bp) (E z) (E zp) * ρ z zp * ((X' b a * U a z) * (Y' ap bp * conj (U ap zp))) =
      ∑ z ∈ Q, ∑ zp ∈ Q, g (E' b) (E' bp) (E z) (E zp) * ρ z zp * ((∑ a ∈ Q, X' b a * U a z) * ∑ ap ∈ Q, Y' ap bp * conj (U ap zp)) := by
    have : ∀ z zp, g (E' b) (E' bp) (E z) (E zp) * ρ z zp * ((∑ a ∈ Q, X' b a * U a z) * ∑ ap ∈ Q, Y' ap bp * conj (U ap zp)) =
        ∑ a ∈ Q, ∑ ap ∈ Q, g (E' b) (E' bp) (E z) (E zp) * ρ z zp * ((X' b a * U a z) * (Y' ap bp * conj (U ap zp))) := by
      intro z zp
      rw [sum_mul_sum, mul_sum]
      exact sum_congr rfl fun a _ => by rw [mul_sum]
    simp only [this]
    rw [sum_congr rfl fun a _ => sum_comm, sum_comm]
    refine sum_congr rfl fun z _ => ?_
    rw [sum_congr rfl fun a _ => sum_comm, sum_comm]
  rw [e1, e2]
  have e3 : ∀ z ∈ Q, ∀ zp ∈ Q, g (E' b) (E' bp) (E z) (E zp) * ρ z zp *
      ((∑ a ∈ Q, X' b a * U a z) * ∑ ap ∈ Q, Y' ap bp * conj (U ap zp)) =
      ∑ y ∈ P, ∑ yp ∈ P, U b y * (X y z * Y zp yp * κ y yp z zp * ρ z zp) * conj (U bp yp) := by
    intro z hz zp hzp
    rw [hX.right hQ hb hz, hY' zp hzp]
    have : g (E' b) (E' bp) (E z) (E zp) * ρ z zp * ((w * ∑ y ∈ P, U b y * X y z) * (w' * ∑ yp ∈ P, Y zp yp * conj (U bp yp))) =
        (w * w') * (g (E' b) (E' bp) (E z) (E zp) * ρ z zp * ((∑ y ∈ P, U b y * X y z) * ∑ yp ∈ P, Y zp yp * conj (U bp yp))) := by ring
    rw [this, hw, one_mul, sum_mul_sum, mul_sum]
    refine sum_congr rfl fun y hy => ?_
    rw [mul_sum]
    refine sum_congr rfl fun yp hyp => ?_
    by_cases h1 : U b y = 0
    · simp [h1]
    by_cases h2 : U bp yp = 0
    · simp [h2]
    rw [hκ y hy yp hyp z hz zp hzp, hE b hb y hy h1, hE bp hbp yp hyp h2]
    ring
  rw [sum_congr rfl fun z hz => sum_congr rfl fun zp hzp => e3 z hz zp hzp]
  unfold rot
  simp only [mul_sum, sum_mul]
  rw [sum_congr rfl fun z _ => sum_comm, sum_comm]
  refine sum_congr rfl fun y _ => ?_
  rw [sum_congr rfl fun z _ => sum_comm, sum_comm]

/-- `X Z ρ` with a factor `κ` that depends only on the energies of the states. -/
theorem left {E E' : Nat → ℝ} (hE : ∀ b ∈ P, ∀ y ∈ P, U b y ≠ 0 → E' b = E y)
    (hE' : ∀ b ∈ Q, ∀ y ∈ Q, U b y ≠ 0 → E' b = E y) (hP : Ortho P U) (hQ : Ortho Q U) {Z Z' : Nat → Nat → ℂ}
    (hX : Tr P Q U w X X') (hZ : Tr Q P U w' Z Z') (hw : w * w' = 1) {ρ ρ' : Nat → Nat → ℂ}
    (hρ : ∀ a ∈ P, ∀ ap ∈ P, ρ' a ap = rot P U ρ a ap) (κ κ' : Nat → Nat → Nat → Nat → ℂ) (g : ℝ → ℝ → ℝ → ℝ → ℂ)
    (hκ : ∀ b ∈ P, ∀ bp ∈ P, ∀ x ∈ P, ∀ a ∈ Q, κ b bp x a = g (E b) (E bp) (E x) (E a))
    (hκ' : ∀ b ∈ P, ∀ bp ∈ P, ∀ x ∈ P, ∀ a ∈ Q, κ' b bp x a = g (E' b) (E' bp) (E' x) (E' a))
    {b bp : Nat} (hb : b ∈ P) (hbp : bp ∈ P) :
    ∑ y ∈ P, ∑ a ∈ Q, X' b a * Z' a y * κ' b bp y a * ρ' y bp =
      rot P U (fun b bp => ∑ y ∈ P, ∑ a ∈ Q, X b a * Z a y * κ b bp y a * ρ y bp) b bp := by
  -- first the sum over `y`
  have e1 : ∑ y ∈ P, ∑ a ∈ Q, X' b a * Z' a y * κ' b bp y a * ρ' y bp =
      ∑ y ∈ P, ∑ a ∈ Q, ∑ z ∈ P, ∑ zp ∈ P, X' b a * g (E' b) (E' bp) (E z) (E' a) * ρ z zp * conj (U bp zp) * (Z' a y * U y z) := by
    refine sum_congr rfl fun y hy => sum_congr rfl fun a ha => ?_
    rw [hρ y hy bp hbp, rot, mul_sum]
    refine sum_congr rfl fun z hz => ?_
    rw [mul_sum]
    refine sum_congr rfl fun zp hzp => ?_
    by_cases h1 : U y z = 0
    · simp [h1]
    rw [hκ' b hb bp hbp y hy a ha, hE y hy z hz h1]
    ring
  have e2 : ∑ y ∈ P, ∑ a ∈ Q, ∑ z ∈ P, ∑ zp ∈ P, X' b a * g (E' b) (E' bp) (E z) (E' a) * ρ z zp * conj (U bp zp) * (Z' a y * U y z) =
      ∑ a ∈ Q, ∑ z ∈ P, ∑ zp ∈ P, X' b a * g (E' b) (E' bp) (E z) (E' a) * ρ z zp * conj (U bp zp) * ∑ y ∈ P, Z' a y * U y z := by
    rw [sum_comm]
    refine sum_congr rfl fun a _ => ?_
    rw [sum_comm]
    refine sum_congr rfl fun z _ => ?_
    rw [sum_comm]
    exact sum_congr rfl fun zp _ => by rw [mul_sum]
  have e3 : ∑ a ∈ Q, ∑ z ∈ P, ∑ zp ∈ P, X' b a * g (E' b) (E' bp) (E z) (E' a) * ρ z zp * conj (U bp zp) * ∑ y ∈ P, Z' a y * U y z =
      ∑ z ∈ P, ∑ zp ∈ P, ∑ a2 ∈ Q, w' * (g (E' b) (E' bp) (E z) (E a2) * ρ z zp * conj (U bp zp) * Z a2 z) * ∑ a ∈ Q, X' b a * U a a2 := by
    rw [sum_comm]
    refine sum_congr rfl fun z hz => ?_
    rw [sum_comm]
    refine sum_congr rfl fun zp hzp => ?_
    have : ∀ a ∈ Q, X' b a * g (E' b) (E' bp) (E z) (E' a) * ρ z zp * conj (U bp zp) * ∑ y ∈ P, Z' a y * U y z =
        ∑ a2 ∈ Q, w' * (g (E' b) (E' bp) (E z) (E a2) * ρ z zp * conj (U bp zp) * Z a2 z) * (X' b a * U a a2) := by
      intro a ha
      rw [hZ.right hP ha hz, mul_sum, mul_sum]
      refine sum_congr rfl fun a2 ha2 => ?_
      by_cases h1 : U a a2 = 0
      · simp [h1]
      rw [hE' a ha a2 ha2 h1]
      ring
    rw [sum_congr rfl this, sum_comm]
    exact sum_congr rfl fun a2 _ => by rw [mul_sum]
  rw [e1, e2, e3]
  have e4 : ∀ z ∈ P, ∀ zp ∈ P, ∀ a2 ∈ Q,
      w' * (g (E' b) (E' bp) (E z) (E a2) * ρ z zp * conj (U bp zp) * Z a2 z) * ∑ a ∈ Q, X' b a * U a a2 =
      ∑ y ∈ P, U b y * (X y a2 * Z a2 z * κ y zp z a2 * ρ z zp) * conj (U bp zp) := by
    intro z hz zp hzp a2 ha2
    rw [hX.right hQ hb ha2]
    have : w' * (g (E' b) (E' bp) (E z) (E a2) * ρ z zp * conj (U bp zp) * Z a2 z) * (w * ∑ y ∈ P, U b y * X y a2) =
        (w * w') * (g (E' b) (E' bp) (E z) (E a2) * ρ z zp * conj (U bp zp) * Z a2 z * ∑ y ∈ P, U b y * X y a2) := by ring
    rw [this, hw, one_mul, mul_sum]
    refine sum_congr rfl fun y hy => ?_
    by_cases h1 : U b y = 0
    · simp [h1]
    by_cases h2 : U bp zp = 0
    · simp [h2]
    rw [hκ y hy zp hzp z hz a2 ha2, hE b hb y hy h1, hE bp hbp zp hzp h2]
    ring
  rw [sum_congr rfl fun z hz => sum_congr rfl fun zp hzp => sum_congr rfl fun a2 ha2 => e4 z hz zp hzp a2 ha2]
  unfold rot
  simp only [mul_sum, sum_mul]
  rw [sum_comm]
  rw [sum_congr rfl fun zp _ => sum_congr rfl fun z _ => sum_comm]
  rw [sum_congr rfl fun zp _ => sum_comm, sum_comm]

/-- `ρ X Z`. -/
theorem right {E E' : Nat → ℝ} (hE : ∀ b ∈ P, ∀ y ∈ P, U b y ≠ 0 → E' b = E y)
    (hE' : ∀ b ∈ Q, ∀ y ∈ Q, U b y ≠ 0 → E' b = E y) (hP : Ortho P U) (hQ : Ortho Q U) {Z Z' : Nat → Nat → ℂ}
    (hX : Tr P Q U w X X') (hZ : Tr Q P U w' Z Z') (hw : w * w' = 1) {ρ ρ' : Nat → Nat → ℂ}
    (hρ : ∀ a ∈ P, ∀ ap ∈ P, ρ' a ap = rot P U ρ a ap) (κ κ' : Nat → Nat → Nat → Nat → ℂ) (g : ℝ → ℝ → ℝ → ℝ → ℂ)
    (hκ : ∀ b ∈ P, ∀ bp ∈ P, ∀ x ∈ P, ∀ a ∈ Q, κ b bp x a = g (E b) (E bp) (E x) (E a))
    (hκ' : ∀ b ∈ P, ∀ bp ∈ P, ∀ x ∈ P, ∀ a ∈ Q, κ' b bp x a = g (E' b) (E' bp) (E' x) (E' a))
    {b bp : Nat} (hb : b ∈ P) (hbp : bp ∈ P) :
    ∑ y ∈ P, ∑ a ∈ Q, X' y a * Z' a bp * κ' b bp y a * ρ' b y =
      rot P U (fun b bp => ∑ y ∈ P, ∑ a ∈ Q, X y a * Z a bp * κ b bp y a * ρ b y) b bp := by
  have key := left (E := E) (E' := E') (P := P) (Q := Q) (U := fun b y => conj (U b y)) (X := fun b a => Z a b)
    (X' := fun b a => Z' a b) (Z := fun a y => X y a) (Z' := fun a y => X' y a) (ρ := fun y b => ρ b y)
    (ρ' := fun y b => ρ' b y) (w := w') (w' := w)
    (fun b hb y hy hne => hE b hb y hy (by simpa using hne)) (fun b hb y hy hne => hE' b hb y hy (by simpa using hne))
    hP.conj hQ.conj hZ.transpose hX.transpose (by rw [mul_comm]; exact hw)
    (fun a ha ap hap => by
      rw [hρ ap hap a ha]
      unfold rot
      rw [sum_comm]
      refine sum_congr rfl fun _ _ => sum_congr rfl fun _ _ => ?_
      rw [Complex.conj_conj]; ring)
    (fun b bp y a => κ bp b y a) (fun b bp y a => κ' bp b y a) (fun e e' e2 e3 => g e' e e2 e3)
    (fun b hb bp hbp x hx a ha => hκ bp hbp b hb x hx a ha)
    (fun b hb bp hbp x hx a ha => hκ' bp hbp b hb x hx a ha) hbp hb
  rw [show ∑ y ∈ P, ∑ a ∈ Q, X' y a * Z' a bp * κ' b bp y a * ρ' b y =
    ∑ y ∈ P, ∑ a ∈ Q, Z' a bp * X' y a * κ' b bp y a * ρ' b y from
    sum_congr rfl fun _ _ => sum_congr rfl fun _ _ => by ring, key]
  unfold rot
  rw [sum_comm]
  refine sum_congr rfl fun y _ => sum_congr rfl fun yp _ => ?_
  have e : ∑ x ∈ P, ∑ a ∈ Q, Z a yp * X x a * κ y yp x a * ρ y x =
      ∑ x ∈ P, ∑ a ∈ Q, X x a * Z a yp * κ y yp x a * ρ y x :=
    sum_congr rfl fun _ _ => sum_congr rfl fun _ _ => by ring
  simp only [Complex.conj_conj, e]
  ring

end

end

end Verif
