import Verif.Props.Basis
import Verif.Spec.SpinMult

/-! Operators that commute with the Hamiltonian and act on the leads: the equations of motion
commute with them. -/

namespace Verif

open Finset
open Complex (I)
open scoped ComplexConjugate

noncomputable section

/-- Product of three matrices with a factor. -/
def tri (P P' : Finset Nat) (κ : Nat → Nat → Nat → Nat → ℂ) (M1 M2 M3 : Nat → Nat → ℂ) (b bp : Nat) : ℂ :=
  ∑ a ∈ P, ∑ ap ∈ P', M1 b a * M2 a ap * M3 ap bp * κ b a ap bp

/-- The factor is the same for states connected by `X`. -/
structure Inv4 (B P P' B' : Finset Nat) (X : Nat → Nat → ℂ) (κ : Nat → Nat → Nat → Nat → ℂ) : Prop where
  i1 : ∀ b ∈ B, ∀ y ∈ B, ∀ a ∈ P, ∀ ap ∈ P', ∀ bp ∈ B', X b y ≠ 0 → κ y a ap bp = κ b a ap bp
  i2 : ∀ b ∈ B, ∀ a ∈ P, ∀ y ∈ P, ∀ ap ∈ P', ∀ bp ∈ B', X a y ≠ 0 → κ b y ap bp = κ b a ap bp
  i3 : ∀ b ∈ B, ∀ a ∈ P, ∀ ap ∈ P', ∀ y ∈ P', ∀ bp ∈ B', X ap y ≠ 0 → κ b a y bp = κ b a ap bp
  i4 : ∀ b ∈ B, ∀ a ∈ P, ∀ ap ∈ P', ∀ bp ∈ B', ∀ y ∈ B', X bp y ≠ 0 → κ b a ap y = κ b a ap bp

theorem ite_kill {x u w : ℂ} {p : ℂ} (h : p ≠ 0 → u = w) : x * p * u = x * p * w := by
  by_cases e : p = 0
  · rw [e]; ring
  · rw [h e]

theorem tri_deriv {B P P' B' : Finset Nat} {X : Nat → Nat → ℂ} {κ : Nat → Nat → Nat → Nat → ℂ}
    (hκ : Inv4 B P P' B' X κ) (M1 M2 M3 : Nat → Nat → ℂ) {b bp : Nat} (hb : b ∈ B) (hbp : bp ∈ B') :
    comm B B' X (tri P P' κ M1 M2 M3) b bp =
      tri P P' κ (comm B P X M1) M2 M3 b bp + tri P P' κ M1 (comm P P' X M2) M3 b bp +
      tri P P' κ M1 M2 (comm P' B' X M3) b bp := by
  have e1 : ∑ y ∈ B, X b y * tri P P' κ M1 M2 M3 y bp =
      ∑ a ∈ P, ∑ ap ∈ P', (∑ y ∈ B, X b y * M1 y a) * M2 a ap * M3 ap bp * κ b a ap bp := by
    unfold tri
    simp only [mul_sum, sum_mul]
    rw [sum_comm]
    refine sum_congr rfl fun a ha => ?_
    rw [sum_comm]
    refine sum_congr rfl fun ap hap => sum_congr rfl fun y hy => ?_
    linear_combination ite_kill (x := M1 y a * M2 a ap * M3 ap bp) fun h => hκ.i1 b hb y hy a ha ap hap bp hbp h
  have e2 : ∑ a ∈ P, ∑ ap ∈ P', (∑ y ∈ P, M1 b y * X y a) * M2 a ap * M3 ap bp * κ b a ap bp =
      ∑ a ∈ P, ∑ ap ∈ P', M1 b a * (∑ y ∈ P, X a y * M2 y ap) * M3 ap bp * κ b a ap bp := by
    rw [sum_comm, sum_comm (s := P)]
    refine sum_congr rfl fun ap hap => ?_
    simp only [mul_sum, sum_mul]
    rw [sum_comm]
    refine sum_congr rfl fun a ha => sum_congr rfl fun y hy => ?_
    linear_combination ite_kill (x := M1 b a * M2 y ap * M3 ap bp) fun h => hκ.i2 b hb a ha y hy ap hap bp hbp h
  have e3 : ∑ a ∈ P, ∑ ap ∈ P', M1 b a * (∑ y ∈ P', M2 a y * X y ap) * M3 ap bp * κ b a ap bp =
      ∑ a ∈ P, ∑ ap ∈ P', M1 b a * M2 a ap * (∑ y ∈ P', X ap y * M3 y bp) * κ b a ap bp := by
    refine sum_congr rfl fun a ha => ?_
    simp only [mul_sum, sum_mul]
    rw [sum_comm]
    refine sum_congr rfl fun ap hap => sum_congr rfl fun y hy => ?_
    linear_combination ite_kill (x := M1 b a * M2 a ap * M3 y bp) fun h => hκ.i3 b hb a ha ap hap y hy bp hbp h
  have e4 : ∑ y ∈ B', tri P P' κ M1 M2 M3 b y * X y bp =
      ∑ a ∈ P, ∑ ap ∈ P', M1 b a * M2 a ap * (∑ y ∈ B', M3 ap y * X y bp) * κ b a ap bp := by
    unfold tri
    simp only [mul_sum, sum_mul]
    rw [sum_comm]
    refine sum_congr rfl fun a ha => ?_
    rw [sum_comm]
    refine sum_congr rfl fun ap hap => sum_congr rfl fun y hy => ?_
    have := ite_kill (x := M1 b a * M2 a ap * M3 ap y) fun h => (hκ.i4 b hb a ha ap hap y hy bp hbp h).symm
    linear_combination this
  have s1 : tri P P' κ (comm B P X M1) M2 M3 b bp =
      ∑ a ∈ P, ∑ ap ∈ P', (∑ y ∈ B, X b y * M1 y a) * M2 a ap * M3 ap bp * κ b a ap bp -
      ∑ a ∈ P, ∑ ap ∈ P', (∑ y ∈ P, M1 b y * X y a) * M2 a ap * M3 ap bp * κ b a ap bp := by
    unfold tri comm
    simp only [← sum_sub_distrib]
    exact sum_congr rfl fun a _ => sum_congr rfl fun ap _ => by ring
  have s2 : tri P P' κ M1 (comm P P' X M2) M3 b bp =
      ∑ a ∈ P, ∑ ap ∈ P', M1 b a * (∑ y ∈ P, X a y * M2 y ap) * M3 ap bp * κ b a ap bp -
      ∑ a ∈ P, ∑ ap ∈ P', M1 b a * (∑ y ∈ P', M2 a y * X y ap) * M3 ap bp * κ b a ap bp := by
    unfold tri comm
    simp only [← sum_sub_distrib]
    exact sum_congr rfl fun a _ => sum_congr rfl fun ap _ => by
      ring
  have s3 : tri P P' κ M1 M2 (comm P' B' X M3) b bp =
      ∑ a ∈ P, ∑ ap ∈ P', M1 b a * M2 a ap * (∑ y ∈ P', X ap y * M3 y bp) * κ b a ap bp -
      ∑ a ∈ P, ∑ ap ∈ P', M1 b a * M2 a ap * (∑ y ∈ B', M3 ap y * X y bp) * κ b a ap bp := by
    unfold tri comm
    simp only [← sum_sub_distrib]
    exact sum_congr rfl fun a _ => sum_congr rfl fun ap _ => by
      ring
  rw [comm, e1, e4, s1, s2, s3, e2, e3]
  ring

theorem comm_sum {B P : Finset Nat} {X : Nat → Nat → ℂ} (r : Finset Nat) (F : Nat → Nat → Nat → ℂ) (b a : Nat) :
    comm B P X (fun b a => ∑ l ∈ r, F l b a) b a = ∑ l ∈ r, comm B P X (F l) b a := by
  unfold comm
  simp only [mul_sum, sum_mul, sum_sub_distrib]
  congr 1 <;> rw [sum_comm]

theorem comm_add {B P : Finset Nat} {X : Nat → Nat → ℂ} (F G : Nat → Nat → ℂ) (b a : Nat) :
    comm B P X (fun b a => F b a + G b a) b a = comm B P X F b a + comm B P X G b a := by
  unfold comm
  simp only [mul_add, add_mul, sum_add_distrib]
  ring

theorem comm_congr {B P : Finset Nat} {X : Nat → Nat → ℂ} {F G : Nat → Nat → ℂ} {b a : Nat} (hb : b ∈ B) (ha : a ∈ P)
    (e : ∀ b ∈ B, ∀ a ∈ P, F b a = G b a) : comm B P X F b a = comm B P X G b a := by
  unfold comm
  rw [sum_congr rfl fun y hy => by rw [e y hy a ha], sum_congr (s₁ := P) rfl fun y hy => by rw [e b hb y hy]]

theorem tri_congr {P P' : Finset Nat} {κ : Nat → Nat → Nat → Nat → ℂ} {M1 M2 M3 N1 N2 N3 : Nat → Nat → ℂ} {b bp : Nat}
    (e1 : ∀ a ∈ P, M1 b a = N1 b a) (e2 : ∀ a ∈ P, ∀ ap ∈ P', M2 a ap = N2 a ap) (e3 : ∀ ap ∈ P', M3 ap bp = N3 ap bp) :
    tri P P' κ M1 M2 M3 b bp = tri P P' κ N1 N2 N3 b bp :=
  sum_congr rfl fun a ha => sum_congr rfl fun ap hap => by rw [e1 a ha, e2 a ha ap hap, e3 ap hap]

theorem tri_sum1 {P P' : Finset Nat} {κ : Nat → Nat → Nat → Nat → ℂ} (r : Finset Nat) (x : Nat → ℂ)
    (M1 : Nat → Nat → Nat → ℂ) (M2 M3 : Nat → Nat → ℂ) (b bp : Nat) :
    tri P P' κ (fun b a => ∑ l ∈ r, x l * M1 l b a) M2 M3 b bp = ∑ l ∈ r, x l * tri P P' κ (M1 l) M2 M3 b bp := by
  unfold tri
  simp only [mul_sum, sum_mul]
  rw [sum_comm (s := r)]
  refine sum_congr rfl fun a _ => ?_
  rw [sum_comm (s := r)]
  exact sum_congr rfl fun ap _ => sum_congr rfl fun l _ => by ring

theorem tri_sum2 {P P' : Finset Nat} {κ : Nat → Nat → Nat → Nat → ℂ} (r : Finset Nat) (x : Nat → ℂ)
    (M2 : Nat → Nat → Nat → ℂ) (M1 M3 : Nat → Nat → ℂ) (b bp : Nat) :
    tri P P' κ M1 (fun b a => ∑ l ∈ r, x l * M2 l b a) M3 b bp = ∑ l ∈ r, x l * tri P P' κ M1 (M2 l) M3 b bp := by
  unfold tri
  simp only [mul_sum, sum_mul]
  rw [sum_comm (s := r)]
  refine sum_congr rfl fun a _ => ?_
  rw [sum_comm (s := r)]
  exact sum_congr rfl fun ap _ => sum_congr rfl fun l _ => by ring

theorem tri_sum3 {P P' : Finset Nat} {κ : Nat → Nat → Nat → Nat → ℂ} (r : Finset Nat) (x : Nat → ℂ)
    (M3 : Nat → Nat → Nat → ℂ) (M1 M2 : Nat → Nat → ℂ) (b bp : Nat) :
    tri P P' κ M1 M2 (fun b a => ∑ l ∈ r, x l * M3 l b a) b bp = ∑ l ∈ r, x l * tri P P' κ M1 M2 (M3 l) b bp := by
  unfold tri
  simp only [mul_sum, sum_mul]
  rw [sum_comm (s := r)]
  refine sum_congr rfl fun a _ => ?_
  rw [sum_comm (s := r)]
  exact sum_congr rfl fun ap _ => sum_congr rfl fun l _ => by ring

/-- The changes of the two matrices cancel in the sum over the leads. -/
theorem cancel {r : Finset Nat} {g : Nat → Nat → ℂ} (F : Nat → Nat → Nat → ℂ)
    (h : ∀ l ∈ r, ∀ l' ∈ r, g l l' ≠ 0 → F l l' l = F l' l' l) :
    ∑ l ∈ r, (∑ l' ∈ r, g l l' * F l l' l + ∑ l' ∈ r, -g l' l * F l l l') = 0 := by
  rw [sum_add_distrib, sum_comm (f := fun l l' => -g l' l * F l l l'), ← sum_add_distrib]
  refine sum_eq_zero fun l hl => ?_
  rw [← sum_add_distrib]
  refine sum_eq_zero fun l' hl' => ?_
  by_cases e : g l l' = 0
  · rw [e]; ring
  · rw [h l hl l' hl' e]; ring

section
variable {r B P : Finset Nat} {X : Nat → Nat → ℂ} {g : Nat → Nat → ℂ} {T : Nat → Nat → Nat → ℂ}
  {κ : Nat → Nat → Nat → Nat → Nat → ℂ} {M : Nat → Nat → ℂ}
  (ld : ∀ l ∈ r, ∀ l' ∈ r, g l l' ≠ 0 → κ l = κ l')
  (h1 : ∀ l ∈ r, ∀ b ∈ B, ∀ a ∈ P, comm B P X (T l) b a = ∑ l' ∈ r, g l l' * T l' b a)
  (h2 : ∀ l ∈ r, ∀ a ∈ P, ∀ b ∈ B, comm P B X (T l) a b = ∑ l' ∈ r, -g l' l * T l' a b)
include ld h1 h2

theorem tri_TMT (hκ : ∀ l ∈ r, Inv4 B P P B X (κ l)) (hM : ∀ a ∈ P, ∀ ap ∈ P, comm P P X M a ap = 0) {b bp : Nat}
    (hb : b ∈ B) (hbp : bp ∈ B) : ∑ l ∈ r, comm B B X (tri P P (κ l) (T l) M (T l)) b bp = 0 := by
  rw [← cancel (r := r) (g := g) (fun l i j => tri P P (κ l) (T i) M (T j) b bp)
    (fun l hl l' hl' e => by rw [ld l hl l' hl' e])]
  refine sum_congr rfl fun l hl => ?_
  rw [tri_deriv (hκ l hl) _ _ _ hb hbp, ← tri_sum1, ← tri_sum3]
  rw [tri_congr (M1 := comm B P X (T l)) (N1 := fun b a => ∑ l' ∈ r, g l l' * T l' b a)
      (fun a ha => h1 l hl b hb a ha) (fun _ _ _ _ => rfl) (fun _ _ => rfl),
    tri_congr (M3 := comm P B X (T l)) (N3 := fun a b => ∑ l' ∈ r, -g l' l * T l' a b)
      (fun _ _ => rfl) (fun _ _ _ _ => rfl) (fun a ha => h2 l hl a ha bp hbp),
    tri_congr (M2 := comm P P X M) (N2 := fun _ _ => 0) (fun _ _ => rfl) hM (fun _ _ => rfl)]
  simp [tri]

theorem tri_TTM (hκ : ∀ l ∈ r, Inv4 B P B B X (κ l)) (hM : ∀ a ∈ B, ∀ ap ∈ B, comm B B X M a ap = 0) {b bp : Nat}
    (hb : b ∈ B) (hbp : bp ∈ B) : ∑ l ∈ r, comm B B X (tri P B (κ l) (T l) (T l) M) b bp = 0 := by
  rw [← cancel (r := r) (g := g) (fun l i j => tri P B (κ l) (T i) (T j) M b bp)
    (fun l hl l' hl' e => by rw [ld l hl l' hl' e])]
  refine sum_congr rfl fun l hl => ?_
  rw [tri_deriv (hκ l hl) _ _ _ hb hbp, ← tri_sum1, ← tri_sum2]
  rw [tri_congr (M1 := comm B P X (T l)) (N1 := fun b a => ∑ l' ∈ r, g l l' * T l' b a)
      (fun a ha => h1 l hl b hb a ha) (fun _ _ _ _ => rfl) (fun _ _ => rfl),
    tri_congr (M2 := comm P B X (T l)) (N2 := fun a b => ∑ l' ∈ r, -g l' l * T l' a b)
      (fun _ _ => rfl) (fun a ha y hy => h2 l hl a ha y hy) (fun _ _ => rfl),
    tri_congr (M3 := comm B B X M) (N3 := fun _ _ => 0) (fun _ _ => rfl) (fun _ _ _ _ => rfl) (fun a ha => hM a ha bp hbp)]
  simp [tri]

theorem tri_MTT (hκ : ∀ l ∈ r, Inv4 B B P B X (κ l)) (hM : ∀ a ∈ B, ∀ ap ∈ B, comm B B X M a ap = 0) {b bp : Nat}
    (hb : b ∈ B) (hbp : bp ∈ B) : ∑ l ∈ r, comm B B X (tri B P (κ l) M (T l) (T l)) b bp = 0 := by
  rw [← cancel (r := r) (g := g) (fun l i j => tri B P (κ l) M (T i) (T j) b bp)
    (fun l hl l' hl' e => by rw [ld l hl l' hl' e])]
  refine sum_congr rfl fun l hl => ?_
  rw [tri_deriv (hκ l hl) _ _ _ hb hbp, ← tri_sum2, ← tri_sum3]
  rw [tri_congr (M2 := comm B P X (T l)) (N2 := fun b a => ∑ l' ∈ r, g l l' * T l' b a)
      (fun _ _ => rfl) (fun y hy a ha => h1 l hl y hy a ha) (fun _ _ => rfl),
    tri_congr (M3 := comm P B X (T l)) (N3 := fun a b => ∑ l' ∈ r, -g l' l * T l' a b)
      (fun _ _ => rfl) (fun _ _ _ _ => rfl) (fun a ha => h2 l hl a ha bp hbp),
    tri_congr (M1 := comm B B X M) (N1 := fun _ _ => 0) (fun a ha => hM b hb a ha) (fun _ _ _ _ => rfl) (fun _ _ => rfl)]
  simp [tri]

end

/-- Right-hand side of the equation of motion for one lead, with general factors. -/
def gen (v : View) (T : TMat) (κ : Fin 6 → Nat → Nat → Nat → Nat → Nat → ℂ) (ρ : Nat → Nat → Nat → ℂ) (l c b bp : Nat) : ℂ :=
  tri (v.Lo c) (v.Lo c) (κ 0 l) (T l) (ρ (c - 1)) (T l) b bp +
  tri (v.Lo c) (v.R c) (κ 1 l) (T l) (T l) (ρ c) b bp +
  tri (v.R (c + 1)) (v.R c) (κ 2 l) (T l) (T l) (ρ c) b bp +
  tri (v.R c) (v.Lo c) (κ 3 l) (ρ c) (T l) (T l) b bp +
  tri (v.R c) (v.R (c + 1)) (κ 4 l) (ρ c) (T l) (T l) b bp +
  tri (v.R (c + 1)) (v.R (c + 1)) (κ 5 l) (T l) (ρ (c + 1)) (T l) b bp

/-- `X` connects states of equal energy and turns the tunnelling matrices into combinations of those of leads with
the same factors. -/
structure Symm (v : View) (E : Nat → ℝ) (T : TMat) (X g : Nat → Nat → ℂ) : Prop where
  energy : ∀ q, ∀ b ∈ v.R q, ∀ y ∈ v.R q, X b y ≠ 0 → E b = E y
  up : ∀ l ∈ range v.nleads, ∀ q, ∀ x ∈ v.R (q + 1), ∀ b ∈ v.R q,
    comm (v.R (q + 1)) (v.R q) X (T l) x b = ∑ l' ∈ range v.nleads, g l l' * T l' x b
  down : ∀ l ∈ range v.nleads, ∀ q, ∀ x ∈ v.R (q + 1), ∀ b ∈ v.R q,
    comm (v.R q) (v.R (q + 1)) X (T l) b x = ∑ l' ∈ range v.nleads, -g l' l * T l' b x

/-- Factors that depend on the energies of the states, and on the leads through what `g` keeps. -/
structure FacOk (v : View) (E : Nat → ℝ) (g : Nat → Nat → ℂ) (κ : Nat → Nat → Nat → Nat → Nat → ℂ) : Prop where
  en : ∀ l b a ap bp b' a' ap' bp', E b = E b' → E a = E a' → E ap = E ap' → E bp = E bp' →
    κ l b a ap bp = κ l b' a' ap' bp'
  ld : ∀ l ∈ range v.nleads, ∀ l' ∈ range v.nleads, g l l' ≠ 0 → κ l = κ l'

theorem FacOk.inv4 {v : View} {E : Nat → ℝ} {X g : Nat → Nat → ℂ} {κ : Nat → Nat → Nat → Nat → Nat → ℂ}
    (h : FacOk v E g κ) (hX : ∀ q, ∀ b ∈ v.R q, ∀ y ∈ v.R q, X b y ≠ 0 → E b = E y) (q1 q2 q3 q4 l : Nat) :
    Inv4 (v.R q1) (v.R q2) (v.R q3) (v.R q4) X (κ l) where
  i1 b hb y hy a _ ap _ bp _ e := h.en l y a ap bp b a ap bp (hX q1 b hb y hy e).symm rfl rfl rfl
  i2 b _ a ha y hy ap _ bp _ e := h.en l b y ap bp b a ap bp rfl (hX q2 a ha y hy e).symm rfl rfl
  i3 b _ a _ ap hap y hy bp _ e := h.en l b a y bp b a ap bp rfl rfl (hX q3 ap hap y hy e).symm rfl
  i4 b _ a _ ap _ bp hbp y hy e := h.en l b a ap y b a ap bp rfl rfl rfl (hX q4 bp hbp y hy e).symm

/-- If `X` commutes with the density matrix, it commutes with its time derivative. -/
theorem gen_comm {v : View} {la : Lab} (h : VMul v la) {E : Nat → ℝ} {T : TMat} {X g : Nat → Nat → ℂ} (hX : Symm v E T X g)
    {κ : Fin 6 → Nat → Nat → Nat → Nat → Nat → ℂ} (hκ : ∀ i, FacOk v E g (κ i)) {ρ : Nat → Nat → Nat → ℂ}
    (hρ : ∀ q, ∀ b ∈ v.R q, ∀ bp ∈ v.R q, comm (v.R q) (v.R q) X (ρ q) b bp = 0) {c b bp : Nat} (hb : b ∈ v.R c)
    (hbp : bp ∈ v.R c) :
    comm (v.R c) (v.R c) X (fun b bp => ∑ l ∈ range v.nleads, gen v T κ ρ l c b bp) b bp = 0 := by
  let g' : Nat → Nat → ℂ := fun l l' => -g l' l
  have ld : ∀ i, ∀ l ∈ range v.nleads, ∀ l' ∈ range v.nleads, g l l' ≠ 0 → κ i l = κ i l' := fun i => (hκ i).ld
  have ld' : ∀ i, ∀ l ∈ range v.nleads, ∀ l' ∈ range v.nleads, g' l l' ≠ 0 → κ i l = κ i l' := fun i l hl l' hl' e =>
    ((hκ i).ld l' hl' l hl (by simpa [g'] using e)).symm
  have u1 : ∀ q, ∀ l ∈ range v.nleads, ∀ x ∈ v.R (q + 1), ∀ b ∈ v.R q,
    comm (v.R (q + 1)) (v.R q) X (T l) x b = ∑ l' ∈ range v.nleads, g l l' * T l' x b := fun q l hl => hX.up l hl q
  have u2 : ∀ q, ∀ l ∈ range v.nleads, ∀ b ∈ v.R q, ∀ x ∈ v.R (q + 1),
    comm (v.R q) (v.R (q + 1)) X (T l) b x = ∑ l' ∈ range v.nleads, -g l' l * T l' b x :=
    fun q l hl b hb x hx => hX.down l hl q x hx b hb
  have d1 : ∀ q, ∀ l ∈ range v.nleads, ∀ b ∈ v.R q, ∀ x ∈ v.R (q + 1),
    comm (v.R q) (v.R (q + 1)) X (T l) b x = ∑ l' ∈ range v.nleads, g' l l' * T l' b x := u2
  have d2 : ∀ q, ∀ l ∈ range v.nleads, ∀ x ∈ v.R (q + 1), ∀ b ∈ v.R q,
    comm (v.R (q + 1)) (v.R q) X (T l) x b = ∑ l' ∈ range v.nleads, -g' l' l * T l' x b := by
    simpa [g'] using u1
  have iv := fun i => (hκ i).inv4 hX.energy
  rw [comm_sum]
  unfold gen
  simp only [comm_add, sum_add_distrib]
  have z : ∀ (κ : Nat → Nat → Nat → Nat → Nat → ℂ) (M1 M2 M3 : Nat → Nat → Nat → ℂ) (P : Finset Nat) (Q : Finset Nat),
      P = ∅ ∨ Q = ∅ → ∑ l ∈ range v.nleads, comm (v.R c) (v.R c) X (tri P Q (κ l) (M1 l) (M2 l) (M3 l)) b bp = 0 := by
    rintro κ M1 M2 M3 P Q (rfl | rfl) <;> simp [comm, tri]
  have t3 := tri_TTM (ld' 2) (d1 c) (d2 c) (fun l _ => iv 2 _ _ _ _ l) (hρ c) hb hbp
  have t5 := tri_MTT (ld' 4) (d1 c) (d2 c) (fun l _ => iv 4 _ _ _ _ l) (hρ c) hb hbp
  have t6 := tri_TMT (ld' 5) (d1 c) (d2 c) (fun l _ => iv 5 _ _ _ _ l) (hρ (c + 1)) hb hbp
  rw [t3, t5, t6]
  rcases c with _ | c
  · rw [h.Lo_zero]
    rw [z (κ 0) T (fun _ => ρ (0 - 1)) T _ _ (Or.inl rfl), z (κ 1) T T (fun _ => ρ 0) _ _ (Or.inl rfl),
      z (κ 3) (fun _ => ρ 0) T T _ _ (Or.inr rfl)]
    ring
  · rw [h.Lo_succ, Nat.add_sub_cancel]
    rw [tri_TMT (ld 0) (u1 c) (u2 c) (fun l _ => iv 0 _ _ _ _ l) (hρ c) hb hbp,
      tri_TTM (ld 1) (u1 c) (u2 c) (fun l _ => iv 1 _ _ _ _ l) (hρ (c + 1)) hb hbp,
      tri_MTT (ld 3) (u1 c) (u2 c) (fun l _ => iv 3 _ _ _ _ l) (hρ (c + 1)) hb hbp]
    ring

/-! ### The equations of the approaches in this form -/

/-- The factors of 1vN and Redfield. -/
def cohFac (K0 K1 : Nat → Nat → Nat → Nat → ℂ) : Fin 6 → Nat → Nat → Nat → Nat → Nat → ℂ
  | 0 => fun l b a ap bp => conj (K0 l bp a ap) - K0 l b ap a
  | 1 => fun l _ a y bp => conj (K1 l bp y a)
  | 2 => fun l _ x y bp => K0 l x bp y
  | 3 => fun l b y a _ => -K1 l b y a
  | 4 => fun l b y x _ => -conj (K0 l x b y)
  | 5 => fun l b x xp bp => K1 l x xp bp - conj (K1 l xp x b)

theorem Coh.SL_gen (v : View) (T : TMat) (K0 K1 : Nat → Nat → Nat → Nat → ℂ) (ρ : Nat → Nat → Nat → ℂ) (l c b bp : Nat) :
    Coh.SL v T (fun l _ => K0 l) (fun l _ => K1 l) ρ l c b bp = gen v T (cohFac K0 K1) ρ l c b bp := by
  unfold Coh.SL gen tri cohFac
  rw [sum_comm (s := v.R c) (t := v.Lo c), sum_comm (s := v.R c) (t := v.R (c + 1))]
  refine congrArg₂ (· + ·) (congrArg₂ (· + ·) (congrArg₂ (· + ·) (congrArg₂ (· + ·) (congrArg₂ (· + ·) ?_ ?_) ?_) ?_) ?_) ?_
  all_goals exact sum_congr rfl fun _ _ => sum_congr rfl fun _ _ => by ring

theorem cohFac_ok {v : View} {E : Nat → ℝ} {g : Nat → Nat → ℂ} {K0 K1 : Nat → Nat → Nat → Nat → ℂ}
    (e0 : ∀ l x b bp x' b' bp', E x = E x' → E b = E b' → E bp = E bp' → K0 l x b bp = K0 l x' b' bp')
    (e1 : ∀ l x b bp x' b' bp', E x = E x' → E b = E b' → E bp = E bp' → K1 l x b bp = K1 l x' b' bp')
    (l0 : ∀ l ∈ range v.nleads, ∀ l' ∈ range v.nleads, g l l' ≠ 0 → K0 l = K0 l')
    (l1 : ∀ l ∈ range v.nleads, ∀ l' ∈ range v.nleads, g l l' ≠ 0 → K1 l = K1 l') (i : Fin 6) :
    FacOk v E g (cohFac K0 K1 i) := by
  fin_cases i
  · exact ⟨fun l b a ap bp b' a' ap' bp' h1 h2 h3 h4 => by
      simp only [cohFac]; rw [e0 l bp a ap bp' a' ap' h4 h2 h3, e0 l b ap a b' ap' a' h1 h3 h2],
      fun l hl l' hl' h => by simp only [cohFac]; rw [l0 l hl l' hl' h]⟩
  · exact ⟨fun l b a ap bp b' a' ap' bp' h1 h2 h3 h4 => by
      simp only [cohFac]; rw [e1 l bp ap a bp' ap' a' h4 h3 h2],
      fun l hl l' hl' h => by simp only [cohFac]; rw [l1 l hl l' hl' h]⟩
  · exact ⟨fun l b a ap bp b' a' ap' bp' h1 h2 h3 h4 => by
      simp only [cohFac]; rw [e0 l a bp ap a' bp' ap' h2 h4 h3],
      fun l hl l' hl' h => by simp only [cohFac]; rw [l0 l hl l' hl' h]⟩
  · exact ⟨fun l b a ap bp b' a' ap' bp' h1 h2 h3 h4 => by
      simp only [cohFac]; rw [e1 l b a ap b' a' ap' h1 h2 h3],
      fun l hl l' hl' h => by simp only [cohFac]; rw [l1 l hl l' hl' h]⟩
  · exact ⟨fun l b a ap bp b' a' ap' bp' h1 h2 h3 h4 => by
      simp only [cohFac]; rw [e0 l ap b a ap' b' a' h3 h1 h2],
      fun l hl l' hl' h => by simp only [cohFac]; rw [l0 l hl l' hl' h]⟩
  · exact ⟨fun l b a ap bp b' a' ap' bp' h1 h2 h3 h4 => by
      simp only [cohFac]; rw [e1 l a ap bp a' ap' bp' h2 h3 h4, e1 l ap a b ap' a' b' h3 h2 h1],
      fun l hl l' hl' h => by simp only [cohFac]; rw [l1 l hl l' hl' h]⟩

/-- The factors of Lindblad, for jump matrices `√fp T` and `√fm T`. -/
def lindFac (E : Nat → ℝ) (fp fm : Nat → ℝ → ℝ) : Fin 6 → Nat → Nat → Nat → Nat → Nat → ℂ
  | 0 => fun l b a ap bp => Real.sqrt (fp l (E b - E a)) * Real.sqrt (fp l (E bp - E ap)) * I
  | 1 => fun l b a y _ => Real.sqrt (fm l (E b - E a)) * Real.sqrt (fm l (E y - E a)) * (-(1 / 2) * I)
  | 2 => fun l b x y _ => Real.sqrt (fp l (E x - E b)) * Real.sqrt (fp l (E x - E y)) * (-(1 / 2) * I)
  | 3 => fun l _ y a bp => Real.sqrt (fm l (E y - E a)) * Real.sqrt (fm l (E bp - E a)) * (-(1 / 2) * I)
  | 4 => fun l _ y x bp => Real.sqrt (fp l (E x - E y)) * Real.sqrt (fp l (E x - E bp)) * (-(1 / 2) * I)
  | 5 => fun l b x xp bp => Real.sqrt (fm l (E x - E b)) * Real.sqrt (fm l (E xp - E bp)) * I

theorem lindFac_ok {v : View} {E : Nat → ℝ} {g : Nat → Nat → ℂ} {fp fm : Nat → ℝ → ℝ}
    (l0 : ∀ l ∈ range v.nleads, ∀ l' ∈ range v.nleads, g l l' ≠ 0 → fp l = fp l' ∧ fm l = fm l') (i : Fin 6) :
    FacOk v E g (lindFac E fp fm i) := by
  fin_cases i <;>
  exact ⟨fun l b a ap bp b' a' ap' bp' h1 h2 h3 h4 => by simp only [lindFac, h1, h2, h3, h4],
      fun l hl l' hl' h => by simp only [lindFac, (l0 l hl l' hl' h).1, (l0 l hl l' hl' h).2]⟩

end

end Verif
