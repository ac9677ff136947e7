import Verif.Spec.Hilbert
import Verif.Spec.LabelsC
import Mathlib.Analysis.Complex.Basic

/-! The integral equation of the 2vN approach in terms of matrices. -/

namespace Verif

open Finset

noncomputable section

namespace VN2

open Classical in
/-- The value at `E` of the broken line with the values `f` at `x`, `x + h`, ...; zero outside of the grid. -/
def sample (x h : ℝ) (f : List ℂ) (E : ℝ) : ℂ :=
  if x ≤ E ∧ E ≤ x + ((f.length : ℝ) - 1) * h then ∑ i ∈ range f.length, f.getD i 0 * (hat ((E - x) / h - i) : ℂ) else 0

/-- The energies `x`, `x + h`, ... (`len` points), extended by `left` and `right` points. -/
structure Grid where
  x : ℝ
  h : ℝ
  len : Nat
  left : Nat
  right : Nat

/-- `w` is the broken line through the values `f` at the grid points, zero on the extension; `t` is the broken line through
the values of its Hilbert transform at the points of the extended grid. -/
def Grid.Pair (g : Grid) (f : Nat → ℂ) (w t : ℝ → ℂ) : Prop :=
  w = sample (g.x - g.left * g.h) g.h (List.replicate g.left 0 ++ (List.range g.len).map f ++ List.replicate g.right 0) ∧
  ∃ z : List ℂ, z.length = g.len + g.left + g.right ∧ t = sample (g.x - g.left * g.h) g.h z ∧
    ∀ i < g.len + g.left + g.right, IsHilbert g.x g.h ((List.range g.len).map f) (g.x - (g.left + 1) * g.h)
      (g.x + (g.len + g.right : ℕ) * g.h) (g.x + ((i : ℝ) - g.left) * g.h) (z.getD i 0)

/-- Many-body states with their charges and energies, and the amplitudes for tunnelling to the leads. -/
structure Dot where
  states : Finset Nat
  charge : Nat → Nat
  E : Nat → ℝ
  nleads : Nat
  T : Nat → Nat → Nat → ℂ

/-- A matrix in the space of the many-body states. -/
abbrev Mx := Nat → Nat → ℂ

namespace Dot

/-- `f T X + g X T`. -/
def mix (D : Dot) (l : Nat) (f g : ℂ) (X : Mx) : Mx := fun m n =>
  ∑ r ∈ D.states, (f * (D.T l m r * X r n) + g * (X m r * D.T l r n))

/-- `T Y + Y T`. -/
def anti (D : Dot) (l : Nat) (Y : Mx) : Mx := fun m n =>
  ∑ r ∈ D.states, (D.T l m r * Y r n + Y m r * D.T l r n)

open Classical in
/-- A matrix whose elements between states of equal charge are given by `Y`, those between states with two electrons more
by `Z`, where both depend on the difference of the energies to `Ek`. -/
def two (D : Dot) (Ek : ℝ) (Y Z : ℝ → Mx) : Mx := fun m n =>
  if D.charge m = D.charge n then Y (Ek - D.E m + D.E n) m n
  else if D.charge m = D.charge n + 2 then Z (-(Ek - D.E m + D.E n)) m n
  else 0

/-- The distributions of the leads: `f` at the energy considered and the Hilbert transforms `F`, `G` of `f` and `1 - f`,
shifted to the upper half-plane. -/
structure Leads where
  f : Nat → ℂ
  F : Nat → ℝ → ℂ
  G : Nat → ℝ → ℂ

/-- The contribution in which the second lead state is occupied as in equilibrium. -/
def localTerm (D : Dot) (A : Leads) (Ek : ℝ) (X : Mx) : Mx := fun c b => ∑ l1 ∈ range D.nleads,
  D.anti l1 (D.two Ek
    (fun e => D.mix l1 (A.G l1 e) (A.F l1 e) X)
    (fun e m n => -D.mix l1 ((starRingEnd ℂ) (A.F l1 e)) ((starRingEnd ℂ) (A.G l1 e)) X m n)) c b

/-- The contribution of the other first order elements: `U l1 e`, `V l1 e` are the transforms of the adjoint and of the
matrix itself for lead `l1`. -/
def nonlocalTerm (D : Dot) (A : Leads) (Ek : ℝ) (l : Nat) (U V : Nat → ℝ → Mx) : Mx := fun c b => ∑ l1 ∈ range D.nleads,
  D.anti l1 (D.two Ek
    (fun e m n => -D.mix l (A.f l) (1 - A.f l) (U l1 e) m n)
    (fun e => D.mix l (A.f l) (1 - A.f l) (V l1 e))) c b

/-- The source, from the density matrix `φ`. -/
def source (D : Dot) (A : Leads) (l : Nat) (φ : Mx) : Mx := D.mix l (A.f l) (-(1 - A.f l)) φ

end Dot

/-- The occupations `o l k` of the leads at the grid points with their transforms: `A k` are the distributions at the grid
point `k`. -/
structure IsLeads (g : Grid) (n : Nat) (o : Nat → Nat → ℝ) (A : Nat → Dot.Leads) : Prop where
  f : ∀ k, ∀ l < n, (A k).f l = o l k
  F : ∀ l < n, ∃ w t, g.Pair (fun k => o l k) w t ∧ ∀ k, (A k).F l = fun E => Real.pi * (t E - Complex.I * w E)
  G : ∀ l < n, ∃ w t, g.Pair (fun k => 1 - o l k) w t ∧ ∀ k, (A k).G l = fun E => Real.pi * (t E - Complex.I * w E)

/-- `V l e` has the elements `π (t + i w)` for the lines `w`, `t` of the elements of `X k l`, `U l e` the complex conjugate
ones of the transposed matrix; elements between other charges vanish. -/
structure IsMoved (g : Grid) (D : Dot) (X : Nat → Nat → Mx) (U V : Nat → ℝ → Mx) : Prop where
  moved : ∀ l < D.nleads, ∀ c ∈ D.states, ∀ b ∈ D.states, D.charge c = D.charge b + 1 →
    ∃ w t, g.Pair (fun k => X k l c b) w t ∧ (∀ e, V l e c b = Real.pi * (t e + Complex.I * w e)) ∧
      ∀ e, U l e b c = (starRingEnd ℂ) (Real.pi * (t e + Complex.I * w e))
  zeroV : ∀ l e c b, D.charge c ≠ D.charge b + 1 → V l e c b = 0
  zeroU : ∀ l e c b, D.charge c ≠ D.charge b + 1 → U l e b c = 0

/-- The equation for the element `(c, b)` of `X` for lead `l` at the energy `Ek`. -/
def Dot.Equation (D : Dot) (A : Dot.Leads) (Ek : ℝ) (l : Nat) (φ X : Mx) (U V : Nat → ℝ → Mx) (c b : Nat) : Prop :=
  ((Ek - D.E c + D.E b : ℝ) : ℂ) * X c b = D.source A l φ c b + D.localTerm A Ek X c b + D.nonlocalTerm A Ek l U V c b

/-- `X 0, ..., X N` are successive approximations: the first one is without the nonlocal terms, in the others these are taken
from the previous one. `X i k l` is the matrix at the grid point `k` for lead `l`. -/
structure Dot.Successive (D : Dot) (g : Grid) (A : Nat → Dot.Leads) (φ : Mx) (N : Nat) (X : Nat → Nat → Nat → Mx) : Prop where
  first : ∀ i k l m n, D.charge m ≠ D.charge n + 1 → X i k l m n = 0
  zeroth : ∀ k < g.len, ∀ l < D.nleads, ∀ c ∈ D.states, ∀ b ∈ D.states, D.charge c = D.charge b + 1 →
    D.Equation (A k) (g.x + k * g.h) l φ (X 0 k l) (fun _ _ _ _ => 0) (fun _ _ _ _ => 0) c b
  next : ∀ i < N, ∃ U V, IsMoved g D (X i) U V ∧ ∀ k < g.len, ∀ l < D.nleads, ∀ c ∈ D.states, ∀ b ∈ D.states,
    D.charge c = D.charge b + 1 → D.Equation (A k) (g.x + k * g.h) l φ (X (i + 1) k l) U V c b

/-- `D` has the states and the parameters given by the indexing object, the energies and the amplitudes. -/
structure IsDot (D : Dot) (v : View) (E : Nat → ℝ) (T : Nat → Nat → Nat → ℂ) : Prop where
  states : ∀ m, m ∈ D.states ↔ ∃ c, m ∈ v.row c
  charge : ∀ c m, m ∈ v.row c → D.charge m = c
  E : D.E = E
  nleads : D.nleads = v.nleads
  T : D.T = T

/-- The weights of the trapezoidal rule with `n` points at the distance `h`. -/
def trap (h : ℝ) (n k : Nat) : ℝ := if k = 0 ∨ k + 1 = n then h / 2 else h

/-- The Landauer formula for a level at the energy `ε`, by the trapezoidal rule on the points `x`, `x + h`, ...: lead `l` has the
squared tunnelling amplitude `γ l` and the occupations `f l k`, the level shift is `π Γ τ` with the sum `Γ` of all `γ l`. -/
def landauer (x h : ℝ) (n : Nat) (ε : ℝ) (nleads : Nat) (γ : Nat → ℝ) (f : Nat → Nat → ℝ) (τ : Nat → ℝ) (l : Nat) : ℝ :=
  ∑ k ∈ range n, trap h n k * ∑ l' ∈ range nleads, 2 * Real.pi * γ l * γ l' /
    ((x + k * h - ε - Real.pi * (∑ m ∈ range nleads, γ m) * τ k) ^ 2 + (Real.pi * ∑ m ∈ range nleads, γ m) ^ 2) * (f l k - f l' k)

end VN2

end

end Verif
