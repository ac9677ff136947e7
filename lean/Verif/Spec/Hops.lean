import Verif.Spec.Labels
import Verif.Model.Solve
import Mathlib.Logic.Relation
import Mathlib.Algebra.BigOperators.Group.Finset.Basic

/-! Transitions between many-body states by tunnelling. -/

namespace Verif

/-- The lead `l` has states at the energy `x`: the band is unbounded for `itype` 1 and 3, and `(Dm, Dp)` otherwise. -/
def Leads.InBand (L : Leads) (l : Nat) (x : ℝ) : Prop :=
  L.itype = 1 ∨ L.itype = 3 ∨ (L.Dm l < x ∧ x < L.Dp l)

/-- One tunnelling event takes the first state to the second one; a state is given by its charge and its number. An
electron of some lead enters, or an electron leaves to a lead. The addition energy is in the band of the lead. No
electron enters at energies far above the chemical potential, where the program takes the Fermi function to be zero. -/
inductive Hop (v : View) (E : Nat → ℝ) (L : Leads) : Nat × Nat → Nat × Nat → Prop
  | enter {q b c l : Nat} : b ∈ v.row q → c ∈ v.row (q + 1) → l < v.nleads → L.Tba l c b ≠ 0 →
      L.InBand l (E c - E b) → (E c - E b - L.mu l) / L.T l ≤ 709.77 → Hop v E L (q, b) (q + 1, c)
  | leave {q b c l : Nat} : b ∈ v.row q → c ∈ v.row (q + 1) → l < v.nleads → L.Tba l c b ≠ 0 →
      L.InBand l (E c - E b) → Hop v E L (q + 1, c) (q, b)

/-- The state `(q, b)` can be reached by tunnelling from every considered state. -/
def Attained (v : View) (E : Nat → ℝ) (L : Leads) (s : Nat × Nat) : Prop :=
  s.2 ∈ v.row s.1 ∧ ∀ c a, a ∈ v.row c → Relation.ReflTransGen (Hop v E L) (c, a) s

/-- The system `S x = b` has one solution. -/
def Mat.OneSolution (S : Mat) (b : Vec) : Prop :=
  ∃ x : Nat → ℝ, (∀ i, i < S.rows → ∑ j ∈ Finset.range S.cols, S.val i j * x j = b.val i) ∧
    ∀ y : Nat → ℝ, (∀ i, i < S.rows → ∑ j ∈ Finset.range S.cols, S.val i j * y j = b.val i) →
      ∀ j, j < S.cols → y j = x j

/-- `numpy.linalg.solve` solves the square systems with one solution, and `numpy.linalg.lstsq` all systems with one
solution. -/
structure LinLib.Solves (lib : LinLib) : Prop where
  solve : ∀ S b, S.rows = S.cols → b.size = S.rows → S.OneSolution b → ∃ x, lib.solve S b = some x ∧ x.size = S.cols ∧
    ∀ i, i < S.rows → ∑ j ∈ Finset.range S.cols, S.val i j * x.val j = b.val i
  lstsq : ∀ S b, b.size = S.rows → S.OneSolution b → ∃ x, lib.lstsq S b = some x ∧ x.size = S.cols ∧
    ∀ i, i < S.rows → ∑ j ∈ Finset.range S.cols, S.val i j * x.val j = b.val i

end Verif
