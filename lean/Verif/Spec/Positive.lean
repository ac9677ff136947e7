import Verif.Spec.Labels
import Mathlib.Algebra.BigOperators.Group.Finset.Basic
import Mathlib.Data.Complex.BigOperators
import Mathlib.Analysis.Calculus.Deriv.Basic

/-! Positive density matrices. -/

namespace Verif

open Finset
open scoped ComplexConjugate

noncomputable section

/-- `⟨x|ρ|x⟩` for a vector `x` of amplitudes of the considered states of charge `q`: the probability (times the norm of
`x` squared) to find the system in the state `x`. -/
def View.prob (v : View) (ρ : Nat → Nat → Nat → ℂ) (q : Nat) (x : Nat → ℂ) : ℝ :=
  (∑ b ∈ (v.row q).toFinset, ∑ bp ∈ (v.row q).toFinset, conj (x b) * ρ q b bp * x bp).re

/-- No state has a negative probability. -/
def View.Positive (v : View) (ρ : Nat → Nat → Nat → ℂ) : Prop := ∀ q x, 0 ≤ v.prob ρ q x

/-- If the coherences between `a`, `b` and between `b`, `c` are considered then so is that between `a` and `c`. -/
def View.Closed (v : View) (la : Lab) : Prop :=
  ∀ q, ∀ a ∈ v.row q, ∀ b ∈ v.row q, ∀ c ∈ v.row q, la.inc q a b = true → la.inc q b c = true → la.inc q a c = true

/-- `φ` solves the equations of motion with the matrix `m` at all times from zero on. -/
def View.Evolves (v : View) (m : Mat) (φ : ℝ → Nat → ℝ) : Prop :=
  ∀ t, 0 ≤ t → ∀ i < v.ndm0r, HasDerivWithinAt (fun s => φ s i) (∑ j ∈ range v.ndm0r, m.val i j * φ t j) (Set.Ici 0) t

/-- `φ` does not change and is normalised. -/
def View.Stationary (v : View) (m : Mat) (φ : Nat → ℝ) : Prop :=
  (∀ i < v.ndm0r, ∑ j ∈ range v.ndm0r, m.val i j * φ j = 0) ∧ ∑ i ∈ range v.npauli, φ i = 1

end

end Verif
