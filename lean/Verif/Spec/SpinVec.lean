import Verif.Spec.SpinOps
import Verif.Spec.Fock
import Mathlib.Data.Complex.Basic

/-! Vectors of the Fock space with definite charge, spin projection and total spin. -/

namespace Verif.Spec
open Matrix

variable {n : Nat}

noncomputable section

/-- `S⁺` over the complex numbers. -/
def cP : Matrix (Occ n) (Occ n) ℂ := spinPlus.map fun x => ((x : ℤ) : ℂ)

/-- `S⁻` over the complex numbers. -/
def cM : Matrix (Occ n) (Occ n) ℂ := spinMinus.map fun x => ((x : ℤ) : ℂ)

/-- `4 S²` over the complex numbers. -/
def cQ : Matrix (Occ n) (Occ n) ℂ := spinSquare4.map fun x => ((x : ℤ) : ℂ)

/-- The vector is built from states with charge `c` and twice the spin projection `z`. -/
def InSec (c : Nat) (z : Int) (x : Occ n → ℂ) : Prop :=
  ∀ s, x s ≠ 0 → s.count = c ∧ twoSz n (ofOcc s) = z

/-- The vector is an eigenvector of the square of the spin, with twice the total spin `q`. -/
def HasSpin (q : Int) (x : Occ n → ℂ) : Prop := cQ *ᵥ x = ((q * (q + 2) : ℤ) : ℂ) • x

/-- The inner product. -/
def ip (x y : Occ n → ℂ) : ℂ := star x ⬝ᵥ y

/-- A Hamiltonian that conserves the charge and the spin. -/
structure SpinConserving (H : Matrix (Occ n) (Occ n) ℂ) : Prop where
  herm : Hᴴ = H
  charge : ∀ s' s, H s' s ≠ 0 → s'.count = s.count
  spin : H * cP = cP * H

end

end Verif.Spec
