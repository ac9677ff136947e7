import Mathlib.Data.Matrix.Mul
import Mathlib.LinearAlgebra.Matrix.ConjTranspose

/-!
Fermionic operators in the occupation-number basis (independent of the model). The basis
states of `n` orbitals are the functions `Fin n → Bool`; a matrix acts on them from the left,
`A s' s` being the amplitude from `s` to `s'`. `Verif/Lemmas/Fermi.lean` proves the canonical
anticommutation relations of these matrices.
-/

namespace Verif.Spec

/-- An occupation of `n` orbitals. -/
abbrev Occ (n : Nat) := Fin n → Bool

variable {n : Nat}

/-- The list of zeros and ones the code uses for an occupation. -/
def ofOcc (s : Occ n) : List Nat := List.ofFn fun i => if s i then 1 else 0

/-- The number of electrons. -/
def Occ.count (s : Occ n) : Nat := (Finset.univ.filter fun i => s i = true).card

/-- The sign of the usual ordering: minus one to the number of electrons before `i`. -/
def sgn (s : Occ n) (i : Fin n) : ℤ :=
  (-1) ^ (Finset.univ.filter fun j => j < i ∧ s j = true).card

/-- The operator that removes an electron from orbital `i`. -/
def ann {K : Type} [CommRing K] (i : Fin n) : Matrix (Occ n) (Occ n) K :=
  Matrix.of fun s' s =>
    if s i = true ∧ s' = Function.update s i false then ((sgn s i : ℤ) : K) else 0

/-- The operator that adds an electron to orbital `i`. -/
def cre {K : Type} [CommRing K] (i : Fin n) : Matrix (Occ n) (Occ n) K := (ann i).transpose

end Verif.Spec
