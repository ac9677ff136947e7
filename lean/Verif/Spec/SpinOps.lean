import Verif.Spec.Fermi

/-!
The operators of the total spin in the occupation-number basis. The first `n / 2` orbitals have
spin up, the following `n / 2` spin down.
-/

namespace Verif.Spec

variable {n : Nat}

/-- Orbital `i` with spin up. -/
def up (i : Fin (n / 2)) : Fin n := ⟨i, by omega⟩

/-- Orbital `i` with spin down. -/
def dn (i : Fin (n / 2)) : Fin n := ⟨n / 2 + i, by omega⟩

/-- `S⁻`: turns one spin from up to down. -/
def spinMinus : Matrix (Occ n) (Occ n) ℤ := ∑ i : Fin (n / 2), cre (dn i) * ann (up i)

/-- `S⁺`: turns one spin from down to up. -/
def spinPlus : Matrix (Occ n) (Occ n) ℤ := ∑ i : Fin (n / 2), cre (up i) * ann (dn i)

/-- `2 Sᶻ`: the number of electrons with spin up minus the number with spin down. -/
def spinZ2 : Matrix (Occ n) (Occ n) ℤ :=
  ∑ i : Fin (n / 2), (cre (up i) * ann (up i) - cre (dn i) * ann (dn i))

/-- `4 S²`, with `S² = (S⁺S⁻ + S⁻S⁺)/2 + Sᶻ Sᶻ`. -/
def spinSquare4 : Matrix (Occ n) (Occ n) ℤ :=
  2 * (spinPlus * spinMinus + spinMinus * spinPlus) + spinZ2 * spinZ2

end Verif.Spec
