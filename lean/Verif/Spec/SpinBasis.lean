import Verif.Spec.SpinVec
import Verif.Model.Indexing

/-! Eigenstates ordered in spin multiplets. -/

namespace Verif.Spec
open Matrix

variable {n : Nat}

/-- The quantum numbers of the state `b`: the charge, twice the spin projection, twice the total spin,
the number of the multiplet. -/
def HasQn (si : SI) (b c : Nat) (z q : Int) (α : Nat) : Prop :=
  si.indQn.get? b = some [(c : Int), z, q, (α : Int)]

/-- `ψ 0, ψ 1, …` is an orthonormal basis of eigenstates of `H` with the energies `E`. Each is an
eigenstate of charge, spin projection and total spin with the quantum numbers that `si` assigns to its
number. States that differ only in the projection are mapped to each other by `S⁺`, with the factor
`√(S(S+1) - M(M+1))`, and have equal energies. -/
structure SpinBasis (si : SI) (H : Matrix (Occ n) (Occ n) ℂ) (ψ : Nat → Occ n → ℂ) (E : Nat → ℝ) :
    Prop where
  orth : ∀ a b, a < 2 ^ n → b < 2 ^ n → ip (ψ a) (ψ b) = if a = b then 1 else 0
  eig : ∀ b, b < 2 ^ n → H *ᵥ ψ b = ((E b : ℝ) : ℂ) • ψ b
  has : ∀ b, b < 2 ^ n → ∃ c z q α, HasQn si b c z q α
  qn : ∀ b c z q α, HasQn si b c z q α → b < 2 ^ n ∧ InSec c z (ψ b) ∧ HasSpin q (ψ b)
  up : ∀ b b' c z q α, HasQn si b c z q α → HasQn si b' c (z + 2) q α →
    cP *ᵥ ψ b = ((Real.sqrt ((q * (q + 2) - z * (z + 2) : ℤ) : ℝ) / 2 : ℝ) : ℂ) • ψ b'
  top : ∀ b c q α, HasQn si b c q q α → cP *ᵥ ψ b = 0
  energy : ∀ b b' c z z' q α, HasQn si b c z q α → HasQn si b' c z' q α → E b = E b'

end Verif.Spec
