import Verif.Spec.Fock

/-! Electrons without interaction. -/

namespace Verif.Spec

variable {n : Nat}

/-- The matrix of the Hamiltonian of one electron in the basis of the orbitals: the entry `(i, j): h` of the dictionary
moves the electron from `i` to `j` with the amplitude `h`, and from `j` to `i` with `h*` when `herm` is set. -/
noncomputable def oneBody (herm : Bool) (hs : List ((Fin n × Fin n) × ℂ)) : Matrix (Fin n) (Fin n) ℂ := fun j i =>
  (hs.map fun e => (if e.1 = (i, j) then e.2 else 0) +
    if herm = true ∧ i ≠ j ∧ e.1 = (j, i) then star e.2 else 0).sum

/-- The amplitude with which an electron of the lead `l` enters the state of one electron with the coefficients `u`: the
sum of `t u*` over the entries `(l, i): t`. -/
noncomputable def enterAmp (ts : List ((Nat × Fin n) × ℂ)) (l : Nat) (u : Fin n → ℂ) : ℂ :=
  (ts.map fun e => if e.1.1 = l then e.2 * starRingEnd ℂ (u e.1.2) else 0).sum

/-- `u 0, ..., u (n - 1)` are orthonormal eigenstates of `M` with the eigenvalues `ε 0, ..., ε (n - 1)`. -/
structure Orbitals (M : Matrix (Fin n) (Fin n) ℂ) (u : Nat → Fin n → ℂ) (ε : Nat → ℝ) : Prop where
  orth : ∀ i k, i < n → k < n → ∑ j, starRingEnd ℂ (u i j) * u k j = if i = k then 1 else 0
  eig : ∀ k, k < n → ∀ i, ∑ j, M i j * u k j = ε k * u k i

end Verif.Spec
