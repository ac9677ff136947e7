import Verif.Spec.Labels
import Verif.Model.Approach
import Mathlib.Algebra.BigOperators.Group.Finset.Basic
import Mathlib.Data.Complex.BigOperators

/-!
The same system described with other eigenstates of the Hamiltonian: the routine for the eigenvectors is free to
choose their phases, and any orthonormal basis among states of equal energy. The operators of the leads are also
defined only up to a phase.
-/

namespace Verif

open Finset
open scoped ComplexConjugate

noncomputable section

/-- The matrix `F` in a new basis: `U F U⁺`, for states in `P`. -/
def rot (P : Finset Nat) (U : Nat → Nat → ℂ) (F : Nat → Nat → ℂ) (b bp : Nat) : ℂ :=
  ∑ y ∈ P, ∑ yp ∈ P, U b y * F y yp * conj (U bp yp)

/-- `U b y` is the amplitude of the old state `y` in the new state `b`: unitary for each charge, only states of equal
energy are mixed, and only such that together with a coherence all coherences it is mixed with are considered. -/
structure Eigenbasis (v : View) (la : Lab) (E : Nat → ℝ) (U : Nat → Nat → ℂ) : Prop where
  unitary : ∀ q, ∀ y ∈ v.row q, ∀ y' ∈ v.row q,
    ∑ b ∈ (v.row q).toFinset, conj (U b y) * U b y' = if y = y' then 1 else 0
  energy : ∀ q, ∀ b ∈ v.row q, ∀ y ∈ v.row q, U b y ≠ 0 → E b = E y
  inc : ∀ q, ∀ b ∈ v.row q, ∀ bp ∈ v.row q, ∀ y ∈ v.row q, ∀ yp ∈ v.row q, U b y ≠ 0 → U bp yp ≠ 0 →
    la.inc q b bp = la.inc q y yp

/-- The same for a basis in which the states also are numbered in another way: the new state `b` has the energy `E' b`
of the old states from which it is formed. -/
structure EigenbasisTo (v : View) (la : Lab) (E E' : Nat → ℝ) (U : Nat → Nat → ℂ) : Prop where
  unitary : ∀ q, ∀ y ∈ v.row q, ∀ y' ∈ v.row q,
    ∑ b ∈ (v.row q).toFinset, conj (U b y) * U b y' = if y = y' then 1 else 0
  energy : ∀ q, ∀ b ∈ v.row q, ∀ y ∈ v.row q, U b y ≠ 0 → E' b = E y
  inc : ∀ q, ∀ b ∈ v.row q, ∀ bp ∈ v.row q, ∀ y ∈ v.row q, ∀ yp ∈ v.row q, U b y ≠ 0 → U bp yp ≠ 0 →
    la.inc q b bp = la.inc q y yp

/-- The tunnelling amplitudes in the new basis, with the phase `w l` for lead `l`. -/
structure NewTba (v : View) (U : Nat → Nat → ℂ) (w : Nat → ℂ) (T T' : Nat → Nat → Nat → ℂ) : Prop where
  phase : ∀ l, w l * conj (w l) = 1
  up : ∀ l q, ∀ c ∈ v.row (q + 1), ∀ b ∈ v.row q,
    T' l c b = w l * ∑ y ∈ (v.row (q + 1)).toFinset, ∑ z ∈ (v.row q).toFinset, U c y * T l y z * conj (U b z)
  down : ∀ l q, ∀ c ∈ v.row (q + 1), ∀ b ∈ v.row q,
    T' l b c = conj (w l) * ∑ z ∈ (v.row q).toFinset, ∑ y ∈ (v.row (q + 1)).toFinset, U b z * T l z y * conj (U c y)

/-- The density matrix in the new basis. -/
def NewDens (v : View) (U : Nat → Nat → ℂ) (ρ ρ' : Nat → Nat → Nat → ℂ) : Prop :=
  ∀ q, ∀ b ∈ v.row q, ∀ bp ∈ v.row q, ρ' q b bp = rot (v.row q).toFinset U (ρ q) b bp

/-- What calculations in the two bases have in common, for the kernels `m`, `m'` and the functions that give the
currents for a vector of unknowns: to every density matrix belongs the one in the new basis (`exist`); the sum of the
populations (`trace`), the time derivative (`step`) and being stationary (`zero`) carry over, and the currents are the
same (`cur`). -/
structure SameUpTo (v : View) (la : Lab) (U : Nat → Nat → ℂ) (m m' : Mat) (cur cur' : Vec → Py (List CEv)) : Prop where
  exist : ∀ φ : Vec, ∃ φ' : Vec, φ'.size = v.ndm0r ∧ NewDens v U (dens v la φ.val) (dens v la φ'.val)
  trace : ∀ φ φ' : Vec, NewDens v U (dens v la φ.val) (dens v la φ'.val) →
    ∑ i ∈ range v.npauli, φ'.val i = ∑ i ∈ range v.npauli, φ.val i
  step : ∀ φ φ' : Vec, NewDens v U (dens v la φ.val) (dens v la φ'.val) →
    NewDens v U (dens v la fun i => ∑ j ∈ range v.ndm0r, m.val i j * φ.val j)
      (dens v la fun i => ∑ j ∈ range v.ndm0r, m'.val i j * φ'.val j)
  zero : ∀ φ φ' : Vec, NewDens v U (dens v la φ.val) (dens v la φ'.val) →
    ((∀ i < v.ndm0r, ∑ j ∈ range v.ndm0r, m.val i j * φ.val j = 0) ↔
      ∀ i < v.ndm0r, ∑ j ∈ range v.ndm0r, m'.val i j * φ'.val j = 0)
  cur : ∀ φ φ' : Vec, φ.size = v.ndm0r → φ'.size = v.ndm0r → NewDens v U (dens v la φ.val) (dens v la φ'.val) →
    ∃ evs evs', cur φ = .ok evs ∧ cur' φ' = .ok evs' ∧ ∀ l < v.nleads,
      current evs' l = current evs l ∧ energyCurrent evs' l = energyCurrent evs l

end

end Verif
