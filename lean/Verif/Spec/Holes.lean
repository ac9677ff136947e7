import Verif.Spec.Labels
import Verif.Model.Approach

/-!
The same system described with holes: the state with `q` electrons is read as the one with `N - q` electrons. An
electron of energy `ε` that enters is a hole of energy `-ε` that leaves.
-/

namespace Verif

open Finset

/-- The second system (`w`, `E'`, `L'`) is the first one with electrons and holes exchanged. `π b` is the number which
the state `b` has in the second system. It has the same energy and the same matrix elements, `N - q` electrons instead of
`q`, and chemical potentials and band edges are reflected at zero. -/
structure Holes (v w : View) (la la' : Lab) (N : Nat) (π : Equiv.Perm Nat) (E E' : Nat → ℝ) (L L' : Leads) : Prop where
  charges : v.ncharge = N + 1
  charges' : w.ncharge = N + 1
  leads : w.nleads = v.nleads
  states : ∀ q ≤ N, ∀ b, π b ∈ w.row (N - q) ↔ b ∈ v.row q
  inc : ∀ q ≤ N, ∀ b ∈ v.row q, ∀ bp ∈ v.row q, la'.inc (N - q) (π b) (π bp) = la.inc q b bp
  energy : ∀ q, ∀ b ∈ v.row q, E' (π b) = E b
  tba : ∀ l b a, L'.Tba l (π b) (π a) = L.Tba l b a
  mu : ∀ l, L'.mu l = -L.mu l
  temp : ∀ l, L'.T l = L.T l
  Dm : ∀ l, L'.Dm l = -L.Dp l
  Dp : ∀ l, L'.Dp l = -L.Dm l
  itype : L'.itype = L.itype
  limit : L'.limit = L.limit

/-- Energies for which `f(-x) = 1 - f(x)` holds in the program, which takes `f` to be zero above 709.77 but not to be one
below -709.77. For `itype = 0` the ends of the band must be in the same range and not coincide with the energy of a
transition, where the integral does not exist. -/
structure HoleRange (v : View) (E : Nat → ℝ) (L : Leads) : Prop where
  temp : ∀ l < v.nleads, 0 < L.T l
  below : ∀ l < v.nleads, ∀ q, ∀ x ∈ v.row (q + 1), ∀ b ∈ v.row q, |(E x - E b - L.mu l) / L.T l| < 709.77
  band : L.itype = 0 → ∀ l < v.nleads, L.Dm l < L.Dp l ∧ |(L.Dm l - L.mu l) / L.T l| ≤ 709.77 ∧
    |(L.Dp l - L.mu l) / L.T l| ≤ 709.77 ∧ ∀ q, ∀ x ∈ v.row (q + 1), ∀ b ∈ v.row q, E x - E b ≠ L.Dm l ∧ E x - E b ≠ L.Dp l
  wide : L.itype = 1 → ∀ l < v.nleads, L.Dm l ≠ 0 ∧ L.Dp l ≠ 0

/-- The same density matrix in both descriptions. -/
def HoleDens (v : View) (N : Nat) (π : Equiv.Perm Nat) (ρ ρ' : Nat → Nat → Nat → ℂ) : Prop :=
  ∀ q ≤ N, ∀ b ∈ v.row q, ∀ bp ∈ v.row q, ρ' (N - q) (π b) (π bp) = ρ q b bp

/-- What the two calculations have in common: each density matrix of the first can be stored in the second (`exist`);
the sum of the populations (`trace`), the time derivative (`step`) and being stationary (`zero`) carry over. The particle
currents are opposite, the energy currents are equal (`cur`). -/
structure SameForHoles (v w : View) (la la' : Lab) (N : Nat) (π : Equiv.Perm Nat) (m m' : Mat)
    (cur cur' : Vec → Py (List CEv)) : Prop where
  exist : ∀ φ : Vec, ∃ φ' : Vec, φ'.size = w.ndm0r ∧ HoleDens v N π (dens v la φ.val) (dens w la' φ'.val)
  trace : ∀ φ φ' : Vec, HoleDens v N π (dens v la φ.val) (dens w la' φ'.val) →
    ∑ i ∈ range w.npauli, φ'.val i = ∑ i ∈ range v.npauli, φ.val i
  step : ∀ φ φ' : Vec, HoleDens v N π (dens v la φ.val) (dens w la' φ'.val) →
    HoleDens v N π (dens v la fun i => ∑ j ∈ range v.ndm0r, m.val i j * φ.val j)
      (dens w la' fun i => ∑ j ∈ range w.ndm0r, m'.val i j * φ'.val j)
  zero : ∀ φ φ' : Vec, HoleDens v N π (dens v la φ.val) (dens w la' φ'.val) →
    ((∀ i < v.ndm0r, ∑ j ∈ range v.ndm0r, m.val i j * φ.val j = 0) ↔
      ∀ i < w.ndm0r, ∑ j ∈ range w.ndm0r, m'.val i j * φ'.val j = 0)
  cur : ∀ φ φ' : Vec, φ.size = v.ndm0r → φ'.size = w.ndm0r → HoleDens v N π (dens v la φ.val) (dens w la' φ'.val) →
    ∃ evs evs', cur φ = .ok evs ∧ cur' φ' = .ok evs' ∧ ∀ l < v.nleads,
      current evs' l = -current evs l ∧ energyCurrent evs' l = energyCurrent evs l

end Verif
