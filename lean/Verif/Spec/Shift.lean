import Verif.Model.Approach
import Verif.Spec.Labels

/-!
The same system with the zero of energy moved: every electron has the energy `δ` more, in the system as well as in
the leads, and the system as a whole has the energy `e0` more.
-/

namespace Verif

/-- `E'`, `L'` is `E`, `L` with the single-particle energies, the chemical potentials and the band edges moved by
`δ`. A state with `q` electrons moves by `e0 + δ * q`. For `itype = 1` the band edges are measured from the chemical
potential (specfunc.py:105-113) and stay. -/
structure Shifted (v : View) (δ e0 : ℝ) (E E' : Nat → ℝ) (L L' : Leads) : Prop where
  energy : ∀ q b, b ∈ v.row q → E' b = E b + e0 + δ * q
  mu : ∀ l, L'.mu l = L.mu l + δ
  temp : ∀ l, L'.T l = L.T l
  tba : ∀ l b a, L'.Tba l b a = L.Tba l b a
  itype : L'.itype = L.itype
  limit : L'.limit = L.limit
  Dm : ∀ l, L'.Dm l = if L.itype = 1 then L.Dm l else L.Dm l + δ
  Dp : ∀ l, L'.Dp l = if L.itype = 1 then L.Dp l else L.Dp l + δ

end Verif
