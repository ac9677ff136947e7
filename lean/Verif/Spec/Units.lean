import Verif.Model.Approach

/-!
The same system in another unit of energy. The tunnelling amplitudes of qmeq are in the square root of the unit of
energy, so that the rates `2π|t|²` are energies.
-/

namespace Verif

/-- `E'`, `L'` is `E`, `L` with the energies, the chemical potentials, the temperatures and the band edges multiplied by
`r ^ 2` and the tunnelling amplitudes multiplied by `r`. -/
structure Rescaled (r : ℝ) (E E' : Nat → ℝ) (L L' : Leads) : Prop where
  pos : 0 < r
  energy : ∀ b, E' b = r ^ 2 * E b
  mu : ∀ l, L'.mu l = r ^ 2 * L.mu l
  temp : ∀ l, L'.T l = r ^ 2 * L.T l
  Dm : ∀ l, L'.Dm l = r ^ 2 * L.Dm l
  Dp : ∀ l, L'.Dp l = r ^ 2 * L.Dp l
  tba : ∀ l b a, L'.Tba l b a = r * L.Tba l b a
  itype : L'.itype = L.itype
  limit : L'.limit = L.limit

/-- The matrix with every entry multiplied by `s`. -/
def Mat.scale (s : ℝ) (k : Mat) : Mat := ⟨k.rows, k.cols, fun i j => s * k.val i j⟩

end Verif
