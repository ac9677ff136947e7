import Verif.Model.CompiledRTD

/-!
When the compiled and the Python version of the RTD approach are expected to agree.
-/

namespace Verif

noncomputable section

/-- Parameters for which the thresholds of the two versions make the same decisions: the temperatures are
positive and either equal or not closer than the tolerance `1e-5`, and the product of two tunnelling
amplitudes is zero or greater than the cut-off `1e-10*max(tlst)`. The poles of the Ozaki expansion are
the same, or they are not needed because the temperatures are equal and the amplitudes real. -/
structure CRTD.Comparable (s : RTD.In) (poles : s.lib.Poles) : Prop where
  leads : 0 < s.v.nleads
  temp : ∀ l < s.v.nleads, 0 < s.L.T l
  apart : ∀ l < s.v.nleads, ∀ l' < s.v.nleads, s.L.T l = s.L.T l' ∨ 1e-5 ≤ |s.L.T l' - s.L.T l|
  amp : ∀ l < s.v.nleads, ∀ l' < s.v.nleads, ∀ a b a' b',
    ‖s.L.Tba l a b‖ * ‖s.L.Tba l' a' b'‖ = 0 ∨ s.cut2 < ‖s.L.Tba l a b‖ * ‖s.L.Tba l' a' b'‖
  poles : s.poles = some poles ∨
    ((∀ l < s.v.nleads, s.L.T l = s.L.T 0) ∧ ∀ l a b, (s.L.Tba l a b).im = 0)

end

end Verif
