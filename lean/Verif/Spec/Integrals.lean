import Verif.Model.Specfunc
import Mathlib.MeasureTheory.Integral.IntervalIntegral.Basic

/-! Principal value integrals. -/

namespace Verif

open Filter Topology

/-- `I` is the principal value of the integral of `g` from `a` to `b`, where `g` may have a pole at `α`: the limit of the
integrals without the points at a distance of at most `ε` from the pole. -/
def PV (g : ℝ → ℝ) (a b α I : ℝ) : Prop :=
  Tendsto (fun ε : ℝ => ∫ x in a..b, if |x - α| ≤ ε then 0 else g x) (𝓝[>] 0) (𝓝 I)

/-- What is assumed of `quad(fermi_func, Rm, Rp, weight='cauchy', wvar=alpha)`: the value is the principal value, where
there is one. There is none if the pole is at an end of the interval, nor at the cutoff of `fermi_func`, where it jumps. -/
def QuadOk (lib : NumLib) : Prop :=
  ∀ a b α limit, a < b → α ≠ a → α ≠ b → α ≠ 709.77 →
    PV (fun x => fermiFunc x / (x - α)) a b α (lib.quadPV a b α limit)

end Verif
