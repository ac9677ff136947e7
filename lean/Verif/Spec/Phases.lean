import Verif.Model.RTD
import Verif.Spec.Labels

/-!
The same system with other phases of the many-body states, of the electrons in the leads and of the single-particle
states. Eigenvectors are only determined up to a phase, and so are the states of the leads.
-/

namespace Verif

open scoped ComplexConjugate

/-- The state `b` has the phase `u b`, an electron in lead `l` the phase `w l`, the single-particle state `n` the phase
`z n`. The element `T l c b` adds an electron from lead `l` if `c` has one electron more than `b`; the element `T l b c`
removes it. -/
structure Phases (v : View) (u w z : Nat → ℂ) (T T' : Nat → Nat → Nat → ℂ) (tl tl' : Nat → Nat → ℂ) : Prop where
  state : ∀ b, ‖u b‖ = 1
  lead : ∀ l, ‖w l‖ = 1
  single : ∀ n, ‖z n‖ = 1
  add : ∀ l q c b, c ∈ v.row (q + 1) → b ∈ v.row q → T' l c b = w l * u c * T l c b * conj (u b)
  remove : ∀ l q c b, c ∈ v.row (q + 1) → b ∈ v.row q → T' l b c = conj (w l) * u b * T l b c * conj (u c)
  tleads : ∀ l n, tl' l n = w l * z n * tl l n

/-- The leads with other tunnelling amplitudes. -/
def Leads.withTba (L : Leads) (T' : Nat → Nat → Nat → ℂ) : Leads := { L with Tba := T' }

/-- What the RTD approach reads, with other tunnelling amplitudes. -/
def RTD.In.withTba (s : RTD.In) (T' : Nat → Nat → Nat → ℂ) (tl' : Nat → Nat → ℂ) : RTD.In :=
  ⟨s.v, s.E, s.nmany, s.L.withTba T', tl', s.nsingle, s.lib, s.poles⟩

end Verif
