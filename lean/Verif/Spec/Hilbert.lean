import Verif.Spec.Integrals
import Mathlib.Data.Real.Basic
import Mathlib.Algebra.BigOperators.Group.Finset.Basic
import Mathlib.Algebra.Order.Group.Unbundled.Abs
import Mathlib.Algebra.BigOperators.Group.Finset.Defs

/-! The function whose Hilbert transform is calculated. -/

namespace Verif

open Finset

noncomputable section

/-- The triangle of height one over `[-1, 1]`. -/
def hat (x : ℝ) : ℝ := max 0 (1 - |x|)

/-- The broken line with the values `f` at the points `e`, `e + h`, ...; it goes to zero within one step beyond the first
and the last point. -/
def broken (e h : ℝ) (f : List ℝ) (x : ℝ) : ℝ := ∑ j ∈ range f.length, f.getD j 0 * hat ((x - e) / h - j)

/-- `z` is the Hilbert transform `1/π P∫ F(x)/(E - x) dx` at the point `E` of the broken line `F` with the complex values
`f`; it vanishes outside of `[a, b]`. -/
def IsHilbert (e h : ℝ) (f : List ℂ) (a b E : ℝ) (z : ℂ) : Prop :=
  PV (fun x => 1 / Real.pi * (broken e h (f.map Complex.re) x / (E - x))) a b E z.re ∧
  PV (fun x => 1 / Real.pi * (broken e h (f.map Complex.im) x / (E - x))) a b E z.im

/-- The extended arrays for the values `fk` (one list for each lead) on a grid of `len` points with `left` and `right` more
points. -/
structure IsExtended (len left right : Nat) (fk : List (List ℝ)) (ext hfk : List (List ℂ)) : Prop where
  ext : ext = fk.map fun f => List.replicate left 0 ++ f.map Complex.ofReal ++ List.replicate right 0
  leads : hfk.length = fk.length
  size : ∀ c < fk.length, (hfk.getD c []).length = len + left + right
  im : ∀ c < fk.length, ∀ i < len + left + right,
    ((hfk.getD c []).getD i 0).im = -(List.replicate left 0 ++ fk.getD c [] ++ List.replicate right 0).getD i 0
  re : ∀ c < fk.length, ∀ i < len + left + right, ∀ e h : ℝ, 0 < h →
    PV (fun x => 1 / Real.pi * (broken e h (fk.getD c []) x / (e + ((i : ℝ) - left) * h - x)))
      (e - (left + 1) * h) (e + (len + right : ℕ) * h) (e + ((i : ℝ) - left) * h) ((hfk.getD c []).getD i 0).re

end

end Verif
