import Verif.Model.Neumann2
import Mathlib.Analysis.SpecialFunctions.Pow.Real

/-!
Model of the poles and residues used by RTD for leads at different temperatures: `qmeq/specfunc/specfunc.py`, lines
795-852. `scipy.linalg.eigh_tridiagonal` is a parameter.
-/

namespace Verif

noncomputable section

/-- The result of `eigh_tridiagonal`: eigenvalues `b[i]` and components `v[j, i]`. -/
structure Eig where
  val : Nat → ℝ
  vec : Nat → Nat → ℝ

/-- The numerical routine: called with the size and the entries beside the diagonal, which is zero. -/
abbrev EighTri := Nat → List ℝ → Eig

/-- The array `B`: specfunc.py:813-816. -/
def ozakiB (N : Nat) : Py (List ℝ) :=
  (pyRange 1 N 1).foldlM
    (fun B (n : Int) => pySet B (n - 1) (1 / (2 * Real.sqrt ((2 * n - 1) * (2 * n + 1)))))
    (List.replicate (N - 1) 0)

open Classical in
/-- `Ozaki`: specfunc.py:795-829, for `N ≥ 1`. The array has `N // 2` rows, which are zero at first. -/
def ozaki (eigh : EighTri) (N : Nat) : Py (List (ℝ × ℝ)) := do
  let B ← ozakiB N
  let e := eigh N B
  let r ← (List.range N).foldlM
    (fun (s : List (ℝ × ℝ) × Int) (i : Nat) =>
      let val := e.val i
      if 0 < val then do
        let rows ← pySet s.1 s.2 (val, e.vec 0 i ^ 2 / (4 * val ^ 2))
        pure (rows, s.2 + 1)
      else pure s)
    (List.replicate (N / 2) (0, 0), 0)
  pure r.1

open Classical in
/-- `int(max(np.roots(p)))`: specfunc.py:848-849. For complex roots `int` takes the real part (with a warning). -/
def bwCount (D : ℝ) : Int :=
  let a : ℝ := 2.54647909
  let b : ℝ := 1.27324094
  let c : ℝ := 0.52325856 - D
  let disc := b ^ 2 - 4 * a * c
  if disc < 0 then VN2.pyInt (-b / (2 * a)) else VN2.pyInt ((-b + Real.sqrt disc) / (2 * a))

/-- `BW_Ozaki`: specfunc.py:832-852. Negative numbers of points raise a `ValueError` in `np.zeros`. -/
def bwOzaki (eigh : EighTri) (D : ℝ) : Py (List (ℝ × ℝ)) :=
  let N := bwCount D * 2 + 2
  if N < 1 then .error .value else ozaki eigh N.toNat

end

end Verif
