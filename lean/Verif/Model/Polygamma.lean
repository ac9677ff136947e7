import Verif.Model.Neumann2
import Mathlib.Analysis.SpecialFunctions.Complex.Log

/-! Model of `polygamma`: `qmeq/specfunc/specfunc.py`, lines 339-457. -/

namespace Verif

open Complex

noncomputable section

/-- `C[i, K]`: specfunc.py:364-398, by columns. -/
def pgC : List (List ℝ) :=
  [[8.33333333333333333e-2, -8.33333333333333333e-3, 3.96825396825396825e-3, -4.16666666666666667e-3,
    7.57575757575757576e-3, -2.10927960927960928e-2],
   [1.66666666666666667e-1, -3.33333333333333333e-2, 2.38095238095238095e-2, -3.33333333333333333e-2,
    7.57575757575757576e-2, -2.53113553113553114e-1],
   [5.00000000000000000e-1, -1.66666666666666667e-1, 1.66666666666666667e-1, -3.00000000000000000e-1,
    8.33333333333333333e-1, -3.29047619047619048e+0],
   [2.00000000000000000e+0, -1.00000000000000000e+0, 1.33333333333333333e+0, -3.00000000000000000e+0,
    1.00000000000000000e+1, -4.60666666666666667e+1],
   [10, -7, 12, -33, 130, -691]]

/-- `C[i, K]`; the positions are within the table. -/
def pgCoef (i k : Nat) : ℝ := (pgC.getD k []).getD i 0

/-- `SGN[K]`: specfunc.py:361. -/
def pgSgn (k : Nat) : ℝ := ([-1, 1, -1, 1, -1] : List ℝ).getD k 0

/-- `FCT[k]`: specfunc.py:362. -/
def pgFct (k : Nat) : ℝ := ([0, 1, 1, 2, 6, 24] : List ℝ).getD k 0

/-- The sum over poles near the argument: specfunc.py:409-416. -/
def pgShift (V : ℂ) (A : ℝ) (K1 : Nat) : ℂ × ℂ :=
  let s := (pyRange 0 (15 - VN2.pyInt A) 1).foldl
    (fun (s : ℂ × ℂ) _ => (s.1 + 1, s.2 + 1 / (s.1 + 1) ^ K1)) (V, 1 / V ^ K1)
  (s.1 + 1, s.2)

/-- The asymptotic expansion: specfunc.py:418-430 without `H`. -/
def pgTail (V : ℂ) (k : Nat) : ℂ :=
  let R : ℂ := 1 / V ^ 2
  let P := ([5, 4, 3, 2, 1] : List Nat).foldl (fun (P : ℂ) i => R * (P + (pgCoef (i - 1) k : ℂ))) (R * (pgCoef 5 k : ℂ))
  let hh1 := 1 / V ^ (k + 1)
  let hh2 := P + (pgFct k : ℂ)
  let hh3 := V * hh2 + 0.5 * (pgFct (k + 1) : ℂ)
  hh1 * hh3

/-- What is added for negative real parts: specfunc.py:436-455, with `U` after its change of sign. -/
def pgReflect (U V : ℂ) (k : Nat) : ℂ :=
  let V := V * Real.pi
  let X := V.re
  let A : ℂ := Real.sin X
  let B : ℂ := Real.cos X
  let T : ℂ := Real.tanh X
  let P := B - I * A * T / (A + I * A * T)
  if k = 0 then 1 / U + P * Real.pi
  else if k = 1 then 1 / U ^ 2 + (P ^ 2 + 1) * 9.869604401089358
  else if k = 2 then 1 / U ^ 3 + (P ^ 2 + 1) * 62.01255336059963
  else 0

open Classical in
/-- `polygamma(U, K)`: specfunc.py:339-457. Divisions by zero (at the poles) are not modelled. -/
def polygamma (U : ℂ) (K : Int) : ℂ :=
  if K < 0 ∨ K > 4 then 0
  else
    let k := K.toNat
    let X := U.re
    let A := |X|
    let U := if X < 0 then -U else U
    let VH := if A < 15 then pgShift U A (k + 1) else (U, 0)
    let V := VH.1
    let H := (VH.2 * (pgFct (k + 1) : ℂ) + pgTail V k) * (pgSgn k : ℂ)
    let H := if k = 0 then H + log V else H
    if X < 0 then H + pgReflect U V k else H

end

end Verif
