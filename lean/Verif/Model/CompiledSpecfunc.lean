import Verif.Model.Ozaki
import Verif.Model.Polygamma
import Verif.Model.RTDInt
import Verif.Model.ElPh

/-!
Model of the compiled special functions: `qmeq/specfunc/c_specfunc.pyx`, lines 26-317 and 353-503 (the rest is in `Verif.Model.CompiledRTD`),
and `qmeq/specfunc/c_specfunc_elph.pyx`. In contrast to the Python version the digamma function is not that of scipy but
computed here.

Simplifications: as in `Verif.Model.Specfunc` and `Verif.Model.RTDInt`: real and complex numbers, the literal for `pi` is the number,
division by zero gives zero, exponentials do not overflow, `scipy.integrate.quad` and `scipy.linalg.eigh_tridiagonal` are parameters. The
results that are stored in an array of the caller are returned. A variable that has not been initialised is an error
(`PyErr.value`). Arrays of fixed size are lists, all positions are within them.
-/

namespace Verif

noncomputable section

open Complex (I)
open scoped ComplexConjugate

namespace CSpec

/-- `Digamma_factors`: c_specfunc.pyx:26-34. -/
def factors : List ℝ :=
  [0.0, -0.083333333333333333333333333333333333333333333333333, 0.008333333333333333333333333333333333333333333333333,
    -0.003968253968253968253968253968253968253968253968254, 0.0041666666666666666666666666666666666666666666666667,
    -0.0075757575757575757575757575757575757575757575757576, 0.021092796092796092796092796092796092796092796092796,
    -0.083333333333333333333333333333333333333333333333333]

/-- `Digamma_factors[i]`. -/
def factor (i : Nat) : ℝ := factors.getD i 0

/-- `clog`: c_specfunc.pyx:83-89. -/
def clog (z : ℂ) : ℂ := (0.5 * Real.log (z.re * z.re + z.im * z.im) : ℝ) + I * (Real.arctan (z.im / z.re) : ℝ)

/-! ### Polygamma functions -/

/-- `C[i][K]`: c_specfunc.pyx:36, 41-74, by columns. -/
def pgC : List (List ℝ) :=
  [[-factor 1, -factor 2, -factor 3, -factor 4, -factor 5, -factor 6],
   [1.66666666666666667e-1, -3.33333333333333333e-2, 2.38095238095238095e-2, -3.33333333333333333e-2,
    7.57575757575757576e-2, -2.53113553113553114e-1],
   [5.00000000000000000e-1, -1.66666666666666667e-1, 1.66666666666666667e-1, -3.00000000000000000e-1,
    8.33333333333333333e-1, -3.29047619047619048e+0],
   [2.00000000000000000e+0, -1.00000000000000000e+0, 1.33333333333333333e+0, -3.00000000000000000e+0,
    1.00000000000000000e+1, -4.60666666666666667e+1],
   [10, -7, 12, -33, 130, -691]]

/-- `C[i][K]`. -/
def pgCoef (i k : Nat) : ℝ := (pgC.getD k []).getD i 0

/-- `SGN[K]`: c_specfunc.pyx:37. -/
def pgSgn (k : Nat) : ℝ := ([-1, 1, -1, 1, -1] : List ℝ).getD k 0

/-- `FCT[k]`: c_specfunc.pyx:38. -/
def pgFct (k : Nat) : ℝ := ([0, 1, 1, 2, 6, 24] : List ℝ).getD k 0

/-- The sum over poles near the argument: c_specfunc.pyx:274-279. -/
def pgShift (V : ℂ) (A : ℝ) (K1 : Nat) : ℂ × ℂ :=
  let s := (pyRange 0 (15 - VN2.pyInt A) 1).foldl
    (fun (s : ℂ × ℂ) _ => (s.1 + 1, s.2 + 1 / (s.1 + 1) ^ K1)) (V, 1 / V ^ K1)
  (s.1 + 1, s.2)

/-- The asymptotic expansion: c_specfunc.pyx:281-292 without `H`. -/
def pgTail (V : ℂ) (k : Nat) : ℂ :=
  let R : ℂ := 1 / V ^ 2
  let P := ([5, 4, 3, 2, 1] : List Nat).foldl (fun (P : ℂ) i => R * (P + (pgCoef (i - 1) k : ℂ))) (R * (pgCoef 5 k : ℂ))
  let hh1 := 1 / V ^ (k + 1)
  let hh2 := P + (pgFct k : ℂ)
  let hh3 := V * hh2 + 0.5 * (pgFct (k + 1) : ℂ)
  hh1 * hh3

/-- What is added for negative real parts: c_specfunc.pyx:298-315, with `U` after its change of sign. -/
def pgReflect (U V : ℂ) (k : Nat) : ℂ :=
  let V := V * Real.pi
  let X := V.re
  let A : ℂ := Real.sin X
  let B : ℂ := Real.cos X
  let T : ℂ := Real.tanh X
  let P := B - I * A * T / (A + I * A * T)
  if k = 0 then 1 / U + P * Real.pi
  else if k = 1 then 1 / U ^ 2 + (P ^ 2 + 1) * 9.869604401089358
  else if k = 2 then 1 / U ^ 3 + (P ^ 2 + 1) * 62.01255336059963
  else 0

open Classical in
/-- `polygamma(U, K)`: c_specfunc.pyx:254-317. -/
def polygamma (U : ℂ) (K : Int) : ℂ :=
  if K < 0 ∨ K > 4 then 0
  else
    let k := K.toNat
    let X := U.re
    let A := |X|
    let U := if X < 0 then -U else U
    let VH := if A < 15 then pgShift U A (k + 1) else (U, 0)
    let V := VH.1
    let H := (VH.2 * (pgFct (k + 1) : ℂ) + pgTail V k) * (pgSgn k : ℂ)
    let H := if k = 0 then H + clog V else H
    if X < 0 then H + pgReflect U V k else H

/-- The polynomial with coefficients `Digamma_factors` at `t`, by a recurrence with real numbers: c_specfunc.pyx:240-251. -/
def poly (t : ℂ) : ℂ :=
  let x := t.re
  let y := t.im
  let r := x + x
  let s := x ^ 2 + y ^ 2
  let ab := ([2, 3, 4, 5, 6, 7] : List Nat).foldl
    (fun (ab : ℝ × ℝ) i => (ab.2 + r * ab.1, factor (7 - i) - s * ab.1)) (factor 7, factor 6)
  t * ab.1 + ab.2

open Classical in
/-- `digamma(z)`: c_specfunc.pyx:216-251. -/
def digamma (z : ℂ) : ℂ :=
  if z.re ≤ 0 then polygamma z 0
  else
    let n : Int := if z.re < 8 then 8 - VN2.pyInt z.re else 0
    let ret := (pyRange 0 n 1).foldl (fun (r : ℂ) (v : Int) => r - 1 / (z + (v : ℂ))) 0
    let w := z + n
    let t := 1 / w
    let ret := ret - t / 2
    ret + poly (t / w) + clog w

/-! ### First order -/

/-- `fermi_func`: c_specfunc.pyx:92-97. -/
def fermi (x : ℝ) : ℝ := if x > 709.77 then 0 else 1 / (Real.exp x + 1)

open Classical in
/-- `func_pauli`: c_specfunc.pyx:148-163. -/
def funcPauli (Ecb mu T Dm Dp : ℝ) (itype : Int) : ℝ × ℝ :=
  let alpha := (Ecb - mu) / T
  let Rm := (Dm - mu) / T
  let Rp := (Dp - mu) / T
  if itype = 1 ∨ itype = 3 ∨ (Rm < alpha ∧ alpha < Rp) then
    let cur0 := fermi alpha
    let cur1 := 1 - cur0
    (2 * Real.pi * cur0, 2 * Real.pi * cur1)
  else (0, 0)

/-- `-R if R < -40.0 else log(1+exp(-R))`: c_specfunc.pyx:184-185. -/
def softPlus (R : ℝ) : ℝ := if R < -40 then -R else Real.log (1 + Real.exp (-R))

open Classical in
/-- `func_1vN`: c_specfunc.pyx:166-213. `quad` stands for the principal value integral of the Fermi function. -/
def func1vN (quad : ℝ → ℝ → ℝ → Int → ℝ) (Ecb mu T Dm Dp : ℝ) (itype limit : Int) : Py Amp :=
  let alpha := (Ecb - mu) / T
  if itype = 0 then
    let Rm := (Dm - mu) / T
    let Rp := (Dp - mu) / T
    let cur0 : ℂ := quad Rm Rp alpha limit
    let cur0 : ℂ := cur0 + (if Rm < alpha ∧ alpha < Rp then -I * Real.pi * fermi alpha else 0)
    let cur1 : ℂ := cur0 + Real.log |(Rm - alpha) / (Rp - alpha)|
    let cur1 : ℂ := cur1 + (if Rm < alpha ∧ alpha < Rp then I * Real.pi else 0)
    let const0 : ℝ := T * (softPlus Rm - softPlus Rp)
    let const1 : ℝ := const0 + Dm - Dp
    .ok ⟨cur0, cur1, const0 + Ecb * cur0, const1 + Ecb * cur1⟩
  else if itype = 1 then
    let Rm := Dm / T
    let Rp := Dp / T
    let cur0 : ℂ := ((digamma (0.5 + I * alpha / (2 * Real.pi))).re - Real.log (|Rm| / (2 * Real.pi)) : ℝ)
    let cur0 : ℂ := cur0 - I * Real.pi * fermi alpha
    let cur1 : ℂ := cur0 + Real.log |Rm / Rp|
    let cur1 : ℂ := cur1 + I * Real.pi
    .ok ⟨cur0, cur1, (-T * Rm : ℝ) + Ecb * cur0, (-T * Rp : ℝ) + Ecb * cur1⟩
  else if itype = 2 then
    let Rm := (Dm - mu) / T
    let Rp := (Dp - mu) / T
    let cur0 : ℂ := if Rm < alpha ∧ alpha < Rp then -I * Real.pi * fermi alpha else 0
    let cur1 : ℂ := cur0 + (if Rm < alpha ∧ alpha < Rp then I * Real.pi else 0)
    .ok ⟨cur0, cur1, Ecb * cur0, Ecb * cur1⟩
  else if itype = 3 then
    let cur0 : ℂ := -I * Real.pi * fermi alpha
    let cur1 : ℂ := cur0 + I * Real.pi
    .ok ⟨cur0, cur1, Ecb * cur0, Ecb * cur1⟩
  else .error .value

/-! ### Second order -/

/-- `diff_fermi(x)` (with `sign = 1`, as below): c_specfunc.pyx:100-106. -/
def diffFermi (x : ℝ) : ℝ :=
  if x > 354.885 then 0
  else
    let e := Real.exp x;
    -e / (e + 1) ^ 2

/-- `bose(x)`: c_specfunc.pyx:109-115. -/
def bose (x : ℝ) : ℝ :=
  if x > 709.77 then 0
  else
    let e := Real.exp x
    1 / (e - 1)

/-- `phi(x, Dp, Dm)`: c_specfunc.pyx:118-124. -/
def phi (x Dp Dm : ℝ) : ℝ :=
  let Z : ℂ := 0.5 + (x / (2 * Real.pi) : ℝ) * I;
  -(digamma Z).re + Real.log (0.5 * (|Dp| + |Dm|) / (2 * Real.pi))

/-- `diff_phi(x)`: c_specfunc.pyx:127-132. -/
def diffPhi (x : ℝ) : ℝ :=
  let Z : ℂ := 0.5 + (x / (2 * Real.pi) : ℝ) * I
  1 / (2 * Real.pi) * (polygamma Z 1).im

/-- `diff2_phi(x)`: c_specfunc.pyx:135-140. -/
def diff2Phi (x : ℝ) : ℝ :=
  let Z : ℂ := 0.5 + (x / (2 * Real.pi) : ℝ) * I
  1 / (2 * Real.pi) ^ 2 * (polygamma Z 2).re

/-- `delta_phi(x1, x2, Dp, Dm)`: c_specfunc.pyx:143-145. -/
def deltaPhi (x1 x2 Dp Dm : ℝ) : ℝ := phi x1 Dp Dm - phi x2 Dp Dm

/-- `D_integral_equal_T`: c_specfunc.pyx:353-376. -/
def dEqualT (p1 p2 E1 dE E2 Dp Dm : ℝ) : ℝ :=
  if |E1 - E2| < 1e-10 then
    if |dE| < 1e-10 then
      p1 * p2 * (-diff2Phi E1 + diffFermi E1 * phi (-E1) Dp Dm - diffPhi (-E1) * fermi E1 - 0.5 * diffPhi E1) + 0.5 * p2 * diffPhi E1
    else
      p1 * p2 * (-fermi E1 * diffPhi (dE - E1) - bose dE * diffPhi (dE - E1) + diffFermi E1 * phi (dE - E1) Dp Dm
        - (bose dE + 0.5) * diffPhi E1) + 0.5 * p2 * diffPhi E1
  else
    if |dE| < 1e-10 then
      1 / (E1 - E2) * (p1 * p2 * (-(diffPhi E1 - diffPhi E2) + fermi E1 * phi (-E1) Dp Dm - fermi E2 * phi (-E2) Dp Dm
        - 0.5 * deltaPhi E1 E2 Dp Dm) + 0.5 * p2 * deltaPhi E1 E2 Dp Dm)
    else
      1 / (E1 - E2) * (p1 * p2 * ((fermi E1 + bose dE) * phi (dE - E1) Dp Dm - (fermi E2 + bose dE) * phi (dE - E2) Dp Dm
        - (bose dE + 0.5) * deltaPhi E1 E2 Dp Dm) + 0.5 * p2 * deltaPhi E1 E2 Dp Dm)

/-- `X_integral_equal_T`: c_specfunc.pyx:379-399. -/
def xEqualT (p1 p2 E1 dE E2 Dp Dm : ℝ) : ℝ :=
  let ret :=
    if |dE - E1 - E2| < 1e-10 then
      if |dE| < 1e-10 then diff2Phi E1 + fermi E1 * diffPhi (-E1) + diffPhi E1 * fermi (-E1)
      else (fermi E1 + bose (E1 + E2)) * diffPhi E2 + diffPhi E1 * (fermi E2 + bose (E1 + E2))
    else
      if |dE| < 1e-10 then
        -1 / (E1 + E2) * (fermi E1 * deltaPhi (-E1) E2 Dp Dm + fermi E2 * deltaPhi (-E2) E1 Dp Dm - (diffPhi E1 + diffPhi E2))
      else
        1 / (dE - E1 - E2) * ((fermi E1 + bose dE) * deltaPhi (dE - E1) E2 Dp Dm + (fermi E2 + bose dE) * deltaPhi (dE - E2) E1 Dp Dm)
  p1 * p2 * ret

/-- `D_integral`: c_specfunc.pyx:402-435. -/
def dOzaki (b : List (ℝ × ℝ)) (p1 p2 z1 z2 z3 T1 T2 mu1 mu2 Dp Dm : ℝ) : ℂ :=
  let BW := (|Dp| + |Dm|) * 0.5
  let BWT := Real.log (BW / (2 * Real.pi * T1))
  let pi2T := 2 * Real.pi * T2
  let f1 : ℂ := b.foldl (fun (f : ℂ) n =>
    if 1 / n.1 > BW / T2 then f
    else
      let x := T1 / n.1
      let A : ℂ := BWT - digamma (0.5 + (x / pi2T : ℝ) - ((z2 + mu1 + mu2) / pi2T : ℝ) * I)
      let B : ℂ := x - ((z3 + mu1 : ℝ) : ℂ) * I
      let C : ℂ := x - ((z1 + mu1 : ℝ) : ℂ) * I
      f + A * 1 / B * 1 / C * n.2) 0
  let f1 := f1 * (0 - 8 * Real.pi * T1 * I)
  let f2 : ℂ :=
    if |z3 / T1 - z1 / T1| > 1e-10 then
      (digamma (0.5 - ((z3 + mu1) / (2 * Real.pi * T1) : ℝ) * I) - digamma (0.5 - ((z1 + mu1) / (2 * Real.pi * T1) : ℝ) * I))
        / (z3 / T1 - z1 / T1 : ℝ) * (-2 * Real.pi * I) / T1
    else polygamma (0.5 - ((z3 + mu1) / (2 * Real.pi * T1) : ℝ) * I) 1 * (-1 / T1 : ℝ)
  0.25 * (p1 * p2 * f1 - p1 * f2)

/-- `X_integral`: c_specfunc.pyx:438-464. -/
def xOzaki (b : List (ℝ × ℝ)) (p1 p2 z1 z2 z3 T1 T2 mu1 mu2 Dp Dm : ℝ) : ℂ :=
  let BW := (|Dp| + |Dm|) * 0.5
  let pi2T := 2 * Real.pi * T2
  let ret : ℂ := b.foldl (fun (f : ℂ) n =>
    if 1 / n.1 > BW / T2 then f
    else
      let x := T1 / n.1
      let A : ℂ := digamma (0.5 + (x / pi2T : ℝ) - ((z2 + mu1 + mu2) / pi2T : ℝ) * I)
      let B : ℂ := digamma (0.5 - ((z3 + mu2) / pi2T : ℝ) * I)
      let C : ℂ := x + ((-z2 + z3 - mu1 : ℝ) : ℂ) * I
      let D : ℂ := x - ((z1 + mu1 : ℝ) : ℂ) * I
      f + (A - B) / C * 1 / D * n.2) 0
  ret * (-8 * Real.pi * T1 * I) * (p1 * p2 * 0.25)

/-- The array `B` of `Ozaki`: c_specfunc.pyx:486-490. -/
def ozakiB (N : Nat) : Py (List ℝ) :=
  (pyRange 1 N 1).foldlM
    (fun B (n : Int) => pySet B (n - 1) (1 / (2 * Real.sqrt ((2 * (n : ℝ) - 1) * (2 * (n : ℝ) + 1)))))
    (List.replicate (N - 1) 0)

open Classical in
/-- `Ozaki`: c_specfunc.pyx:479-503, for `N ≥ 1`. -/
def ozaki (eigh : EighTri) (N : Nat) : Py (List (ℝ × ℝ)) := do
  let B ← ozakiB N
  let e := eigh N B
  let r ← (List.range N).foldlM
    (fun (s : List (ℝ × ℝ) × Int) (i : Nat) =>
      let val := e.val i
      if 0 < val then do
        let r := e.vec 0 i ^ 2 / (4 * val ^ 2)
        let rows ← pySet s.1 s.2 (val, r)
        pure (rows, s.2 + 1)
      else pure s)
    (List.replicate (N / 2) (0, 0), 0)
  pure r.1

open Classical in
/-- `BW_Ozaki`: c_specfunc.pyx:467-476. The root of a negative number is `nan`, which `int` does not take. -/
def bwOzaki (eigh : EighTri) (BW : ℝ) : Py (List (ℝ × ℝ)) :=
  let p : ℝ := 1.27324094 / 2.54647909
  let q : ℝ := (0.52325856 - BW) / 2.54647909
  if p * p / 4 - q < 0 then .error .value
  else
    let N := (VN2.pyInt (p / 2 - Real.sqrt (p * p / 4 - q))).natAbs
    ozaki eigh (N * 2 + 2)

/-! ### Phonons -/

/-- `FuncBose.eval`: c_specfunc_elph.pyx:22-26. -/
def boseElPh (x : ℝ) : ℝ := 1 / (Real.exp x - 1)

open Classical in
/-- `FuncPauliElPh.eval`: c_specfunc_elph.pyx:45-61. -/
def rate (B : PhBaths) (E : ℝ) (l : Nat) : ℝ :=
  let T := B.T l
  let omm := B.omm l
  let omp := B.omp l
  let alpha := max |E / T| B.eps * (if E ≥ 0 then 1 else -1)
  let Rm := max (omm / T) (0.9 * B.eps)
  let Rp := omp / T
  if Rm < alpha ∧ alpha < Rp then 2 * Real.pi * boseElPh alpha * B.dos l (T * alpha)
  else if Rm < -alpha ∧ -alpha < Rp then 2 * Real.pi * (1 + boseElPh (-alpha)) * B.dos l (-T * alpha)
  else 0

open Classical in
/-- `Func1vNElPh.eval`: c_specfunc_elph.pyx:83-111; the values stored in `val0` and `val1`, which stay zero for other values
of `itype`. -/
def func1vNElPh (B : PhBaths) (quad : (ℝ → ℝ) → ℝ → ℝ → ℝ → ℝ) (itype : Int) (E : ℝ) (l : Nat) : ℂ × ℂ :=
  let T := B.T l
  let omm := B.omm l
  let omp := B.omp l
  let alpha := max |E / T| B.eps * (if E ≥ 0 then 1 else -1)
  let Rm := max (omm / T) (0.9 * B.eps)
  let Rp := omp / T
  let iplus : ℝ → ℝ := fun x => B.dos l (T * x) * boseElPh x
  let iminus : ℝ → ℝ := fun x => -(B.dos l (T * x)) * (1 + boseElPh x)
  if itype = 0 then
    let val0 : ℂ := quad iplus Rm Rp alpha
    let val0 := val0 + (if Rm < alpha ∧ alpha < Rp then -I * Real.pi * iplus alpha else 0)
    let val1 : ℂ := quad iminus Rm Rp alpha
    let val1 := val1 + (if Rm < alpha ∧ alpha < Rp then -I * Real.pi * iminus alpha else 0)
    (val0, val1)
  else if itype = 2 then
    (if Rm < alpha ∧ alpha < Rp then -I * Real.pi * iplus alpha else 0, if Rm < alpha ∧ alpha < Rp then -I * Real.pi * iminus alpha else 0)
  else (0, 0)

end CSpec

end

end Verif
