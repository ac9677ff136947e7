import Verif.Model.RTD

/-!
Model of the integrals of the RTD approach: `qmeq/specfunc/specfunc.py`, lines 199-240, 271-311, 557-792.

Simplifications: as in `Verif.Model.Specfunc` (real and complex numbers, division by zero gives zero). The digamma function
(`scipy.special.psi`) and `polygamma(U, 1)`, `polygamma(U, 2)` are parameters, as is the Ozaki expansion, which is a list of
pairs of a reciprocal pole and a residue. Exponentials do not overflow. The integrals are only called with `p2 = 1` (or
`p1 = 1`) and with both bandwidths the same (specfunc.py:501, 504, 550, 553).
-/

namespace Verif

noncomputable section

open Complex (I)

namespace RTD

/-- `psi(z)`, `polygamma(z, 1)`, `polygamma(z, 2)` and `BW_Ozaki(D)`. -/
structure Fun where
  base : NumLib
  psi : ℂ → ℂ
  psi1 : ℂ → ℂ
  psi2 : ℂ → ℂ
  ozaki : ℝ → List (ℝ × ℝ)

/-- `diff_fermi(x)` (with `sign = 1`): specfunc.py:199-219. -/
def diffFermi (x : ℝ) : ℝ := if x > 709.77 / 2 then 0 else -Real.exp x / (Real.exp x + 1) ^ 2

/-- `bose(x)` (with `sign = 1`): specfunc.py:221-240. -/
def bose (x : ℝ) : ℝ := if x > 709.77 then 0 else 1 / (Real.exp x - 1)

/-- `0.5 + x / (2 * np.pi) * 1j`. -/
def zOf (x : ℝ) : ℂ := 0.5 + (x / (2 * Real.pi) : ℝ) * I

/-- `phi(x, Dp, Dm)` with `Dp = Dm = D` (and `sign = 1`): specfunc.py:246-268. -/
def Fun.phi (F : Fun) (D x : ℝ) : ℝ := -(F.psi (zOf x)).re + Real.log (0.5 * (|D| + |D|) / (2 * Real.pi))

/-- `diff_phi(x)`: specfunc.py:271-290. -/
def Fun.diffPhi (F : Fun) (x : ℝ) : ℝ := 1 / (2 * Real.pi) * (F.psi1 (zOf x)).im

/-- `diff2_phi(x)`: specfunc.py:292-311. -/
def Fun.diff2Phi (F : Fun) (x : ℝ) : ℝ := 1 / (2 * Real.pi * 2 * Real.pi) * (F.psi2 (zOf x)).re

/-- `delta_phi(x1, x2, Dp, Dm)`: specfunc.py:313-336. -/
def Fun.deltaPhi (F : Fun) (D x1 x2 : ℝ) : ℝ := F.phi D x1 - F.phi D x2

/-- `_D_integral_equal_T(p1, 1, E1, deltaE, E2, D, D)`: specfunc.py:557-611. -/
def Fun.dEqualT (F : Fun) (p1 : Int) (E1 dE E2 D : ℝ) : ℝ :=
  if |E1 - E2| < 1e-10 then
    if |dE| < 1e-10 then
      p1 * (-F.diff2Phi E1 + diffFermi E1 * F.phi D (-E1) - F.diffPhi (-E1) * fermiFunc E1 - 0.5 * F.diffPhi E1)
        + 0.5 * F.diffPhi E1
    else
      p1 * (-fermiFunc E1 * F.diffPhi (dE - E1) - bose dE * F.diffPhi (dE - E1) + diffFermi E1 * F.phi D (dE - E1)
        - (bose dE + 0.5) * F.diffPhi E1) + 0.5 * F.diffPhi E1
  else
    if |dE| < 1e-10 then
      1 / (E1 - E2) * (p1 * (-(F.diffPhi E1 - F.diffPhi E2) + fermiFunc E1 * F.phi D (-E1)
        - fermiFunc E2 * F.phi D (-E2) - 0.5 * F.deltaPhi D E1 E2) + 0.5 * F.deltaPhi D E1 E2)
    else
      1 / (E1 - E2) * (p1 * ((fermiFunc E1 + bose dE) * F.phi D (dE - E1) - (fermiFunc E2 + bose dE) * F.phi D (dE - E2)
        - (bose dE + 0.5) * F.deltaPhi D E1 E2) + 0.5 * F.deltaPhi D E1 E2)

/-- `_X_integral_equal_T(p1, 1, E1, deltaE, E2, D, D)`: specfunc.py:614-658. -/
def Fun.xEqualT (F : Fun) (p1 : Int) (E1 dE E2 D : ℝ) : ℝ :=
  p1 * (if |dE - E1 - E2| < 1e-10 then
    if |dE| < 1e-10 then F.diff2Phi E1 + fermiFunc E1 * F.diffPhi (-E1) + F.diffPhi E1 * fermiFunc (-E1)
    else (fermiFunc E1 + bose (E1 + E2)) * F.diffPhi E2 + F.diffPhi E1 * (fermiFunc E2 + bose (E1 + E2))
  else
    if |dE| < 1e-10 then
      -1 / (E1 + E2) * (fermiFunc E1 * F.deltaPhi D (-E1) E2 + fermiFunc E2 * F.deltaPhi D (-E2) E1
        - (F.diffPhi E1 + F.diffPhi E2))
    else
      1 / (dE - E1 - E2) * ((fermiFunc E1 + bose dE) * F.deltaPhi D (dE - E1) E2
        + (fermiFunc E2 + bose dE) * F.deltaPhi D (dE - E2) E1))

/-- One step of the loop of `_D_integral`: specfunc.py:709-718. -/
def Fun.dPole (F : Fun) (z1 z2 z3 T1 T2 mu1 mu2 D : ℝ) (n : ℝ × ℝ) : ℂ :=
  if 1 / n.1 > D / T2 then 0 else
    let x := T1 / n.1
    let A := (Real.log (D / (2 * Real.pi * T1)) : ℂ)
      - F.psi (0.5 + (x / (2 * Real.pi * T2) : ℝ) - ((z2 + mu1 + mu2) / (2 * Real.pi * T2) : ℝ) * I)
    let B := x - ((z3 + mu1 : ℝ) : ℂ) * I
    let C := x - ((z1 + mu1 : ℝ) : ℂ) * I
    A * 1 / B * 1 / C * n.2

/-- `_D_integral(1, p2, z1, z2, z3, T1, T2, mu1, mu2, D, D, b_and_R)`: specfunc.py:661-729. -/
def Fun.dOzaki (F : Fun) (b : List (ℝ × ℝ)) (p2 : Int) (z1 z2 z3 T1 T2 mu1 mu2 Dp : ℝ) : ℂ :=
  let D := (|Dp| + |Dp|) * 0.5
  let f1 := (b.map (F.dPole z1 z2 z3 T1 T2 mu1 mu2 D)).sum * (-8 * Real.pi * T1 * I)
  let f2 : ℂ :=
    if |z3 / T1 - z1 / T1| > 1e-10 then
      (F.psi (0.5 - ((z3 + mu1) / (2 * Real.pi * T1) : ℝ) * I) - F.psi (0.5 - ((z1 + mu1) / (2 * Real.pi * T1) : ℝ) * I))
        / (z3 / T1 - z1 / T1 : ℝ) * (-2 * Real.pi * I) / T1
    else F.psi1 (0.5 - ((z3 + mu1) / (2 * Real.pi * T1) : ℝ) * I) * (-1 / T1 : ℝ)
  0.25 * (p2 * f1 - f2)

/-- One step of the loop of `_X_integral`: specfunc.py:777-787. -/
def Fun.xPole (F : Fun) (z1 z2 z3 T1 T2 mu1 mu2 D : ℝ) (n : ℝ × ℝ) : ℂ :=
  if 1 / n.1 > D / T2 then 0 else
    let x := T1 / n.1
    let A := F.psi (0.5 + (x / (2 * Real.pi * T2) : ℝ) - ((z2 + mu1 + mu2) / (2 * Real.pi * T2) : ℝ) * I)
    let B := F.psi (0.5 - ((z3 + mu2) / (2 * Real.pi * T2) : ℝ) * I)
    let C := x + ((-z2 + z3 - mu1 : ℝ) : ℂ) * I
    let E := x - ((z1 + mu1 : ℝ) : ℂ) * I
    (A - B) / C * 1 / E * n.2

/-- `_X_integral(1, p2, z1, z2, z3, T1, T2, mu1, mu2, D, D, b_and_R)`: specfunc.py:732-792. -/
def Fun.xOzaki (F : Fun) (b : List (ℝ × ℝ)) (p2 : Int) (z1 z2 z3 T1 T2 mu1 mu2 Dp : ℝ) : ℂ :=
  let D := (|Dp| + |Dp|) * 0.5
  (b.map (F.xPole z1 z2 z3 T1 T2 mu1 mu2 D)).sum * (-8 * Real.pi * T1 * I) * (p2 * 0.25)

/-- The routines the generators rely on, with the integrals of specfunc.py. -/
def Fun.lib (F : Fun) : Lib where
  base := F.base
  Poles := List (ℝ × ℝ)
  ozaki := F.ozaki
  dEq := F.dEqualT
  xEq := F.xEqualT
  dOz := F.dOzaki
  xOz := F.xOzaki

end RTD

end

end Verif
