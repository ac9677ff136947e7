import Mathlib.Analysis.SpecialFunctions.Log.Basic
import Mathlib.Analysis.Real.Pi.Bounds
import Mathlib.Data.Complex.Basic

/-!
Model of `qmeq/specfunc/specfunc.py`, lines 18-129 and 180-197, over the real numbers.

Simplifications: floating point numbers are real numbers. Division by zero gives zero in Lean
(numpy gives `inf` or `nan`), so statements assume `T ≠ 0` where it matters. The principal
value integral of `scipy.integrate.quad` and the digamma function are parameters (`NumLib`).
The cache decorators are left out.
-/

namespace Verif

noncomputable section

/-- `fermi_func`: specfunc.py:180-197. -/
def fermiFunc (x : ℝ) : ℝ := if x > 709.77 then 0 else 1 / (Real.exp x + 1)

/-- `func_pauli`: specfunc.py:18-51. -/
def funcPauli (Ecb mu T Dm Dp : ℝ) (itype : Int) : ℝ × ℝ :=
  let alpha := (Ecb - mu) / T
  let Rm := (Dm - mu) / T
  let Rp := (Dp - mu) / T
  open Classical in
  if itype = 1 ∨ itype = 3 ∨ (Rm < alpha ∧ alpha < Rp) then
    (2 * Real.pi * fermiFunc alpha, 2 * Real.pi * (1 - fermiFunc alpha))
  else (0, 0)

/-- The numerical routines `func_1vN` relies on. -/
structure NumLib where
  /-- `quad(fermi_func, Rm, Rp, weight='cauchy', wvar=alpha, limit=limit)[0]` -/
  quadPV : ℝ → ℝ → ℝ → Int → ℝ
  /-- `digamma(0.5+1.0j*x).real` -/
  digammaRe : ℝ → ℝ

/-- The four numbers `[cur0, cur1, en0, en1]`. -/
structure Amp where
  cur0 : ℂ
  cur1 : ℂ
  en0 : ℂ
  en1 : ℂ

/-- `-R if R < -40 else log(1+exp(-R))`: specfunc.py:99-100. -/
def softPlus (R : ℝ) : ℝ := if R < -40 then -R else Real.log (1 + Real.exp (-R))

/-- `func_1vN`, `itype == 0`: specfunc.py:90-104. -/
def func1vN0 (lib : NumLib) (Ecb mu T Dm Dp : ℝ) (limit : Int) : Amp :=
  let alpha := (Ecb - mu) / T
  let Rm := (Dm - mu) / T
  let Rp := (Dp - mu) / T
  open Classical in
  let cur0 : ℂ := lib.quadPV Rm Rp alpha limit +
    (if Rm < alpha ∧ alpha < Rp then -Complex.I * Real.pi * fermiFunc alpha else 0)
  let cur1 : ℂ := cur0 + Real.log |(Rm - alpha) / (Rp - alpha)| +
    (if Rm < alpha ∧ alpha < Rp then Complex.I * Real.pi else 0)
  let const0 : ℝ := T * (softPlus Rm - softPlus Rp)
  let const1 : ℝ := const0 + Dm - Dp
  ⟨cur0, cur1, const0 + Ecb * cur0, const1 + Ecb * cur1⟩

/-- `func_1vN`, `itype == 1`: specfunc.py:105-113. -/
def func1vN1 (lib : NumLib) (Ecb mu T Dm Dp : ℝ) : Amp :=
  let alpha := (Ecb - mu) / T
  let Rm := Dm / T
  let Rp := Dp / T
  let cur0 : ℂ := (lib.digammaRe (alpha / (2 * Real.pi)) - Real.log (|Rm| / (2 * Real.pi)) : ℝ) -
    Complex.I * Real.pi * fermiFunc alpha
  let cur1 : ℂ := cur0 + Real.log |Rm / Rp| + Complex.I * Real.pi
  ⟨cur0, cur1, (-T * Rm : ℝ) + Ecb * cur0, (-T * Rp : ℝ) + Ecb * cur1⟩

/-- `func_1vN`, `itype == 2`: specfunc.py:114-119. -/
def func1vN2 (Ecb mu T Dm Dp : ℝ) : Amp :=
  let alpha := (Ecb - mu) / T
  let Rm := (Dm - mu) / T
  let Rp := (Dp - mu) / T
  open Classical in
  let cur0 : ℂ := if Rm < alpha ∧ alpha < Rp then -Complex.I * Real.pi * fermiFunc alpha else 0
  let cur1 : ℂ := cur0 + (if Rm < alpha ∧ alpha < Rp then Complex.I * Real.pi else 0)
  ⟨cur0, cur1, Ecb * cur0, Ecb * cur1⟩

/-- `func_1vN`, `itype == 3`: specfunc.py:120-125. -/
def func1vN3 (Ecb mu T : ℝ) : Amp :=
  let alpha := (Ecb - mu) / T
  let cur0 : ℂ := -Complex.I * Real.pi * fermiFunc alpha
  let cur1 : ℂ := cur0 + Complex.I * Real.pi
  ⟨cur0, cur1, Ecb * cur0, Ecb * cur1⟩

/-- `func_1vN`: specfunc.py:54-129. -/
def func1vN (lib : NumLib) (Ecb mu T Dm Dp : ℝ) (itype limit : Int) : Amp :=
  if itype = 0 then func1vN0 lib Ecb mu T Dm Dp limit
  else if itype = 1 then func1vN1 lib Ecb mu T Dm Dp
  else if itype = 2 then func1vN2 Ecb mu T Dm Dp
  else if itype = 3 then func1vN3 Ecb mu T
  else ⟨0, 0, 0, 0⟩

end

end Verif
