import Verif.Model.Neumann2
import Mathlib.Analysis.SpecialFunctions.Complex.Circle
import Mathlib.Analysis.SpecialFunctions.Log.Basic

/-!
Model of the Hilbert transform of the 2vN approach: `qmeq/specfunc/specfunc.py`, lines 132-178, and
`qmeq/approach/base/neumann2.py`, lines 15-99.

Simplifications:
* `numpy.fft.fft` and `ifft` are the sums by which the documentation defines them, without rounding.
* An array over the energies, leads and elements is taken apart: one list over the energies for each lead (and element).
-/

namespace Verif

open Finset

noncomputable section

/-- `numpy.fft.fft(x)`, a `ValueError` for an empty array. -/
def fft (x : List ℂ) : Py (List ℂ) :=
  if x.length = 0 then .error .value
  else .ok ((List.range x.length).map fun k : Nat =>
    ∑ j ∈ range x.length, x.getD j 0 * Complex.exp (-2 * Real.pi * Complex.I * j * k / x.length))

/-- `numpy.fft.ifft(x)`, a `ValueError` for an empty array. -/
def ifft (x : List ℂ) : Py (List ℂ) :=
  if x.length = 0 then .error .value
  else .ok ((List.range x.length).map fun k : Nat =>
    1 / x.length * ∑ j ∈ range x.length, x.getD j 0 * Complex.exp (2 * Real.pi * Complex.I * j * k / x.length))

/-- The kernel before the Fourier transform: specfunc.py:146-153. -/
def fredriksenKer (n : Nat) : Py (List ℝ) := do
  let aux ← (pyRange 1 ((n : Int) + 1) 1).foldlM (fun aux (i : Int) => pySet aux i (i * Real.log i)) (List.replicate (n + 1) 0)
  let m : Int := 2 * n
  (pyRange 1 n 1).foldlM
    (fun (ker : List ℝ) (i : Int) => do
      let a ← pyGet aux (i + 1)
      let b ← pyGet aux i
      let c ← pyGet aux (i - 1)
      let ker ← pySet ker i (a - 2 * b + c)
      let x ← pyGet ker i
      pySet ker (m - i) (-x))
    (List.replicate (2 * n) 0)

/-- `kernel_fredriksen`: specfunc.py:132-154. -/
def kernelFredriksen (n : Nat) : Py (List ℂ) := do
  let ker ← fredriksenKer n
  let y ← fft (ker.map Complex.ofReal)
  pure (y.map fun z => z / (Real.pi : ℂ))

/-- `hilbert_fredriksen`: specfunc.py:157-178. `np.zeros` raises a `ValueError` for a negative length. -/
def hilbertFredriksen (f : List ℂ) (ker : Option (List ℂ)) : Py (List ℂ) := do
  let ker ← match ker with
    | some k => pure k
    | none => kernelFredriksen f.length
  let n := f.length
  if ker.length < n then .error .value
  else do
    let fpad ← fft (f ++ List.replicate (ker.length - n) 0)
    let r ← ifft (List.zipWith (· * ·) fpad ker)
    pure (r.take n)

/-- The part of `funcp` that is used here. -/
structure HtPars where
  left : Nat
  right : Nat
  ker : Option (List ℂ)

/-- Make the kernel if there is none of the right size: neumann2.py:43-45, 87-89. -/
def HtPars.makeKer (p : HtPars) (n : Nat) : Py HtPars := do
  match p.ker with
  | some k => if 2 * n ≠ k.length then pure { p with ker := some (← kernelFredriksen n) } else pure p
  | none => pure { p with ker := some (← kernelFredriksen n) }

/-- A row padded with zeros. -/
def HtPars.pad (p : HtPars) (f : List ℂ) : List ℂ := List.replicate p.left 0 ++ f ++ List.replicate p.right 0

/-- `get_htransf_phi1k`: neumann2.py:15-56. `phi` has one list over the `len` energies for each lead and pair of
elements. -/
def getHtransfPhi1k (len : Nat) (phi : List (List ℂ)) (p : HtPars) : Py ((List (List ℂ) × List (List ℂ)) × HtPars) := do
  let p ← p.makeKer (len + p.left + p.right)
  let phi := phi.map p.pad
  let h ← phi.mapM fun f => hilbertFredriksen f p.ker
  pure ((phi, h), p)

/-- `get_htransf_fk`: neumann2.py:59-99. `fk` has one list over the `len` energies for each lead. -/
def getHtransfFk (len : Nat) (fk : List (List ℝ)) (p : HtPars) : Py ((List (List ℂ) × List (List ℂ)) × HtPars) := do
  let p ← p.makeKer (len + p.left + p.right)
  let fk := fk.map fun f => p.pad (f.map Complex.ofReal)
  let h ← fk.mapM fun f => do
    let r ← hilbertFredriksen f p.ker
    pure (List.zipWith (fun (z x : ℂ) => (z.re : ℂ) - Complex.I * x) r f)
  pure ((fk, h), p)

/-- `prepare_distribution`: neumann2.py:206-232, for the leads `(mu, T)`. The extended arrays `fkp`, `hfkp`, `fkm`, `hfkm`. -/
def prepareDistribution (grid : List ℝ) (leads : List (ℝ × ℝ)) (p : HtPars) :
    Py (((List (List ℂ) × List (List ℂ)) × (List (List ℂ) × List (List ℂ))) × HtPars) := do
  let fkp := leads.map fun l => grid.map fun E => 1 / (Real.exp ((E - l.1) / l.2) + 1)
  let fkm := fkp.map fun f => f.map fun x => 1 - x
  let (a, p) ← getHtransfFk grid.length fkp p
  let (b, p) ← getHtransfFk grid.length fkm p
  pure ((a, b), p)

end

end Verif
