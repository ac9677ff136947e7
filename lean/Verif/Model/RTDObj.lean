import Verif.Model.RTD

/-!
Model of an RTD object during its life: `qmeq/approach/base/RTD.py`, lines 24-31, 50-126, 917-934, and
`prepare_kern`, `solve` of `qmeq/approach/aprclass.py`, lines 140-193, 361-393.

Simplifications: `mfreeq` is False (with `mfreeq=True` the method `set_dphi0_dt` is missing in `KernelHandlerRTD`);
`symq` is not changed; the part of `solve` after `generate_kern` is not repeated here, it does not change what is
modelled. The parameters of the system, including the result of `diagonalise` and `rotate`, are given by `Sys`. If
`generate_kern` raises, the object keeps the arrays and the flag `ImGamma` it had when `generate_kern` was called; the
arrays left half filled are the ones which the next `prepare_kern` resets. `min(tlst)` is that of a list which is not
empty. `np.isclose` has its standard tolerances.
-/

namespace Verif

noncomputable section

namespace RTD

/-- What the approach reads from the system. -/
structure Sys where
  v : View
  E : Nat → ℝ
  nmany : Nat
  L : Leads
  tl : Nat → Nat → ℂ
  nsingle : Nat

/-- What the generators read. -/
def Sys.inp (y : Sys) (lib : Lib) (poles : Option lib.Poles) : In :=
  ⟨y.v, y.E, y.nmany, y.L, y.tl, y.nsingle, lib, poles⟩

/-- `np.isclose(a, b)`. -/
def isclose (a b : ℝ) : Prop := |a - b| ≤ 1e-8 + 1e-5 * |b|

/-- The condition for calling `set_Ozaki_params`: RTD.py:125. The array `Tba` has `nmany` rows and columns. -/
def Sys.needOzaki (y : Sys) : Prop :=
  ¬ (∀ l < y.v.nleads, isclose (y.L.T l) (y.L.T 0)) ∨
    ∃ l < y.v.nleads, ∃ a < y.nmany, ∃ b < y.nmany, |(y.L.Tba l a b).im| > 0

/-- `min(tlst)`. -/
def Sys.minT (y : Sys) : ℝ := (List.range y.v.nleads).foldl (fun m l => min m (y.L.T l)) (y.L.T 0)

/-- `BW_T`: RTD.py:931. `dlst[0][0]`, `dlst[0][1]` are `Dm 0` and `Dp 0`. -/
def Sys.bwT (y : Sys) : ℝ := (|y.L.Dm 0| + |y.L.Dp 0|) / 2 / y.minT

/-- An RTD object: the system, `funcp.off_diag_corrections`, the attribute `off_diag_corrections` of the object,
`Ozaki_poles_and_residues`, `BW_Ozaki_expansion`, `ImGamma`, `funcp.symq`, `is_prepared`, `si.states_changed` and the
arrays. -/
structure Obj (lib : Lib) where
  sys : Sys
  funOff : Bool
  off : Bool
  poles : Option lib.Poles
  bw : ℝ
  im : Bool
  symq : Bool
  prepared : Bool
  changed : Bool
  st : Option (Mat × Mats)

/-- `__init__`: RTD.py:24-31, indexing.py:528. -/
def Obj.new (lib : Lib) (y : Sys) (symq funOff : Bool) : Obj lib :=
  ⟨y, funOff, funOff, none, 0, false, symq, false, true, none⟩

/-- `fill(0.0)`. -/
def Ten.clear (t : Ten) : Ten := Ten.zeros t.leads t.rows t.cols

/-- `clean_arrays`: RTD.py:88-104, aprclass.py:152-159. -/
def clean (off : Bool) (a : Mat × Mats) : Mat × Mats :=
  (Mat.zeros a.1.rows a.1.cols,
    ⟨fun n => match n with
      | .Wdd | .WE1 | .WE2 => Ten.clear (a.2.ten n)
      | .ReWdn | .ImWdn | .ReWnd | .ImWnd => if off then Ten.clear (a.2.ten n) else a.2.ten n,
     if off then Mat.zeros a.2.Lnn.rows a.2.Lnn.cols else a.2.Lnn⟩)

/-- The arrays of `prepare_arrays`. -/
def arrays (v : View) (symq : Bool) : Mat × Mats := ((fresh v symq).kern, (fresh v symq).acc.mats)

/-- `prepare_kern`: aprclass.py:140-150, with `prepare_arrays`: RTD.py:50-86. If the object has no off-diagonal
corrections the new kernel handler has no attribute `ReWdn` in `set_matrix_list` (kernel_handler.py:258-259). The
flag `ImGamma` is only reset when arrays are cleaned. -/
def Obj.prepare {lib : Lib} (o : Obj lib) : Py (Obj lib) :=
  if o.prepared && !o.changed then
    match o.st with
    | none => .error .attribute
    | some a => pure { o with st := some (clean o.off a), im := false }
  else if o.off then pure { o with st := some (arrays o.sys.v o.symq), prepared := true, changed := false }
  else .error .attribute

open Classical in
/-- `generate_kern`, the part before the loops: RTD.py:123-126, 917-934. -/
def Obj.setup {lib : Lib} (o : Obj lib) : Obj lib :=
  let o := { o with off := o.funOff }
  if o.sys.needOzaki ∧ o.bw < o.sys.bwT then { o with poles := some (lib.ozaki o.sys.bwT), bw := o.sys.bwT } else o

/-- `generate_fct` and `generate_kern` for a prepared object: RTD.py:106-151, 247-272. -/
def Obj.generate {lib : Lib} (o : Obj lib) : Obj lib × Py Unit :=
  match Pauli.genFct o.sys.v o.sys.E o.sys.L with
  | .error e => (o, .error e)
  | .ok fct =>
    let o := o.setup
    match o.st with
    | none => (o, .error .attribute)
    | some a =>
      match genKern (o.sys.inp lib o.poles) fct o.off ⟨a.1, ⟨a.2, o.im⟩⟩ with
      | .error e => (o, .error e)
      | .ok st => ({ o with st := some (st.kern, st.acc.mats), im := st.acc.im }, .ok ())

/-- The part of `solve` up to the kernel: aprclass.py:383-388. -/
def Obj.solve {lib : Lib} (o : Obj lib) : Obj lib × Py Unit :=
  match o.prepare with
  | .error e => (o, .error e)
  | .ok o => o.generate

/-- What can happen to the object between two calls of `solve`: the option is set, parameters of the system are
changed, the considered states are changed (`set_statesdm`, indexing.py:528, 666, 728, 907), together with what is
calculated from them. -/
inductive Change where
  | option (b : Bool)
  | params (E : Nat → ℝ) (nmany : Nat) (L : Leads) (tl : Nat → Nat → ℂ) (nsingle : Nat)
  | states (y : Sys)

/-- The effect on the object. -/
def Obj.change {lib : Lib} (o : Obj lib) : Change → Obj lib
  | .option b => { o with funOff := b }
  | .params E nmany L tl nsingle => { o with sys := ⟨o.sys.v, E, nmany, L, tl, nsingle⟩ }
  | .states y => { o with sys := y, changed := true }

end RTD

end

end Verif
