import Verif.Model.Solve
import Mathlib.Algebra.Order.Floor.Ring
import Mathlib.Data.List.Sort
import Mathlib.Algebra.BigOperators.Group.Finset.Basic

/-!
Model of the 2vN approach: `qmeq/approach/base/neumann2.py` and `qmeq/approach/aprclass.py`, lines 414-612.

Simplifications:
* The numerical work on the integral equation (`phi1k_local`, `phi1k_iterate`, with the Hilbert transforms and the matrix
  inverse) is a parameter: functions of the grid, the parameters of the system and, for later iterations, of the arrays of
  the previous iteration. The interpolation on the grid they use (`func_2vN`, `get_at_k1`) is modelled separately.
* Arrays are functions; their shapes are those of the indexing object at the time the arrays were made. Rows of the first
  order arrays are bounds checked on reading.
* A step that raises leaves the object in the state before that step.
* Floating point numbers are real numbers, so `np.linspace` and `np.arange` are exact.
* `success` starts as `none`; printing and `func_iter` are left out.
-/

namespace Verif

open Finset

noncomputable section

namespace VN2

/-! ### Energy grid -/

/-- `np.linspace(a, b, n)`. -/
def linspace (a b : ℝ) (n : Nat) : List ℝ := (List.range n).map fun i : Nat => a + i * ((b - a) / ((n : ℝ) - 1))

open Classical in
/-- `np.arange(start, stop, step)`; a vanishing step raises (`ZeroDivisionError`, here `value`). -/
def arange (start stop step : ℝ) : Py (List ℝ) :=
  if step = 0 then .error .value
  else pure ((List.range ⌈(stop - start) / step⌉.toNat).map fun i : Nat => start + i * step)

/-- The energies in the list of `determine_emin_emax`: neumann2.py:161-172. -/
def emList (v : View) (E : Nat → ℝ) (dmin dmax : ℝ) : Py (List ℝ) := do
  let l1 ← collect (List.range v.ncharge) fun (c : Nat) => do
    let s ← v.states c
    pure ((prod2 s s).flatMap fun p => [dmax - E p.1 + E p.2, dmin - E p.1 + E p.2])
  let l2 ← collect (List.range (v.ncharge - 2)) fun (c : Nat) => do
    let sd ← v.states ((c : Int) + 2)
    let sb ← v.states c
    pure ((prod2 sd sb).flatMap fun p => [dmin + E p.1 - E p.2, dmax + E p.1 - E p.2])
  pure ([dmin, dmax] ++ l1 ++ l2)

/-- `min(lst)`, `max(lst)` of a list that is not empty. -/
def lmin (l : List ℝ) : ℝ := l.foldl min (l.headD 0)
/-- See `lmin`. -/
def lmax (l : List ℝ) : ℝ := l.foldl max (l.headD 0)

/-- `determine_grid_ext`: neumann2.py:177-202. Returns `Ek_grid_ext`, `kpnt_left`, `kpnt_right`. -/
def gridExt (grid : List ℝ) (dmin dmax emin_ emax_ extFct : ℝ) : Py (List ℝ × Nat × Nat) := do
  let g1 ← pyGet grid 1
  let g0 ← pyGet grid 0
  let step := g1 - g0
  let emin := extFct * (emin_ - dmin) + dmin
  let emax := extFct * (emax_ - dmax) + dmax
  let l ← arange (-dmin + step) (-emin + step) step
  let r ← arange (dmax + step) (emax + step) step
  let left := (l.map fun x => -x).insertionSort (· ≤ ·)
  pure (left ++ grid ++ r, left.length, r.length)

/-! ### Interpolation -/

/-- `int(x)`: truncation towards zero. -/
def pyInt (x : ℝ) : Int := if 0 ≤ x then ⌊x⌋ else ⌈x⌉

open Classical in
/-- The positions used for the interpolation at `Ek`: neumann2.py:653-660, 688-699; `none` outside of the window. For equal
first two grid points `int` raises. -/
def interpIdx (grid : List ℝ) (Ek : ℝ) : Py (Option (Int × Int)) := do
  let g0 ← pyGet grid 0
  let gl ← pyGet grid (-1)
  if Ek < g0 ∨ gl < Ek then pure none
  else do
    let g1 ← pyGet grid 1
    if g1 - g0 = 0 then .error .value
    else
      let b := pyInt ((Ek - g0) / (g1 - g0)) + 1
      let b := if b = grid.length then b - 1 else b
      pure (some (b - 1, b))

/-- `(fb-fa)/(b-a)*Ek + (b*fa-a*fb)/(b-a)`. -/
def lin (a b : ℝ) (fa fb : ℂ) (Ek : ℝ) : ℂ := (fb - fa) / (b - a) * Ek + (b * fa - a * fb) / (b - a)

/-- The interpolated value of one array at `Ek`, zero outside of the window. -/
def interp (grid : List ℝ) (f : List ℂ) (Ek : ℝ) : Py (Option ℂ) := do
  match ← interpIdx grid Ek with
  | none => pure none
  | some (ai, bi) => do
    let b ← pyGet grid bi
    let a ← pyGet grid ai
    let fb ← pyGet f bi
    let fa ← pyGet f ai
    pure (some (lin a b fa fb Ek))

/-- `func_2vN`: neumann2.py:633-666, for one lead. `plus` is `eta == 1`. -/
def func2vN (grid : List ℝ) (hf : List ℂ) (Ek : ℝ) (plus : Bool) : Py ℂ := do
  match ← interp grid hf Ek with
  | none => pure 0
  | some z => pure (if plus then Real.pi * z else Real.pi * (starRingEnd ℂ) z)

/-- `get_at_k1`: neumann2.py:668-712, for one lead, one first order element and one column. -/
def getAtK1 (grid : List ℝ) (phi hphi : List ℂ) (Ek : ℝ) (cj : Bool) : Py (ℂ × ℂ) := do
  match ← interp grid phi Ek with
  | none => pure (0, 0)
  | some u => do
    match ← interp grid hphi Ek with
    | none => pure (0, 0)
    | some hu =>
      let u := if cj then (starRingEnd ℂ) u else u
      let hu := if cj then (starRingEnd ℂ) hu else hu
      pure (Real.pi * hu, Real.pi * u)

/-! ### Kernel and currents -/

/-- A complex vector. -/
structure CVec where
  size : Nat
  val : Nat → ℂ

/-- A complex matrix. -/
structure CMat where
  rows : Nat
  cols : Nat
  val : Nat → Nat → ℂ

/-- `np.zeros(n)`. -/
def CVec.zeros (n : Nat) : CVec := ⟨n, fun _ => 0⟩

/-- `np.zeros((r, c))`. -/
def CMat.zeros (r c : Nat) : CMat := ⟨r, c, fun _ _ => 0⟩

/-- `m[i, j] = z`. -/
def CMat.put (m : CMat) (i j : Int) (z : ℂ) : Py CMat := do
  let r ← pyIdx m.rows i
  let c ← pyIdx m.cols j
  pure ⟨m.rows, m.cols, fun r' c' => if r' = r ∧ c' = c then z else m.val r' c'⟩

/-- `m[i] += x`. -/
def CMat.addRow (m : CMat) (i : Int) (x : Nat → ℂ) : Py CMat := do
  let r ← pyIdx m.rows i
  pure ⟨m.rows, m.cols, fun r' c' => if r' = r then m.val r' c' + x c' else m.val r' c'⟩

/-- `m[i] = x`. -/
def CMat.setRow (m : CMat) (i : Int) (x : Nat → ℂ) : Py CMat := do
  let r ← pyIdx m.rows i
  pure ⟨m.rows, m.cols, fun r' c' => if r' = r then x c' else m.val r' c'⟩

/-- `m[i]`. -/
def CMat.getRow (m : CMat) (i : Int) : Py (Nat → ℂ) := do
  let r ← pyIdx m.rows i
  pure (m.val r)

/-- `x[i] = z`. -/
def CVec.put (x : CVec) (i : Int) (z : ℂ) : Py CVec := do
  let k ← pyIdx x.size i
  pure ⟨x.size, fun j => if j = k then z else x.val j⟩

/-- `x[i] += z`. -/
def CVec.add (x : CVec) (i : Int) (z : ℂ) : Py CVec := do
  let k ← pyIdx x.size i
  pure ⟨x.size, fun j => if j = k then x.val j + z else x.val j⟩

/-- An array of shape `(nleads, ndm1, ndm0)`. -/
abbrev C3 := Nat → Nat → Nat → ℂ

/-- An array of shape `(len(Ek_grid), nleads, ndm1, ndm0)`. -/
abbrev C4 := Nat → Nat → Nat → Nat → ℂ

/-- One assignment to the kernel. -/
inductive RowOp where
  | put (i j : Int) (z : ℂ)
  | addRow (i : Int) (x : Nat → ℂ)

/-- Execution of an assignment. -/
def RowOp.run (m : CMat) : RowOp → Py CMat
  | .put i j z => m.put i j z
  | .addRow i x => m.addRow i x

/-- The matrix `shuffle`: neumann2.py:287-293. -/
def shuffle (v : View) : Py CMat :=
  (List.range v.ncharge).foldlM (fun m (c : Nat) => do
    let s ← v.states c
    (combsR2 s).foldlM (fun m p => do
      let bbp ← v.ind0 p.1 p.2 c
      let bpb ← v.ind0 p.2 p.1 c
      let m ← m.put bbp bpb 1
      m.put bpb bbp 1) m) (CMat.zeros v.ndm0 v.ndm0)

/-- `np.dot(np.conjugate(phi1_phi0), shuffle)`: neumann2.py:294. -/
def conjP (v : View) (P : C3) (sh : CMat) : C3 := fun l cb j =>
  ∑ k ∈ range v.ndm0, (starRingEnd ℂ) (P l cb k) * sh.val k j

/-- The assignments for the element `(b, bp)`: neumann2.py:301-317. -/
def rowOps (v : View) (E : Nat → ℝ) (T : Nat → Nat → Nat → ℂ) (P Pc : C3) (c : Nat) (b bp : Nat) : Py (List RowOp) := do
  let bbp ← v.ind0 b bp c
  let sa ← v.states ((c : Int) - 1)
  let ra ← collect sa fun a1 => do
    let bpa1 ← v.ind1 bp a1 ((c : Int) - 1)
    let ba1 ← v.ind1 b a1 ((c : Int) - 1)
    collect (List.range v.nleads) fun l => do
      let x ← v.rd Pc l bpa1
      let y ← v.rd P l ba1
      pure [RowOp.addRow bbp fun j => T l b a1 * x j, .addRow bbp fun j => -y j * T l a1 bp]
  let sc ← v.states ((c : Int) + 1)
  let rc ← collect sc fun c1 => do
    let c1bp ← v.ind1 c1 bp c
    let c1b ← v.ind1 c1 b c
    collect (List.range v.nleads) fun l => do
      let x ← v.rd P l c1bp
      let y ← v.rd Pc l c1b
      pure [RowOp.addRow bbp fun j => T l b c1 * x j, .addRow bbp fun j => -y j * T l c1 bp]
  pure (RowOp.put bbp bbp ((E b - E bp : ℝ) : ℂ) :: ra ++ rc)

/-- `generate_kern`: neumann2.py:272-317. -/
def genKern (v : View) (E : Nat → ℝ) (T : Nat → Nat → Nat → ℂ) (P : C3) (k : CMat) : Py CMat := do
  let sh ← shuffle v
  let ops ← collect (List.range v.ncharge) fun (c : Nat) => do
    let s ← v.states c
    collect (prod2 s s) fun p => rowOps v E T P (conjP v P sh) c p.1 p.2
  ops.foldlM RowOp.run k

/-- `phi1[l] = np.dot(phi1_phi0[l], phi0)`: neumann2.py:345-347. -/
def dotP (v : View) (P : C3) (phi0 : CVec) (l cb : Nat) : ℂ := ∑ j ∈ range v.ndm0, P l cb j * phi0.val j

/-- The increments of `generate_current`: neumann2.py:349-360. -/
def genCurrent (v : View) (T : Nat → Nat → Nat → ℂ) (phi1 hphi1 : Nat → Nat → ℂ) : Py (List CEv) :=
  collect (List.range (v.ncharge - 1)) fun (c : Nat) => do
    let sc ← v.states ((c : Int) + 1)
    let sb ← v.states c
    collect (prod2 sc sb) fun p => do
      let cb ← v.ind1 p.1 p.2 c
      collect (List.range v.nleads) fun l => do
        let x ← v.rd phi1 l cb
        let y ← v.rd hphi1 l cb
        pure [⟨l, -2 * (x * T l p.2 p.1).im, -2 * (y * T l p.2 p.1).im⟩]

/-- The weight `dx` of a grid point: neumann2.py:263-268. -/
def dx (grid : List ℝ) (i : Nat) : Py ℝ :=
  if i = 0 then do
    let a ← pyGet grid ((i : Int) + 1)
    let b ← pyGet grid i
    pure (a - b)
  else if i = grid.length - 1 then do
    let a ← pyGet grid i
    let b ← pyGet grid ((i : Int) - 1)
    pure (a - b)
  else do
    let a ← pyGet grid ((i : Int) + 1)
    let b ← pyGet grid ((i : Int) - 1)
    pure (a - b)

/-- `determine_phi1_phi0`: neumann2.py:242-270. -/
def phi1Phi0 (grid : List ℝ) (phi1k : C4) (PQ : C3 × C3) : Py (C3 × C3) :=
  (List.range grid.length).foldlM (fun PQ i => do
    let w ← dx grid i
    let e ← pyGet grid i
    pure (fun l cb j => PQ.1 l cb j + 1 / 2 * w * phi1k i l cb j,
      fun l cb j => PQ.2 l cb j + 1 / 2 * w * e * phi1k i l cb j)) PQ

/-! ### Iterations -/

/-- What the approach reads from the quantum dot, the leads, the indexing object and `funcp`. -/
structure Sys where
  v : View
  E : Nat → ℝ
  T : Nat → Nat → Nat → ℂ
  mu : Nat → ℝ
  temp : Nat → ℝ
  dlst : List (ℝ × ℝ)
  kpnt : Option Nat
  extFct : ℝ

/-- The extended grid with the sizes of the extensions. -/
structure Ext where
  grid : List ℝ
  left : Nat
  right : Nat

/-- The numerical routines; an exception is an error. -/
structure Num where
  /-- all calls of `phi1k_local` in one iteration: `phi1k_delta` and `kern1k_inv` -/
  loc : Sys → List ℝ → Ext → Py (C4 × C4)
  /-- all calls of `phi1k_iterate` in one iteration -/
  itr : Sys → List ℝ → Ext → C4 → C4 → Py C4
  /-- `np.linalg.solve` and `np.linalg.lstsq` -/
  solve : CMat → CVec → Option CVec
  lstsq : CMat → CVec → Option CVec

/-- `Iterations2vN`: aprclass.py:414-425. -/
structure Rec where
  niter : Int
  phi0 : CVec
  phi1 : Nat → Nat → ℂ
  cur : List CEv

/-- The arrays made by `prepare_arrays` (aprclass.py:161-188, 516-530). `kern`, `bvec`, `normVec` are missing in matrix-free
mode. -/
structure Arrs where
  cur : List CEv
  phi0 : CVec
  kern : Option (CMat × CVec × CVec)
  phi1 : Nat → Nat → ℂ
  hphi1 : Nat → Nat → ℂ
  pp : C3
  epp : C3

/-- A 2vN approach object with the system it refers to. `asked` is not part of the object: it lists the systems of equations
handed to the solver. -/
structure St where
  opts : Opts
  sys : Sys
  changed : Bool
  prepared : Bool
  zeroth : Bool
  niter : Int
  iters : List Rec
  grid : List ℝ
  ext : Ext
  dband : ℝ × ℝ
  arrs : Option Arrs
  phi1k : Option C4
  delta : Option C4
  inv : Option C4
  sol0 : Option CVec
  success : Option Bool
  asked : List (CMat × CVec)

/-- `restart`: aprclass.py:119-133, 493-509. -/
def St.restart (s : St) : St :=
  { s with prepared := false, zeroth := true, niter := -1, iters := [], arrs := none, phi1k := none, delta := none,
           inv := none, sol0 := none }

/-- A new object: aprclass.py:471-491 (`Ek_grid` is one zero). `dband` stands for `funcp.dmin`, `funcp.dmax`, which do not
exist yet; they are set together with the first grid unless that is the initial one. -/
def St.fresh (o : Opts) (sys : Sys) : St :=
  ⟨o, sys, true, false, true, -1, [], [0], ⟨[], 0, 0⟩, (0, 0), none, none, none, none, none, none, []⟩

/-- `np.min(dlst)`, `np.max(dlst)`: neumann2.py:132-133. -/
def Sys.band (y : Sys) : ℝ × ℝ :=
  (lmin (y.dlst.map fun p => min p.1 p.2), lmax (y.dlst.map fun p => max p.1 p.2))

open Classical in
/-- `make_Ek_grid`: neumann2.py:127-147. The restart on a change of the grid is only reached for `niter != -1`. -/
def St.makeGrid (s : St) : Py St :=
  match s.sys.kpnt with
  | none => .error .value
  | some n =>
    if 0 < s.sys.v.nleads then do
      let g0 ← pyGet s.grid 0
      let gl ← pyGet s.grid (-1)
      let d := s.sys.band
      if g0 ≠ d.1 ∨ gl ≠ d.2 ∨ s.grid.length ≠ n then
        let s1 := { s with dband := d, grid := linspace d.1 d.2 n }
        pure (if s.niter ≠ -1 then s1.restart else s1)
      else pure s
    else pure s

/-- `determine_emin_emax` and `determine_grid_ext`: neumann2.py:149-202. -/
def St.extend (s : St) : Py St := do
  let l ← emList s.sys.v s.sys.E s.dband.1 s.dband.2
  let r ← gridExt s.grid s.dband.1 s.dband.2 (lmin l) (lmax l) s.sys.extFct
  pure { s with ext := ⟨r.1, r.2.1, r.2.2⟩ }

/-- `generate_norm_vec`: aprclass.py:217-231. -/
def normVec (v : View) : Py CVec :=
  (List.range v.ncharge).foldlM (fun x (c : Nat) => do
    let l ← v.states c
    l.foldlM (fun x b => do
      let bb ← v.ind0 b b c
      x.add bb 1) x) (CVec.zeros v.ndm0)

/-- `kern`, `bvec`, `norm_vec` in `prepare_arrays`: aprclass.py:172-188. -/
def makeKern (o : Opts) (v : View) : Py (Option (CMat × CVec × CVec)) :=
  if o.mfreeq then pure none else do
    let nv ← normVec v
    let rows := if o.symq then v.ndm0 else v.ndm0 + 1
    pure (some (CMat.zeros rows v.ndm0, CVec.zeros rows, nv))

/-- `kern`, `bvec` in `clean_arrays`: aprclass.py:153-155. -/
def cleanKern (o : Opts) (k : Option (CMat × CVec × CVec)) : Py (Option (CMat × CVec × CVec)) :=
  if o.mfreeq then pure k else do
    let k ← attr k
    pure (some (CMat.zeros k.1.rows k.1.cols, CVec.zeros k.2.1.size, k.2.2))

/-- `prepare_arrays` of both classes: aprclass.py:161-188, 516-530. -/
def St.prepareArrays (s : St) : Py St := do
  let z3 : C3 := fun _ _ _ => 0
  let kern ← makeKern s.opts s.sys.v
  let s := { s with arrs := some ⟨[], CVec.zeros s.sys.v.ndm0, kern, fun _ _ => 0, fun _ _ => 0, z3, z3⟩ }
  pure (if s.zeroth then { s with phi1k := some fun _ _ _ _ => 0, delta := some fun _ _ _ _ => 0,
                                  inv := some fun _ _ _ _ => 0 }
    else s)

/-- `clean_arrays` of both classes: aprclass.py:152-159, 532-539. -/
def St.cleanArrays (s : St) : Py St := do
  let a ← attr s.arrs
  let kern ← cleanKern s.opts a.kern
  pure { s with arrs := some { a with cur := [], kern := kern, phi1 := fun _ _ => 0, hphi1 := fun _ _ => 0,
                                      pp := fun _ _ _ => 0, epp := fun _ _ _ => 0 } }

/-- `Approach.prepare_kern`: aprclass.py:140-150. -/
def St.prepareKern (s : St) : Py St :=
  if s.prepared && !s.changed then s.cleanArrays
  else do
    let s ← s.prepareArrays
    pure { s with opts := s.opts.prepareSolver, changed := false, prepared := true }

/-- `TermsCalculator2vN.iterate`: neumann2.py:395-431. -/
def St.iterate (num : Num) (s : St) : Py St :=
  if s.zeroth then do
    let r ← num.loc s.sys s.grid s.ext
    pure { s with delta := some r.1, inv := some r.2, zeroth := false }
  else do
    let d ← attr s.delta
    let i ← attr s.inv
    let d ← num.itr s.sys s.grid s.ext d i
    pure { s with delta := some d }

/-- The lines from `phi1k += phi1k_delta` to `niter += 1`: aprclass.py:564-566. -/
def St.integrate (s : St) : Py St := do
  let p ← attr s.phi1k
  let d ← attr s.delta
  let a ← attr s.arrs
  let p' : C4 := fun k l cb j => p k l cb j + d k l cb j
  let r ← phi1Phi0 s.grid p' (a.pp, a.epp)
  pure { s with phi1k := some p', arrs := some { a with pp := r.1, epp := r.2 }, niter := s.niter + 1 }

/-- `generate_kern` (neumann2.py:272-317): in matrix-free mode there is no kernel (`TypeError`). -/
def St.genKern (s : St) : Py St := do
  let a ← attr s.arrs
  match a.kern with
  | none => .error .type
  | some k => do
    let m ← VN2.genKern s.sys.v s.sys.E s.sys.T a.pp k.1
    pure { s with arrs := some { a with kern := some (m, k.2) } }

/-- The solver: aprclass.py:318-329. -/
def St.runSolver (s : St) (num : Num) (k : CMat) (b : CVec) : Option (Option CVec) :=
  if s.opts.solmethod = some "solve" then (num.solve k b).map some
  else if s.opts.solmethod = some "lsqr" then (num.lstsq k b).map some
  else some s.sol0

/-- Assignment of the solution: aprclass.py:318-329. -/
def finish (n : Nat) (old : Option CVec) : Option (Option CVec) → Option CVec × CVec × Bool
  | none => (old, CVec.zeros n, false)
  | some none => (none, CVec.zeros n, false)
  | some (some x) => if x.size = n then (some x, x, true) else (some x, CVec.zeros n, false)

/-- Return of the replaced equation: aprclass.py:310, 331-333. `k` is the kernel before, `m` after the replacement. -/
def restore (o : Opts) (k m : CMat) : Py CMat :=
  if o.symq then do
    let old ← k.getRow o.normRow
    m.setRow o.normRow old
  else pure m

/-- `solve_kern`: aprclass.py:298-333. -/
def St.solveKern (num : Num) (s : St) : Py St := do
  let a ← attr s.arrs
  let k ← attr a.kern
  let pos := if s.opts.symq then s.opts.normRow else -1
  let m ← k.1.setRow pos k.2.2.val
  let b ← k.2.1.put pos 1
  let r := finish a.phi0.size s.sol0 (s.runSolver num m b)
  let m' ← restore s.opts k.1 m
  pure { s with arrs := some { a with kern := some (m', b, k.2.2), phi0 := r.2.1 }, sol0 := r.1, success := some r.2.2,
                asked := s.asked ++ [(m, b)] }

/-- `generate_current`: neumann2.py:319-362. -/
def St.genCurrent (s : St) : Py St := do
  let a ← attr s.arrs
  let p1 := dotP s.sys.v a.pp a.phi0
  let h1 := dotP s.sys.v a.epp a.phi0
  let evs ← VN2.genCurrent s.sys.v s.sys.T p1 h1
  pure { s with arrs := some { a with phi1 := p1, hphi1 := h1, cur := a.cur ++ evs } }

/-- `self.iters.append(Iterations2vN(self))`: aprclass.py:572. -/
def St.record (s : St) : Py St := do
  let a ← attr s.arrs
  pure { s with iters := s.iters ++ [⟨s.niter, a.phi0, a.phi1, a.cur⟩] }

/-- One step of a computation that may have raised before. -/
def step (f : St → Py St) (r : St × Option PyErr) : St × Option PyErr :=
  match r.2 with
  | some _ => r
  | none => match f r.1 with
    | .ok s => (s, none)
    | .error e => (r.1, some e)

/-- The steps of `iteration`: aprclass.py:559-572, neumann2.py:109-114. -/
def steps (num : Num) : List (St → Py St) :=
  [fun s => if s.zeroth then s.makeGrid else pure s, fun s => if s.zeroth then s.extend else pure s, St.prepareKern,
    St.iterate num, St.integrate, St.genKern, St.solveKern num, St.genCurrent, St.record]

/-- `iteration`. -/
def St.iteration (num : Num) (r : St × Option PyErr) : St × Option PyErr :=
  (steps num).foldl (fun r f => step f r) r

/-- `solve`: aprclass.py:574-612, with `masterq=True`; `qdq` and `rotateq` only change what the object reads from the
system. -/
def St.solve (num : Num) (restartq : Bool) (niter : Option Nat) (s : St) : St × Option PyErr :=
  let s := if restartq then s.restart else s
  match niter with
  | none => (s, some .value)
  | some n => (St.iteration num)^[n] (s, none)

end VN2

end

end Verif
