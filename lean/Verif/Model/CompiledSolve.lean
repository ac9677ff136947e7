import Verif.Model.Solve
import Verif.Model.Compiled

/-!
Model of the life cycle of a compiled approach object: `qmeq/approach/c_aprclass.pyx`, lines
39-171 and 211-269, with the solver objects of
`qmeq/wrappers/c_lapack.pyx`. The Python attributes of the object are those of `AState`; next
to them stand the C attributes.

Simplifications:
* Assignments to `mfreeq` are left out (for a Python object they leave a state that does not
  work, see C34), and with them `_mfreeq`, which is then the option.
* `generate_kern`, `generate_norm_vec` and `generate_current` are those of the Python object;
  that the compiled ones make the same calls is C96.
* An access outside an array raises `index` (nothing checks it: `boundscheck=False`), and so
  does the use of a solver whose pointers belong to arrays that have been replaced.
* An exception leaves the object in the state before the step, as in `Model/Solve.lean`, and
  propagates out of `cdef void` methods.
* `np.linalg.solve` and `np.linalg.lstsq` run the LAPACK routines the compiled solvers run
  (`Lapack.lib`).
-/

namespace Verif

noncomputable section

namespace CSolve

/-- What a LAPACK routine leaves: the values in the matrix, in the right-hand side, and `info`. -/
structure LOut where
  a : Nat → Nat → ℝ
  b : Nat → ℝ
  info : Int

/-- The routines `dgesv` and `dgelsd` (with `rcond = -1`) on a matrix and a right-hand side. -/
structure Lapack where
  gesv : Mat → Vec → LOut
  gelsd : Mat → Vec → LOut

/-- An answer of numpy, which raises `LinAlgError` unless `info = 0` and returns the first
`n` values of the right-hand side. -/
def LOut.answer (o : LOut) (n : Nat) : Option Vec := if o.info = 0 then some ⟨n, o.b⟩ else none

/-- `np.linalg.solve` and `np.linalg.lstsq(…, rcond=-1)[0]`, as aprclass.py:319-322 call them. -/
def Lapack.lib (l : Lapack) : LinLib where
  solve K b := (l.gesv K b).answer K.cols
  lstsq K b := (l.gelsd K b).answer K.cols

/-- A solver object: `LapackSolverDGELSD` or `LapackSolverDGESV` (c_lapack.pyx:60-179), whether
it copies the matrix, and which arrays its pointers were taken from. -/
structure Solver where
  lsq : Bool
  copyq : Bool
  gen : Nat

/-- A compiled approach object. `gen` counts the times its arrays were allocated. -/
structure CState where
  a : AState
  symq : Bool
  row : Int
  copyq : Bool
  solver : Option Solver
  gen : Nat

/-- `__init__` and `restart`: c_aprclass.pyx:93-97. `make_kern_copy` is `False`
(aprclass.py:122); the C attributes are zero. -/
def CState.fresh (o : Opts) (v : View) (ap : Appr) (size : View → Nat) (useKh : Bool) : CState :=
  ⟨AState.fresh o v ap size useKh, false, 0, false, none, 0⟩

/-- The end of `prepare_solver`: c_aprclass.pyx:161-169. The constructors read `a.shape` and
`b.shape`. -/
def CState.newSolver (s : CState) : Py CState :=
  if s.a.opts.mfreeq then pure s
  else do
    let _ ← attr s.a.kern
    let _ ← attr s.a.bvec
    pure { s with solver := some ⟨s.a.opts.solmethod == some "lsqr", s.copyq, s.gen⟩ }

/-- `clean_arrays`: c_aprclass.pyx:120-129. Unlike the Python method it resets `phi0`. -/
def CState.clean (s : CState) : Py CState := do
  let a ← s.a.clean
  let p ← attr a.phi0
  pure { s with a := { a with phi0 := some (Vec.zeros p.size) } }

/-- `prepare_kern`: c_aprclass.pyx:104-118. -/
def CState.prepare (s : CState) : Py CState :=
  if s.a.isPrepared && !s.a.changed then s.clean
  else do
    let a ← s.a.prepareArrays
    let s := { s with a := { a with opts := a.opts.prepareSolver }, gen := s.gen + 1 }
    let s ← s.newSolver
    pure { s with row := s.a.opts.normRow, symq := s.a.opts.symq
                  a := { s.a with changed := false, isPrepared := true } }

/-- `self._solver.solve()`: c_lapack.pyx:83-93 and 163-179. `dgesv` takes the number of rows
for the order of the matrix; with a copy the matrix itself stays. -/
def Solver.run (sv : Solver) (l : Lapack) (gen : Nat) (K : Mat) (b : Vec) :
    Py (Mat × Vec × Int) :=
  if sv.gen ≠ gen then .error .index
  else if sv.lsq then
    let o := l.gelsd K b
    pure (if sv.copyq then K else ⟨K.rows, K.cols, o.a⟩, ⟨b.size, o.b⟩, o.info)
  else if K.rows ≠ K.cols then .error .index
  else
    let o := l.gesv K b
    pure (if sv.copyq then K else ⟨K.rows, K.cols, o.a⟩, ⟨b.size, o.b⟩, o.info)

/-- The equations handed to the solver: c_aprclass.pyx:239-241. -/
def sysC (k : Mat) (b nv : Vec) (pos : Int) : Py (Mat × Vec) := do
  let r ← cIdx k.rows pos
  if nv.size = k.cols then do
    let j ← cIdx b.size pos
    pure (⟨k.rows, k.cols, fun r' c => if r' = r then nv.val c else k.val r' c⟩,
      ⟨b.size, fun j' => if j' = j then 1 else b.val j'⟩)
  else .error .value

/-- `solve_kern`: c_aprclass.pyx:232-257. -/
def CState.solveKern (s : CState) (l : Lapack) : Py CState := do
  let k ← attr s.a.kern
  let b ← attr s.a.bvec
  let nv ← attr s.a.normVec
  let kb ← sysC k b nv (if s.symq then s.row else k.rows - 1)
  let sv ← attr s.solver
  let w ← sv.run l s.gen kb.1 kb.2
  let p ← attr s.a.phi0
  if w.2.1.size < p.size then .error .index
  else
    let ok := decide (w.2.2 = 0)
    pure { s with a := { s.a with
      kern := some w.1
      bvec := some w.2.1
      phi0 := some (if ok then ⟨p.size, w.2.1.val⟩ else Vec.zeros p.size)
      success := some ok } }

/-- `generate_vec`: c_aprclass.pyx:211-225. The row is the cached one, and it is not checked. -/
def CState.genVec (s : CState) (phi : Vec) : Py CState := do
  let h ← attr s.a.handler
  if !h.free then .error .type
  else do
    let d ← attr s.a.dphi
    let _ ← cIdx d.size s.row
    let x ← (h.view s.a.v).genVec d.size s.row (s.a.ap.calls s.a.v) phi
    pure { s with a := { s.a with dphi := some x, handler := some { h with trial := some phi } } }

/-- The evaluations of `generate_vec` during a run of `optimize.root`; an exception ends it. -/
def CState.runTrials (s : CState) : List Vec → CState × Bool
  | [] => (s, true)
  | t :: ts => match s.genVec t with
    | .ok s' => s'.runTrials ts
    | .error _ => ({ s with a := s.a.setTrial t }, false)

/-- `solve_matrix_free`: c_aprclass.pyx:259-260, which runs aprclass.py:335-353. -/
def CState.solveFree (s : CState) (run : RootRun) : Py CState := do
  let p ← attr s.a.phi0
  let r := s.runTrials run.trials
  let s := r.1
  match (if r.2 then run.out else none) with
  | none => pure { s with a := { s.a with
      phi0 := some (Vec.zeros p.size), success := some false } }
  | some (x, ok) =>
    if x.size = p.size then
      pure { s with a := { s.a with sol0 := some x, phi0 := some x, success := some ok } }
    else
      pure { s with a := { s.a with
        sol0 := some x, phi0 := some (Vec.zeros p.size), success := some false } }

/-- A method that acts on the Python attributes only. -/
def CState.lift (f : AState → Py AState) (s : CState) : Py CState := do
  let a ← f s.a
  pure { s with a := a }

/-- One step of `solve`. -/
def stepC (f : CState → Py CState) (r : CState × Option PyErr) : CState × Option PyErr :=
  match r.2 with
  | some _ => r
  | none => match f r.1 with
    | .ok s => (s, none)
    | .error e => (r.1, some e)

/-- `solve`: c_aprclass.pyx:268-269, which runs aprclass.py:384-393. -/
def CState.solve (s : CState) (l : Lapack) (run : RootRun) (currentq : Bool) :
    CState × Option PyErr :=
  let r := stepC CState.prepare (s, none)
  let r := if s.a.opts.mfreeq then stepC (fun s => s.solveFree run) r
    else stepC (fun s => s.solveKern l) (stepC (CState.lift AState.generate) r)
  if currentq then stepC (CState.lift AState.genCurrent) r else r

/-- The `solmethod` setter: c_aprclass.pyx:42-44 and 159-169, aprclass.py:65-67. The option is
set when the solver is made. -/
def CState.setSolmethod (s : CState) (m : Option String) : CState × Option PyErr :=
  stepC CState.newSolver
    ({ s with a := { s.a with opts := { s.a.opts with solmethod := m }.prepareSolver } }, none)

/-- Calls and assignments a user can make between solves. -/
inductive COp where
  /-- `symq` setter: c_aprclass.pyx:57-60, aprclass.py:80-85 -/
  | symq (b : Bool)
  /-- `norm_row` setter: c_aprclass.pyx:65-68 -/
  | normRow (i : Int)
  /-- `solmethod` setter: c_aprclass.pyx:42-44 -/
  | solmethod (m : Option String)
  /-- `make_kern_copy` setter: c_aprclass.pyx:87-89 -/
  | kernCopy (b : Bool)
  /-- any change of the dot, the leads or `itype`; `diagonalise` and `rotate` (they write into
  the arrays the object refers to: qdot.py:939, leadstun.py:461-465, 489-493, 525) -/
  | params (ap : Appr)
  /-- a call that changes the indexing object and sets `states_changed` -/
  | states (v : View)
  /-- `solve` -/
  | solve (l : Lapack) (run : RootRun) (currentq : Bool)

/-- One operation. -/
def CState.op (s : CState) : COp → CState
  | .symq b => { s with a := s.a.op (.symq b), symq := b }
  | .normRow i => { s with a := s.a.op (.normRow i), row := i }
  | .solmethod m => (s.setSolmethod m).1
  | .kernCopy b => { s with copyq := b }
  | .params ap => { s with a := s.a.op (.params ap) }
  | .states v => { s with a := s.a.op (.states v) }
  | .solve l run c => (s.solve l run c).1

/-- The state of a compiled object after any history, starting from any options, indexing object
and parameters. -/
def CReached (size : View → Nat) (useKh : Bool) (s : CState) : Prop :=
  ∃ (o : Opts) (v : View) (ap : Appr) (ops : List COp),
    s = ops.foldl CState.op (CState.fresh o v ap size useKh)

end CSolve

end

end Verif
