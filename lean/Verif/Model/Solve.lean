import Verif.Model.Approach

/-!
Model of the life cycle of an approach object: `qmeq/approach/aprclass.py`, lines 60-211 and
298-393 (`prepare_kern`, `clean_arrays`, `prepare_arrays`, `prepare_kernel_handler`,
`prepare_solver`, `solve_kern`, `solve_matrix_free`, `solve` and the property setters).

Simplifications:
* What the object reads from the quantum dot, the leads and `funcp.itype` is hidden in
  `Appr.calls` (the handler calls made by `generate_fct` and `generate_kern`) and `Appr.cur`
  (the increments made by `generate_current`). `diagonalise` and `rotate` only change these.
* The numerical libraries are arguments of each call; an exception raised by them is `none`.
  A run of `optimize.root` is given by the vectors at which it evaluated the function and by
  its outcome.
* When one of the steps of `solve` raises, the object keeps the state it had before that step.
  (The arrays such a step leaves half filled are the ones the next `prepare_kern` resets.)
* Assigning a vector of the wrong length raises (numpy would broadcast a vector of length one).
* `success` and the current arrays start as `none`; `make_kern_copy` and printing are left out.
-/

namespace Verif

noncomputable section

/-- The attributes of `funcp` the life cycle depends on. -/
structure Opts where
  symq : Bool
  mfreeq : Bool
  normRow : Int
  solmethod : Option String
  phi0Init : Option Vec

/-- What depends on the parameters of the system. -/
structure Appr where
  calls : View → Py (List KCall)
  cur : View → Vec → Py (List CEv)

/-- The kernel handler: its class, the sizes it copied from `si` when it was created
(kernel_handler.py:6-12), and its attribute `phi0`: `none` if it is the array `phi0` of the
approach, else the vector last given to `generate_vec`. -/
structure Handler where
  free : Bool
  ndm0 : Nat
  npauli : Nat
  trial : Option Vec

/-- An approach object, with the parts of the system it refers to. `size` is
`get_kern_size`, fixed by the class, and `useKh` tells whether the class reads `phi0` through
the kernel handler in `generate_current` (all but Pauli do). -/
structure AState where
  opts : Opts
  v : View
  changed : Bool
  ap : Appr
  size : View → Nat
  useKh : Bool
  isPrepared : Bool
  kern : Option Mat
  bvec : Option Vec
  normVec : Option Vec
  sol0 : Option Vec
  phi0 : Option Vec
  dphi : Option Vec
  success : Option Bool
  handler : Option Handler
  cur : Option (List CEv)

/-- `__init__` and `restart`: aprclass.py:100-133. -/
def AState.fresh (o : Opts) (v : View) (ap : Appr) (size : View → Nat) (useKh : Bool) : AState :=
  ⟨o, v, true, ap, size, useKh, false, none, none, none, none, none, none, none, none, none⟩

/-- Reading an attribute that may still be `None`. -/
def attr {α : Type} : Option α → Py α
  | some x => pure x
  | none => .error .attribute

/-! ### Preparation -/

/-- `prepare_solver`: aprclass.py:195-211. -/
def Opts.prepareSolver (o : Opts) : Opts :=
  if o.mfreeq then { o with solmethod := some (o.solmethod.getD "krylov") }
  else
    let m := o.solmethod.getD (if o.symq then "solve" else "lsqr")
    if !o.symq && m != "lsqr" && m != "lsmr" then { o with solmethod := some "lsqr" }
    else { o with solmethod := some m }

/-- `clean_arrays`: aprclass.py:152-159. -/
def AState.clean (s : AState) : Py AState := do
  let _ ← attr s.cur
  if s.opts.mfreeq then pure { s with cur := some [] }
  else do
    let k ← attr s.kern
    let b ← attr s.bvec
    pure { s with kern := some (Mat.zeros k.rows k.cols), bvec := some (Vec.zeros b.size),
                  cur := some [] }

/-- Number of rows of the kernel: aprclass.py:176. -/
def AState.rows (s : AState) : Nat := if s.opts.symq then s.size s.v else s.size s.v + 1

/-- `prepare_kernel_handler` and `prepare_arrays`: aprclass.py:161-193. -/
def AState.prepareArrays (s : AState) : Py AState :=
  let h : Handler := ⟨s.opts.mfreeq, s.v.ndm0, s.v.npauli, none⟩
  let n := s.size s.v
  let s := { s with handler := some h, cur := some [], phi0 := some (Vec.zeros n) }
  if s.opts.mfreeq then pure { s with dphi := some (Vec.zeros n) }
  else do
    let nv ← s.v.genNormVec (Vec.zeros n)
    pure { s with kern := some (Mat.zeros s.rows n), bvec := some (Vec.zeros s.rows),
                  normVec := some nv }

/-- `prepare_kern`: aprclass.py:140-150. -/
def AState.prepare (s : AState) : Py AState :=
  if s.isPrepared && !s.changed then s.clean
  else do
    let s ← s.prepareArrays
    pure { s with opts := s.opts.prepareSolver, changed := false, isPrepared := true }

/-! ### Generation -/

/-- The view of the kernel handler: it keeps the sizes it was created with but looks labels up
in the present indexing object. -/
def Handler.view (h : Handler) (v : View) : View := { v with ndm0 := h.ndm0, npauli := h.npauli }

/-- `self.generate_kern()` in `solve`, aprclass.py:388. With a matrix-free handler the calls
write to `dphi0_dt` instead of `kern`. -/
def AState.generate (s : AState) : Py AState := do
  let cs ← s.ap.calls s.v
  let h ← attr s.handler
  if h.free then do
    let p ← attr s.phi0
    let x ← attr s.dphi
    let x ← (h.view s.v).runFree (h.trial.getD p) x cs
    pure { s with dphi := some x }
  else do
    let k ← attr s.kern
    let k ← (h.view s.v).runKern k cs
    pure { s with kern := some k }

/-- `generate_vec`: aprclass.py:262-292. The matrix handler has no `get_phi0_norm`. -/
def AState.genVec (s : AState) (phi : Vec) : Py (AState × Vec) := do
  let h ← attr s.handler
  if !h.free then .error .attribute
  else do
    let d ← attr s.dphi
    let x ← (h.view s.v).genVec d.size s.opts.normRow (s.ap.calls s.v) phi
    pure ({ s with dphi := some x, handler := some { h with trial := some phi } }, x)

/-! ### Solution -/

/-- `m[i] = x` for a row of a matrix. -/
def Mat.setRow (m : Mat) (i : Int) (x : Vec) : Py Mat := do
  let r ← pyIdx m.rows i
  if x.size = m.cols then
    pure ⟨m.rows, m.cols, fun r' c => if r' = r then x.val c else m.val r' c⟩
  else .error .value

/-- `m[i]`. -/
def Mat.getRow (m : Mat) (i : Int) : Py Vec := do
  let r ← pyIdx m.rows i
  pure ⟨m.cols, fun c => m.val r c⟩

/-- The linear algebra routines. -/
structure LinLib where
  solve : Mat → Vec → Option Vec
  lstsq : Mat → Vec → Option Vec

/-- Position of the normalisation condition: `norm_row`, or the last row. -/
def AState.normPos (s : AState) : Int := if s.opts.symq then s.opts.normRow else -1

/-- The system handed to the solver: aprclass.py:308-315. -/
def AState.system (s : AState) : Py (Mat × Vec) := do
  let k ← attr s.kern
  let b ← attr s.bvec
  let nv ← attr s.normVec
  let k ← k.setRow s.normPos nv
  let b ← b.put s.normPos 1
  pure (k, b)

/-- `self.sol0` after the solver: aprclass.py:319-322; `none` if it raised. For any other
`solmethod` nothing is computed and the previous `sol0` stays. -/
def AState.runSolver (s : AState) (lib : LinLib) (k : Mat) (b : Vec) : Option (Option Vec) :=
  if s.opts.solmethod = some "solve" then (lib.solve k b).map some
  else if s.opts.solmethod = some "lsqr" then (lib.lstsq k b).map some
  else some s.sol0

/-- The `try` block: aprclass.py:318-329. -/
def AState.finish (s : AState) (phi : Vec) (r : Option (Option Vec)) : AState :=
  match r with
  | none => { s with phi0 := some (Vec.zeros phi.size), success := some false }
  | some none => { s with phi0 := some (Vec.zeros phi.size), success := some false }
  | some (some x) =>
    if x.size = phi.size then { s with sol0 := some x, phi0 := some x, success := some true }
    else { s with sol0 := some x, phi0 := some (Vec.zeros phi.size), success := some false }

/-- `solve_kern`: aprclass.py:298-333. -/
def AState.solveKern (s : AState) (lib : LinLib) : Py AState := do
  let k0 ← attr s.kern
  let p ← attr s.phi0
  let kb ← s.system
  let s1 := s.finish p (s.runSolver lib kb.1 kb.2)
  if s.opts.symq then do
    let old ← k0.getRow s.opts.normRow
    let k ← kb.1.setRow s.opts.normRow old
    pure { s1 with kern := some k, bvec := some kb.2 }
  else pure { s1 with kern := some kb.1, bvec := some kb.2 }

/-- A run of `optimize.root`: the vectors at which the function was evaluated, and the
outcome (`x` and `success`), `none` if it raised. -/
structure RootRun where
  trials : List Vec
  out : Option (Vec × Bool)

/-- `kh.set_phi0(phi0)`. -/
def AState.setTrial (s : AState) (t : Vec) : AState :=
  { s with handler := s.handler.map fun h => { h with trial := some t } }

/-- The evaluations of `generate_vec` during a run; an exception ends it. -/
def AState.runTrials (s : AState) : List Vec → AState × Bool
  | [] => (s, true)
  | t :: ts => match s.genVec t with
    | .ok (s', _) => s'.runTrials ts
    | .error _ => (s.setTrial t, false)

/-- `solve_matrix_free`: aprclass.py:335-353. -/
def AState.solveFree (s : AState) (run : RootRun) : Py AState := do
  let p ← attr s.phi0
  let r := s.runTrials run.trials
  let s := r.1
  match (if r.2 then run.out else none) with
  | none => pure { s with phi0 := some (Vec.zeros p.size), success := some false }
  | some (x, ok) =>
    if x.size = p.size then
      pure { s with sol0 := some x, phi0 := some x, success := some ok }
    else
      pure { s with sol0 := some x, phi0 := some (Vec.zeros p.size), success := some false }

/-- `generate_current`: the increments are added to the arrays reset by `prepare_kern`. -/
def AState.genCurrent (s : AState) : Py AState := do
  let p ← attr s.phi0
  let h ← attr s.handler
  let old ← attr s.cur
  let evs ← s.ap.cur (h.view s.v) (if s.useKh then h.trial.getD p else p)
  pure { s with cur := some (old ++ evs) }

/-- One step of `solve`. -/
def stepS (f : AState → Py AState) (r : AState × Option PyErr) : AState × Option PyErr :=
  match r.2 with
  | some _ => r
  | none => match f r.1 with
    | .ok s => (s, none)
    | .error e => (r.1, some e)

/-- `solve`, the part controlled by `masterq` and `currentq`: aprclass.py:384-393. -/
def AState.solve (s : AState) (lib : LinLib) (run : RootRun) (currentq : Bool) :
    AState × Option PyErr :=
  let r := stepS AState.prepare (s, none)
  let r := if s.opts.mfreeq then stepS (fun s => s.solveFree run) r
    else stepS (fun s => s.solveKern lib) (stepS AState.generate r)
  if currentq then stepS AState.genCurrent r else r

/-- The Pauli approach (`pauli.py`). -/
def Appr.pauli (E : Nat → ℝ) (L : Leads) : Appr where
  calls v := do
    let f ← Pauli.genFct v E L
    Pauli.genKern v f
  cur v phi0 := do
    let f ← Pauli.genFct v E L
    Pauli.genCurrent v E f phi0

/-- The Lindblad approach (`lindblad.py`). -/
def Appr.lindblad (E : Nat → ℝ) (L : Leads) : Appr where
  calls v := do
    let t ← Lindblad.genFct v E L
    v.genKern E (Lindblad.coup v t)
  cur v phi0 := do
    let t ← Lindblad.genFct v E L
    Lindblad.genCurrent v E t phi0

/-- The 1vN approach (`neumann1.py`). -/
def Appr.vn1 (lib : NumLib) (E : Nat → ℝ) (L : Leads) : Appr where
  calls v := do
    let f ← genFct1vN v lib E L
    v.genKern E (VN1.coup v L.Tba f)
  cur v phi0 := do
    let f ← genFct1vN v lib E L
    let evs ← VN1.genCurrent v L.Tba f phi0
    pure (evs.map (·.ev))

/-- The Redfield approach (`redfield.py`). -/
def Appr.redfield (lib : NumLib) (E : Nat → ℝ) (L : Leads) : Appr where
  calls v := do
    let f ← genFct1vN v lib E L
    v.genKern E (Redfield.coup v L.Tba f)
  cur v phi0 := do
    let f ← genFct1vN v lib E L
    let evs ← Redfield.genCurrent v L.Tba f phi0
    pure (evs.map (·.ev))

/-- The approaches modelled so far. -/
inductive Kind where
  | pauli
  | lindblad
  | vn1
  | redfield

/-- The approach for given parameters. -/
def Kind.ap (k : Kind) (lib : NumLib) (E : Nat → ℝ) (L : Leads) : Appr :=
  match k with
  | .pauli => .pauli E L
  | .lindblad => .lindblad E L
  | .vn1 => .vn1 lib E L
  | .redfield => .redfield lib E L

/-- `get_kern_size`: aprclass.py:137-138 and pauli.py:19-20. -/
def Kind.size (k : Kind) (v : View) : Nat :=
  match k with
  | .pauli => v.npauli
  | _ => v.ndm0r

/-- Whether `generate_current` reads `phi0` through the kernel handler. -/
def Kind.useKh : Kind → Bool
  | .pauli => false
  | _ => true

/-- Calls and assignments a user can make between solves. -/
inductive AOp where
  /-- `symq` setter: aprclass.py:80-85 -/
  | symq (b : Bool)
  /-- `norm_row` setter: aprclass.py:91-92 -/
  | normRow (i : Int)
  /-- `solmethod` setter: aprclass.py:65-67 -/
  | solmethod (m : Option String)
  /-- `mfreeq` setter: aprclass.py:73-74 -/
  | mfreeq (b : Bool)
  /-- assignment to `phi0_init` -/
  | phi0Init (p : Option Vec)
  /-- any change of the dot, the leads or `itype`; `diagonalise` and `rotate` -/
  | params (ap : Appr)
  /-- a call that changes the indexing object and sets `states_changed`
  (`set_statesdm`, `remove_fock_states`: indexing.py:665, 907) -/
  | states (v : View)
  /-- a call that changes the indexing object without setting `states_changed`
  (`remove_coherences`: various.py:240-282) -/
  | silent (v : View)
  /-- `solve` -/
  | solve (lib : LinLib) (run : RootRun) (currentq : Bool)

/-- One operation. -/
def AState.op (s : AState) : AOp → AState
  | .symq b => if b = s.opts.symq then s
      else { s with opts := { s.opts with symq := b }, isPrepared := false }
  | .normRow i => { s with opts := { s.opts with normRow := i } }
  | .solmethod m => { s with opts := { s.opts with solmethod := m }.prepareSolver }
  | .mfreeq b => { s with opts := { s.opts with mfreeq := b } }
  | .phi0Init p => { s with opts := { s.opts with phi0Init := p } }
  | .params ap => { s with ap := ap }
  | .states v => { s with v := v, changed := true }
  | .silent v => { s with v := v }
  | .solve lib run c => (s.solve lib run c).1

end

end Verif
