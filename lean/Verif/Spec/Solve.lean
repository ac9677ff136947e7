import Verif.Model.Solve

/-!
What one call of `solve` should do in matrix mode, written without any object state: build the
normalisation vector and the kernel for the present parameters, replace one equation, ask the
solver, and compute the currents of its answer.
-/

namespace Verif

/-- An operation that sets the flags of the object when it has to. -/
def AOp.plain : AOp → Bool
  | .mfreeq _ => false
  | .silent _ => false
  | _ => true

/-- The state of an approach object after any history of such operations, starting from any
options, indexing object and parameters. -/
def Reached (size : View → Nat) (useKh : Bool) (s : AState) : Prop :=
  ∃ (o : Opts) (v : View) (ap : Appr) (ops : List AOp), (∀ x ∈ ops, AOp.plain x = true) ∧
    s = ops.foldl AState.op (AState.fresh o v ap size useKh)

namespace Ref

noncomputable section

/-- Number of equations for `n` unknowns. -/
def rows (o : Opts) (n : Nat) : Nat := if o.symq then n else n + 1

/-- Position of the normalisation condition. -/
def pos (o : Opts) : Int := if o.symq then o.normRow else -1

/-- The equations `k`, with right-hand side `b`, with the normalisation condition put at
position `i`. -/
def sys (k : Mat) (b nv : Vec) (i : Int) : Py (Mat × Vec) := do
  let k ← k.setRow i nv
  let b ← b.put i 1
  pure (k, b)

/-- The answer of the solver selected by `solmethod`. -/
def answer (o : Opts) (lib : LinLib) (K : Mat) (b : Vec) : Option Vec :=
  if o.solmethod = some "solve" then lib.solve K b else lib.lstsq K b

/-- The values of `phi0` and `success` for an answer. -/
def result (n : Nat) : Option Vec → Vec × Bool
  | none => (Vec.zeros n, false)
  | some x => if x.size = n then (x, true) else (Vec.zeros n, false)

/-- The currents. -/
def currents (ap : Appr) (v : View) (phi : Vec) (currentq : Bool) : Py (List CEv) :=
  if currentq then ap.cur v phi else pure []

/-- What is visible after `solve`. -/
structure Out where
  kern : Mat
  bvec : Vec
  phi0 : Vec
  success : Bool
  cur : List CEv

/-- One call of `solve`. -/
def solve (o : Opts) (v : View) (ap : Appr) (n : Nat) (lib : LinLib) (currentq : Bool) :
    Py Out := do
  let nv ← v.genNormVec (Vec.zeros n)
  let k ← (do
    let cs ← ap.calls v
    v.runKern (Mat.zeros (rows o n) n) cs)
  let kb ← sys k (Vec.zeros (rows o n)) nv (pos o)
  let evs ← currents ap v (result n (answer o lib kb.1 kb.2)).1 currentq
  pure ⟨if o.symq then k else kb.1, kb.2, (result n (answer o lib kb.1 kb.2)).1,
    (result n (answer o lib kb.1 kb.2)).2, evs⟩

/-! ### Matrix-free mode -/

/-- The last vector at which the function was evaluated, and whether no evaluation raised. -/
def lastTrial (f : Vec → Py Vec) (t : Vec) : List Vec → Vec × Bool
  | [] => (t, (f t).isOk)
  | t' :: ts => match f t with
    | .ok _ => lastTrial f t' ts
    | .error _ => (t, false)

/-- The values of `phi0` and `success` for an outcome of `optimize.root`. -/
def resultFree (n : Nat) : Option (Vec × Bool) → Vec × Bool
  | none => (Vec.zeros n, false)
  | some (x, ok) => if x.size = n then (x, ok) else (Vec.zeros n, false)

/-- What is visible after `solve` without a matrix. -/
structure OutFree where
  phi0 : Vec
  success : Bool
  cur : List CEv

/-- One call of `solve` in matrix-free mode when the function is evaluated at `t :: ts`. The
currents are those of the last of these vectors if the class reads `phi0` through the handler. -/
def solveFree (normRow : Int) (v : View) (ap : Appr) (n : Nat) (useKh : Bool) (t : Vec)
    (ts : List Vec) (out : Option (Vec × Bool)) (currentq : Bool) : Py OutFree := do
  let l := lastTrial (v.genVec n normRow (ap.calls v)) t ts
  let r := resultFree n (if l.2 then out else none)
  let evs ← currents ap v (if useKh then l.1 else r.1) currentq
  pure ⟨r.1, r.2, evs⟩

end

end Ref

end Verif
