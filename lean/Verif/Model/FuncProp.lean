import Verif.Model.Py

/-!
The messages of `qmeq/builder/funcprop.py` and where the solution methods of
`qmeq/approach/aprclass.py` print them.

Simplifications: a message is its kind and the part of its text that varies; of a call of a
numerical library only its outcome is kept. A `solve` that raises before it gets to the `try`
statement prints nothing and is left out.
-/

namespace Verif

namespace Funcp

/-- What is printed: the message of `print_error` with the text of the exception, or the argument
of `print_warning`. -/
inductive Msg where
  | failed (exc : String)
  | warn (text : String)
  deriving DecidableEq, Repr

/-- `suppress_err` and `suppress_wrn`: funcprop.py:90-91. -/
structure FP where
  err : Bool
  wrn : List Bool

/-- `FunctionProperties.__init__`: funcprop.py:90-91. -/
def FP.init : FP := ⟨false, [false]⟩

/-- `print_error`: funcprop.py:95-107. -/
def FP.printError (f : FP) (exc : String) : FP × List Msg :=
  if !f.err then ({ f with err := true }, [.failed exc]) else (f, [])

/-- `print_warning`: funcprop.py:109-112. -/
def FP.printWarning (f : FP) (i : Int) (text : String) : Py (FP × List Msg) := do
  let b ← pyGet f.wrn i
  if !b then do
    let w ← pySet f.wrn i true
    pure ({ f with wrn := w }, [.warn text])
  else pure (f, [])

/-- The solution part of one `solve`, by what the library does. In matrix mode `exc` is the
exception raised by numpy, if any. In matrix-free mode `init` tells whether `phi0_init` is given,
`exc` is the exception raised by `optimize.root` or by the assignment to `phi0`, and `ok` the
`success` of the result. -/
inductive Run where
  | matrix (exc : Option String)
  | free (init : Bool) (exc : Option String) (ok : Bool)

/-- The `try` statement of both methods: aprclass.py:318-329 and 346-353. The second component is
what is printed, the third is `success`. -/
def FP.attempt (f : FP) (exc : Option String) (ok : Bool) : FP × List Msg × Bool :=
  match exc with
  | none => (f, [], ok)
  | some e => ((f.printError e).1, (f.printError e).2, false)

/-- The text of aprclass.py:341-343. -/
def noInit : String :=
  "WARNING: For mfreeq=True no phi0_init is specified. Using phi0_init[0]=1.0 as a default. " ++
  "This warning will not be shown again."

/-- `solve_kern` and `solve_matrix_free`: aprclass.py:298-353. -/
def FP.solve (f : FP) : Run → Py (FP × List Msg × Bool)
  | .matrix exc => pure (f.attempt exc true)
  | .free init exc ok => do
    let p ← if init then pure (f, []) else f.printWarning 0 noInit
    let q := p.1.attempt exc ok
    pure (q.1, p.2 ++ q.2.1, q.2.2)

/-- What a user can do. -/
inductive Op where
  | solve (r : Run)
  /-- `funcp.suppress_err = b` -/
  | suppress (b : Bool)

/-- One operation: the new state and what it prints. -/
def FP.op (f : FP) : Op → Py (FP × List Msg)
  | .solve r => do
    let q ← f.solve r
    pure (q.1, q.2.1)
  | .suppress b => pure ({ f with err := b }, [])

/-- A session: the state at its end and everything printed. -/
def FP.session (f : FP) : List Op → Py (FP × List Msg)
  | [] => pure (f, [])
  | o :: os => do
    let p ← f.op o
    let q ← p.1.session os
    pure (q.1, p.2 ++ q.2)

end Funcp

end Verif
