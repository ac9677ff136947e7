import Mathlib.Data.Real.Basic
import Mathlib.Logic.Relation

/-!
Execution of the loop `for i in prange(kh.nelements, nogil=True)` of `generate_kern`:
c_aprclass.pyx:196-201.

Each iteration of the loop is a sequence of updates `x[k] = x[k] + w` of one shared array, where
neither `k` nor `w` depends on the array (see `Verif.Model.Kernel`). Several threads execute
iterations at the same time, and neither of the two memory accesses of an update is protected: an
update is a load of `x[k]` into a register, and later a store of the register plus `w`. In between
any other iteration may load and store.

Simplifications: loads and stores are atomic and take effect in one order seen by all threads. All
iterations may be in progress at the same time; this allows more executions than any number of
threads and any schedule of OpenMP.
-/

namespace Verif

/-- A state of the parallel loop over an array with cells `κ`. -/
structure PState (κ : Type) where
  /-- the shared array -/
  mem : κ → ℝ
  /-- the updates that the iteration `i` has still to complete -/
  todo : Nat → List (κ × ℝ)
  /-- the value loaded by the iteration `i` for its next store -/
  reg : Nat → Option ℝ

/-- One memory access of one iteration. -/
inductive PStep {κ : Type} [DecidableEq κ] : PState κ → PState κ → Prop
  | load (s : PState κ) (i : Nat) (k : κ) (w : ℝ) (ws : List (κ × ℝ)) :
      s.todo i = (k, w) :: ws → s.reg i = none →
      PStep s ⟨s.mem, s.todo, fun j => if j = i then some (s.mem k) else s.reg j⟩
  | store (s : PState κ) (i : Nat) (k : κ) (w : ℝ) (ws : List (κ × ℝ)) (x : ℝ) :
      s.todo i = (k, w) :: ws → s.reg i = some x →
      PStep s ⟨fun k' => if k' = k then x + w else s.mem k',
        fun j => if j = i then ws else s.todo j, fun j => if j = i then none else s.reg j⟩

/-- The beginning of a loop over an array with the contents `x0`. -/
def PState.startAt {κ : Type} (x0 : κ → ℝ) (prog : Nat → List (κ × ℝ)) : PState κ :=
  ⟨x0, prog, fun _ => none⟩

/-- The beginning of the loop: the array contains zeros (`clean_arrays`). -/
def PState.start {κ : Type} (prog : Nat → List (κ × ℝ)) : PState κ := PState.startAt (fun _ => 0) prog

/-- `x` may be the contents of the array at the end of a loop that begins with `x0`. -/
def PEndFrom {κ : Type} [DecidableEq κ] (x0 : κ → ℝ) (prog : Nat → List (κ × ℝ)) (x : κ → ℝ) : Prop :=
  ∃ s, Relation.ReflTransGen PStep (PState.startAt x0 prog) s ∧ (∀ i, s.todo i = []) ∧ s.mem = x

/-- `x` may be the contents of the array at the end of the loop. -/
def PEnd {κ : Type} [DecidableEq κ] (prog : Nat → List (κ × ℝ)) (x : κ → ℝ) : Prop :=
  ∃ s, Relation.ReflTransGen PStep (PState.start prog) s ∧ (∀ i, s.todo i = []) ∧ s.mem = x

end Verif
