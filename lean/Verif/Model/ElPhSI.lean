import Verif.Model.Kernel

/-!
Model of the two indexing objects of `BuilderElPh` (qmeq/builder/builder_elph.py): `si`, of class
`StateIndexingDM`, and `si_elph`, of class `StateIndexingDMc`.

Only the approaches with `si` of class `StateIndexingDM` are modelled (Pauli, Lindblad, Redfield,
1vN), and no change of the approach (`kerntype`) after construction.
-/

namespace Verif

/-- The indexing strings (`si.indexing`). -/
def Indexing.name : Indexing → String
  | .Lin => "Lin"
  | .charge => "charge"
  | .sz => "sz"
  | .ssq => "ssq"

/-- The attributes `si` and `si_elph` of the builder. -/
structure ElPhSI where
  si : DM
  el : DM

/-- Construction: aprclass.py:59 and builder_elph.py:117-122. -/
def ElPhSI.init (nsingle : Nat) (indexing : String) : Py ElPhSI := do
  let si ← DM.init .dm nsingle indexing
  let el ← DM.init .dmc nsingle si.si.indexing.name
  pure { si, el }

/-- Calls on the builder that change the considered states. -/
inductive ElPhCall where
  | states (statesdm : List (List Nat))   -- remove_states, which computes `statesdm`
  | fock (inds : List Int)                -- remove_fock_states
  | all                                   -- use_all_states
  deriving DecidableEq, Repr

/-- One call. `remove_states` (builder_elph.py:138-140, various.py:306): the list `si.statesdm`
is handed to `si_elph.set_statesdm`, which appends `[]` to it, so the attribute of `si` changes
as well. `remove_fock_states`: builder_elph.py:142-145. `use_all_states` is inherited from
`BuilderBase` (builder_base.py:294-298, various.py:321) and only changes `si`. -/
def ElPhSI.call (s : ElPhSI) : ElPhCall → Py ElPhSI
  | .states S => do
    let si ← s.si.setStatesdm S
    let el ← s.el.setStatesdm si.statesdm
    pure { si := { si with statesdm := si.statesdm ++ [[]] }, el }
  | .fock inds => do
    let si ← s.si.removeFockStates inds
    let el ← s.el.removeFockStates inds
    pure { si, el }
  | .all => do
    let si ← s.si.setStatesAll
    pure { s with si }

/-- Construction and a sequence of calls; the history ends at the first exception. -/
def ElPhSI.run (nsingle : Nat) (indexing : String) (calls : List ElPhCall) : Py ElPhSI := do
  let s ← ElPhSI.init nsingle indexing
  calls.foldlM ElPhSI.call s

end Verif
