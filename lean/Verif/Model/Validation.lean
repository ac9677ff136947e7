import Verif.Model.Py
import Mathlib.Data.Rat.Defs

/-!
Validation of the options of a system and the choice of the approach class:
`/repo/qmeq/builder/validation.py` and the parts of `/repo/qmeq/builder/builder_base.py`,
`builder_elph.py` that use it.

Printed warnings are not modelled. Values that a caller can pass are `PyVal`; numbers are rationals.
-/

namespace Verif

/-- Values a caller can pass for an option. `unhash` stands for lists, dictionaries and arrays (compared equal to nothing
here), `cls a k` for a class, `a` telling whether it is a subclass of `Approach`, `k` being its attribute `kerntype`. -/
inductive PyVal where
  | none
  | bool (b : Bool)
  | num (q : Rat)
  | str (s : String)
  | unhash
  | cls (appr : Bool) (kt : String)
  deriving DecidableEq

namespace PyVal

/-- The number a value is equal to: `True == 1`, `False == 0`. -/
def asNum : PyVal → Option Rat
  | .bool b => some (if b then 1 else 0)
  | .num q => some q
  | _ => Option.none

/-- `x == y`. -/
def eq (x y : PyVal) : Bool :=
  match x.asNum, y.asNum with
  | some p, some q => p == q
  | _, _ => x == y && x != .unhash

/-- `x in (a, b, ...)` for a tuple. -/
def inTuple (x : PyVal) (s : List PyVal) : Bool := s.any fun y => x.eq y

/-- `x in {a, b, ...}` for a set: the value has to be hashable. -/
def inSet (x : PyVal) (s : List PyVal) : Py Bool :=
  if x = .unhash then .error .type else .ok (x.inTuple s)

/-- `isinstance(x, str)`. -/
def isStr : PyVal → Bool
  | .str _ => true
  | _ => false

end PyVal

/-- The names in validation.py:6-7. -/
def kernNames : List String :=
  ["Pauli", "Lindblad", "Redfield", "1vN", "2vN", "pyPauli", "pyLindblad", "pyRedfield", "py1vN", "py2vN", "pyRTD",
    "RTD"]

/-- `validate_kerntype`: validation.py:4-13. -/
def validateKerntype (k : PyVal) : PyVal :=
  match k with
  | .str s => if s ∈ kernNames then k else .str "Pauli"
  | _ => k

/-- `validate_itype`: validation.py:16-25. -/
def validateItype (itype kerntype : PyVal) : Py PyVal :=
  if !kerntype.inTuple [.str "RTD", .str "pyRTD"] then do
    let b ← itype.inSet [.num 0, .num 1, .num 2, .num 3]
    pure (if !b then .num 0 else itype)
  else pure (if !itype.eq (.num 1) then .num 1 else itype)

/-- `validate_itype_ph`: validation.py:28-32. -/
def validateItypePh (itype : PyVal) : Py PyVal := do
  let b ← itype.inSet [.num 0, .num 2]
  pure (if !b then .num 0 else itype)

/-- Truth value of an object (`unhash` is taken as true). -/
def PyVal.truthy : PyVal → Bool
  | .none => false
  | .bool b => b
  | .num q => q != 0
  | .str s => s != ""
  | _ => true

/-- `validate_mfreeq`: validation.py:34-38. Nothing calls it. -/
def validateMfreeq (kerntype mfreeq : PyVal) : Py PyVal :=
  if mfreeq.truthy then do
    let b ← kerntype.inSet [.str "RTD", .str "pyRTD"]
    pure (if b then .bool false else mfreeq)
  else pure mfreeq

/-- The first branch of `validate_indexing`: validation.py:41-50. -/
def defaultIndexing (symmetry kerntype : PyVal) : Py (PyVal × PyVal) :=
  if symmetry.eq (.str "spin") then do
    let rtd ← kerntype.inSet [.str "pyRTD", .str "RTD"]
    if rtd then pure (.str "charge", .none)
    else do
      let vn ← kerntype.inSet [.str "py2vN", .str "2vN"]
      pure (if !vn then .str "ssq" else .str "charge", symmetry)
  else pure (.str "charge", symmetry)

/-- `indexing`, `symmetry` after the first `if` of `validate_indexing`: validation.py:41-50. -/
def withDefault (indexing symmetry kerntype : PyVal) : Py (PyVal × PyVal) :=
  if indexing = .none then defaultIndexing symmetry kerntype else pure (indexing, symmetry)

/-- The `if` for 2vN: validation.py:56-60. -/
def restrictVN (ix kerntype : PyVal) : Py PyVal := do
  let lc ← ix.inSet [.str "Lin", .str "charge"]
  if !lc then do
    let vn ← kerntype.inSet [.str "py2vN", .str "2vN"]
    pure (if vn then .str "charge" else ix)
  else pure ix

/-- The `if` for RTD: validation.py:62-65. -/
def restrictRTD (ix kerntype : PyVal) : Py PyVal :=
  if !ix.eq (.str "charge") then do
    let rtd ← kerntype.inSet [.str "pyRTD", .str "RTD"]
    pure (if rtd then .str "charge" else ix)
  else pure ix

/-- `validate_indexing`: validation.py:40-67. -/
def validateIndexing (indexing symmetry kerntype : PyVal) : Py (PyVal × PyVal) := do
  let p ← withDefault indexing symmetry kerntype
  let ok ← p.1.inSet [.str "Lin", .str "charge", .str "sz", .str "ssq"]
  let ix ← restrictVN (if !ok then .str "charge" else p.1) kerntype
  let ix ← restrictRTD ix kerntype
  pure (ix, p.2)

/-- The validated options. -/
structure Cfg where
  kerntype : PyVal
  itype : PyVal
  indexing : PyVal
  symmetry : PyVal
  deriving DecidableEq

/-- `_init_validate_data`: builder_base.py:109-115. The check of `itype` sees `kerntype` before it is checked. -/
def Cfg.validate (c : Cfg) : Py Cfg := do
  let itype ← validateItype c.itype c.kerntype
  let kerntype := validateKerntype c.kerntype
  let p ← validateIndexing c.indexing c.symmetry kerntype
  pure ⟨kerntype, itype, p.1, p.2⟩

/-- Names of the classes in the module `builder_base.py` that start with `Approach`. -/
def baseGlobals : List String :=
  ["Approach", "ApproachPyPauli", "ApproachPyLindblad", "ApproachPyRedfield", "ApproachPy1vN", "ApproachPy2vN",
    "ApproachPyRTD", "ApproachPauli", "ApproachLindblad", "ApproachRedfield", "Approach1vN", "Approach2vN",
    "ApproachRTD"]

/-- The same for `builder_elph.py`. -/
def elphGlobals : List String :=
  ["ApproachPyPauli", "ApproachPyLindblad", "ApproachPy1vN", "ApproachPyRedfield", "ApproachPy2vN",
    "ApproachPauli", "ApproachLindblad", "ApproachRedfield", "Approach1vN", "Approach2vN"]

/-- `'Approach' + kerntype[0].capitalize() + kerntype[1:]` looked up in the module:
builder_base.py:123-124, 181-182. (`capitalize` for characters with one upper-case counterpart.) -/
def classOf (globals : List String) (kerntype : String) : Py String :=
  match kerntype.toList with
  | [] => .error .index
  | a :: l =>
    let name := "Approach" ++ String.ofList (a.toUpper :: l)
    if name ∈ globals then .ok name else .error .key

/-- `_init_set_approach_class`: builder_base.py:120-127. With a class the assignment `self.kerntype = ...` runs the
property setter (builder_base.py:178-180), which reads `self.appr` before it exists. A class that is no
subclass of `Approach` leaves `self.Approach` unset, which `_init_create_setup` reads; for other
objects `issubclass` raises `TypeError`. -/
def setApproachClass (globals : List String) (kerntype : PyVal) : Py String :=
  match kerntype with
  | .str s => classOf globals s
  | .cls _ _ => .error .attribute
  | _ => .error .type

/-- The part of the constructor of a builder that treats these options: builder_base.py:94-127. -/
def Cfg.build (globals : List String) (c : Cfg) : Py (Cfg × String) := do
  let c ← c.validate
  let k ← setApproachClass globals c.kerntype
  pure (c, k)

/-- What is left of the options after construction: the approach, and the values kept by `si` and `funcp`. -/
structure Built where
  cls : String
  kerntype : String
  itype : PyVal
  indexing : PyVal
  mfreeq : PyVal
  deriving DecidableEq

/-- `set_kerntype` with a string: builder_base.py:178-184. `itype`, `indexing`, `mfreeq` stay. The approaches are
taken to have the requested name as `kerntype` (the compiled classes do). -/
def Built.setKerntype (globals : List String) (b : Built) (value : String) : Py Built :=
  if b.kerntype ≠ value then do
    let k ← classOf globals value
    pure { b with cls := k, kerntype := value }
  else pure b

end Verif
