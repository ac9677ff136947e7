/-
Python semantics used by the model: exceptions as values, list indexing with
negative wrap-around, `range` with a positive step, and dictionaries.
-/

namespace Verif

/-- The Python exceptions the modelled code can raise. -/
inductive PyErr where
  | index      -- IndexError
  | value      -- ValueError
  | key        -- KeyError
  | type       -- TypeError
  | attribute  -- AttributeError
  deriving DecidableEq, Repr

/-- A Python computation: a value or an exception. -/
abbrev Py (α : Type u) := Except PyErr α

/-- Position addressed by the Python index `i` in a sequence of length `len`:
negative indices count from the end, anything else out of range is an
`IndexError`. -/
def pyIdx (len : Nat) (i : Int) : Py Nat :=
  if 0 ≤ i then
    if i < len then .ok i.toNat else .error .index
  else if 0 ≤ i + len then .ok (i + len).toNat
  else .error .index

/-- `l[i]`. -/
def pyGet {α : Type u} (l : List α) (i : Int) : Py α :=
  match pyIdx l.length i with
  | .ok k => match l[k]? with
    | some a => .ok a
    | none => .error .index
  | .error e => .error e

/-- `l[i] = v`, returning the new list. -/
def pySet {α : Type u} (l : List α) (i : Int) (v : α) : Py (List α) :=
  match pyIdx l.length i with
  | .ok k => .ok (l.set k v)
  | .error e => .error e

/-- `l[i] = f l[i]` (also used for in-place mutation of an element, such as
`l[i].append(x)`). -/
def pyModify {α : Type u} (l : List α) (i : Int) (f : α → α) : Py (List α) :=
  match pyIdx l.length i with
  | .ok k => .ok (l.modify k f)
  | .error e => .error e

/-- `list(range(start, stop, step))` for `step > 0`. -/
def pyRange (start stop step : Int) : List Int :=
  (List.range ((stop - start + step - 1) / step).toNat).map fun (k : Nat) => start + step * k

/-- A Python dictionary as an association list in insertion order. -/
abbrev Dict (α : Type u) (β : Type v) := List (α × β)

namespace Dict

/-- `d.get(k)`. -/
def get? {α : Type u} {β : Type v} [DecidableEq α] : Dict α β → α → Option β
  | [], _ => none
  | (k', v) :: d, k => if k' = k then some v else get? d k

/-- `d[k] = v` (also `d.update({k: v})`): an existing key keeps its place. -/
def set {α : Type u} {β : Type v} [DecidableEq α] : Dict α β → α → β → Dict α β
  | [], k, v => [(k, v)]
  | (k', v') :: d, k, v => if k' = k then (k', v) :: d else (k', v') :: set d k v

/-- `d[k]`, a `KeyError` when absent. -/
def get {α : Type u} {β : Type v} [DecidableEq α] (d : Dict α β) (k : α) : Py β :=
  match get? d k with
  | some v => .ok v
  | none => .error .key

end Dict

end Verif
