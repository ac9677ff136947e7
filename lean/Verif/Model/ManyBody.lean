import Verif.Model.DM

/-!
Model of the indexing part of `BuilderManyBody` (`qmeq/builder/builder_base.py`, lines 301-359).

Simplification: `Na` is a list of integers (the conversion by `np.array(Na, dtype=int)` is not
modelled); `Ea` enters by its length only.
-/

namespace Verif

/-- `Na.min()`, a `ValueError` for an empty array. -/
def intMin : List Int → Py Int
  | [] => .error .value
  | x :: l => .ok (l.foldl min x)

/-- `Na.max()`, a `ValueError` for an empty array. -/
def intMax : List Int → Py Int
  | [] => .error .value
  | x :: l => .ok (l.foldl max x)

/-- `statesdm[Na[i]].append(i)` for all states: builder_base.py:348-350. -/
def manyBodySectors (Na : List Int) (ncharge nmany : Nat) : Py (List (List Nat)) :=
  (List.range nmany).foldlM (fun (st : List (List Nat)) (i : Nat) => do
    let q ← pyGet Na (i : Nat)
    pyModify st q (· ++ [i])) (List.replicate ncharge [])

/-- The object after builder_base.py:352-358, before the call of `set_statesdm`. -/
def DM.manyBodyBlank (d : DM) (ncharge nmany : Nat) : DM :=
  { d with
    si := { d.si with nmany := nmany, ncharge := ncharge }
    shiftlst0 := List.replicate (ncharge + 1) 0
    shiftlst1 := List.replicate ncharge 0
    lenlst := List.replicate ncharge 0
    dictdm := List.replicate nmany 0 }

/-- `BuilderManyBody.__init__` as far as the indexing object is concerned: builder_base.py:328-340
(an object for `nsingle=0` and 'charge' indexing) and `_init_state_indexing`, 342-359. `nmany` is
`len(Ea)`. -/
def DM.initManyBody (kind : DMKind) (Na : List Int) (nmany : Nat) : Py DM := do
  let d ← DM.init kind 0 "charge"
  let nmin ← intMin Na
  let nmax ← intMax Na
  let ncharge := (nmax - nmin + 1).toNat
  let statesdm ← manyBodySectors Na ncharge nmany
  (d.manyBodyBlank ncharge nmany).setStatesdm statesdm

end Verif
