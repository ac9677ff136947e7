import Mathlib.Algebra.Order.Floor.Defs
import Mathlib.Algebra.Order.Field.Basic
import Mathlib.Order.WithBot
import Mathlib.Data.List.Sort
import Verif.Model.Kernel

/-!
Model of `qmeq/builder/various.py`, lines 11-321: sorting of eigenstates, access to elements of
the density matrix, removal of coherences and states.

Simplifications: `qd.Ea` is a list (or a function of the state where only its values matter);
`np.lexsort` is a stable insertion sort of the column numbers; floating point numbers are elements
of an ordered field (`ℝ` in the theorems).
-/

namespace Verif

section sort
variable {α : Type} [LinearOrder α]

/-- The entry `i` of a key. All columns exist; `⊥` only makes the comparison total. -/
def keyAt (k : List α) (i : Nat) : WithBot α :=
  match k[i]? with
  | some x => x
  | none => ⊥

/-- Comparison of the columns `i` and `j` by the keys, the first key being the most important
one. -/
def keyLe : List (List α) → Nat → Nat → Bool
  | [], _, _ => true
  | k :: ks, i, j =>
    if keyAt k i < keyAt k j then true
    else if keyAt k j < keyAt k i then false
    else keyLe ks i j

/-- `np.lexsort(keys)`: the last key is the most important one. -/
def lexsort (keys : List (List α)) : Py (List Nat) :=
  match keys.reverse with
  | [] => .error .type
  | k :: ks =>
    if ks.all fun r => r.length = k.length then
      .ok ((List.range k.length).insertionSort fun i j => keyLe (k :: ks) i j = true)
    else .error .value

/-- `multiarray_sort(arr, srt)`: various.py:30-48. `arr` is the list of the rows. -/
def multiarraySort (arr : List (List α)) (srt : List Int) : Py (List (List α)) := do
  let keys ← srt.reverse.mapM fun i => pyGet arr i
  let ind ← lexsort keys
  arr.mapM fun r => ind.mapM fun j => pyGet r (j : Nat)

end sort

section Ea
variable {α : Type} [Field α] [LinearOrder α] [FloorRing α]

/-- `arr[i][j] = v`. -/
def put2 (arr : List (List α)) (i j : Int) (v : α) : Py (List (List α)) := do
  let r ← pyGet arr i
  let r ← pySet r j v
  pySet arr i r

/-- `arr[i] = row`, a `ValueError` for another length (a row of length one would be broadcast;
not modelled, it is an error here). -/
def putRow (arr : List (List α)) (i : Int) (row : List α) : Py (List (List α)) := do
  let r ← pyGet arr i
  if r.length = row.length then pySet arr i row else .error .value

/-- `Ea_ext[1, sn] = charge` etc. for the states `l`: the innermost loops of
various.py:202-206, 220-225, 233-236. `vals` are the values for the rows 1, 2, ... -/
def markStates (arr : List (List α)) (vals : List Int) (l : List Nat) : Py (List (List α)) :=
  l.foldlM (fun arr sn =>
    vals.zipIdx.foldlM (fun arr p => put2 arr ((p.2 + 1 : Nat) : Int) (sn : Nat) (p.1 : α)) arr) arr

/-- `np.zeros((rows, len(Ea)))` with energies in row 0 and state numbers in the last row:
various.py:193-195, 208-210, 228-230. -/
def eaExtBase (rows : Nat) (Ea : List α) (nmany : Nat) : Py (List (List α)) := do
  let arr ← putRow (List.replicate rows (List.replicate Ea.length 0)) 0 Ea
  putRow arr ((rows - 1 : Nat) : Int) ((List.range nmany).map fun (k : Nat) => (k : α))

/-- `construct_Ea_extended`: various.py:161-237. -/
def eaExtended (si : SI) (Ea : List α) : Py (List (List α)) :=
  match si.indexing with
  | .sz => do
    let arr ← eaExtBase 4 Ea si.nmany
    let szlst ← match si.szlst with | some t => pure t | none => .error .attribute
    (List.range si.ncharge).foldlM (fun arr (charge : Nat) =>
      (szrange charge si.nsingle).foldlM (fun arr sz => do
        let r ← pyGet szlst (charge : Nat)
        let l ← pyGet r (szToInd sz charge si.nsingle)
        markStates arr [(charge : Int), sz] l) arr) arr
  | .ssq => do
    let arr ← eaExtBase 5 Ea si.nmany
    let ssqlst ← match si.ssqlst with | some t => pure t | none => .error .attribute
    (List.range si.ncharge).foldlM (fun arr (charge : Nat) =>
      (szrange charge si.nsingle).foldlM (fun arr sz =>
        (ssqrange charge sz si.nsingle).foldlM (fun arr ssq => do
          let r ← pyGet ssqlst (charge : Nat)
          let r ← pyGet r (szToInd sz charge si.nsingle)
          let l ← pyGet r (ssqToInd ssq sz)
          markStates arr [(charge : Int), sz, ssq] l) arr) arr) arr
  | _ => do
    let arr ← eaExtBase 3 Ea si.nmany
    (List.range si.ncharge).foldlM (fun arr (charge : Nat) => do
      let l ← pyGet si.chargelst (charge : Nat)
      markStates arr [(charge : Int)] l) arr

/-- `np.array(row, dtype=int)`: truncation towards zero. -/
def pyTrunc (x : α) : Int := if 0 ≤ x then ⌊x⌋ else ⌈x⌉

/-- What `sort_eigenstates` modifies: `qd.Ea_ext`, `si.states_order` and the list `srt` of the
caller. -/
structure SortState (α : Type) where
  eaExt : Option (List (List α))
  order : List Int
  srt : Option (List Int)

/-- `sort_eigenstates(self, srt)`: various.py:51-82. The list `srt` is extended in place. -/
def sortEigenstates (si : SI) (Ea : List α) (s : SortState α) : Py (SortState α) :=
  match s.srt with
  | some srt => do
    let ext ← match s.eaExt with
      | none => eaExtended si Ea
      | some a => putRow a 0 Ea
    let srt' := srt ++ [-1]
    let sorted ← multiarraySort ext srt'
    let last ← pyGet sorted (-1)
    pure ⟨some ext, last.map pyTrunc, some srt'⟩
  | none => pure ⟨s.eaExt, (List.range si.nmany).map fun (k : Nat) => (k : Int), none⟩

end Ea

/-! ### Removal of coherences and states -/

/-- `b, bp = si.inddm0[ind]`. -/
def Dict.getInt (d : Dict Nat (Nat × Nat)) (ind : Int) : Py (Nat × Nat) :=
  if 0 ≤ ind then d.get ind.toNat else .error .key

/-- One step of the first loop of `remove_coherences`: various.py:258-266. The state is
`mapdm0`, `ilst`, `indlst`. -/
def cohStep (ind : Dict Nat (Nat × Nat)) (keep : Nat → Nat → Bool)
    (st : List Int × List Int × List Int) (i : Nat) : Py (List Int × List Int × List Int) := do
  let k ← pyGet st.1 (i : Nat)
  if k ≠ -1 then do
    let p ← ind.getInt k
    if keep p.1 p.2 then pure (st.1, st.2.1 ++ [(i : Int)], st.2.2 ++ [k])
    else do
      let m ← pySet st.1 (i : Nat) (-1)
      pure (m, st.2.1, st.2.2)
  else pure st

/-- The loop of various.py:270-277 over the sorted list `indlst`; the state is `ind`, `count`
and the part of the list already rewritten. -/
def countStep (st : Int × Nat × List Int) (x : Int) : Int × Nat × List Int :=
  if x = st.1 then (st.1, st.2.1, st.2.2 ++ [(st.2.1 : Int)])
  else (x, st.2.1 + 1, st.2.2 ++ [((st.2.1 + 1 : Nat) : Int)])

/-- `remove_coherences`: various.py:240-282, for any criterion `keep`. (`ndm0r` is computed with
natural numbers, the difference is never negative.) -/
def DM.removeCohBy (d : DM) (keep : Nat → Nat → Bool) : Py DM := do
  let st ← (List.range d.ndm0_).foldlM (cohStep d.mp.ind keep) (d.mp.map, [], [])
  let srt ← multiarraySort [st.2.1, st.2.2] [1, 0]
  let ilst ← pyGet srt 0
  let indlst ← pyGet srt 1
  let r := indlst.foldl countStep (0, 0, [])
  let map ← (ilst.zip r.2.2).foldlM (fun m p => pySet m p.1 p.2) st.1
  pure { d with mp := { d.mp with map := map }, ndm0 := r.2.1 + 1,
                ndm0r := 2 * (r.2.1 + 1) - d.npauli }

noncomputable section

open Classical in
/-- `abs(E[b]-E[bp]) > dE` decides what is removed: various.py:262. -/
def keepCoh (E : Nat → ℝ) (dE : ℝ) (b bp : Nat) : Bool := decide ¬ (|E b - E bp| > dE)

/-- `remove_coherences(dE)`: various.py:240-282. -/
def DM.removeCoherences (d : DM) (E : Nat → ℝ) (dE : ℝ) : Py DM := d.removeCohBy (keepCoh E dE)

/-- `min(self.qd.Ea)`: the least of the values, a `ValueError` for an empty list. -/
def pyMin : List ℝ → Py ℝ
  | [] => .error .value
  | x :: l => pure (l.foldl min x)

open Classical in
/-- `remove_states(dE)`: various.py:285-306. -/
def DM.removeStates (d : DM) (Ea : List ℝ) (dE : ℝ) : Py DM := do
  let e0 ← pyMin Ea
  let statesdm ← (List.range d.si.ncharge).foldlM (fun (st : List (List Nat)) (charge : Nat) => do
    let l ← pyGet d.si.chargelst (charge : Nat)
    l.foldlM (fun st b => do
      let e ← pyGet Ea (b : Nat)
      if e < e0 + dE then pyModify st (charge : Nat) (· ++ [b]) else pure st) st)
    (List.replicate (d.si.nsingle + 1) [])
  d.setStatesdm statesdm

/-! ### Access to the density matrix -/

/-- A numpy vector of complex numbers (a vector of doubles is one with real entries). -/
structure CVec where
  size : Nat
  val : Nat → ℂ

/-- `x[i]`. -/
def CVec.get (x : CVec) (i : Int) : Py ℂ := do
  let k ← pyIdx x.size i
  pure (x.val k)

/-- `get_charge(self, b)`: various.py:11-27, and `sum(self.si.get_state(b))`. -/
def SI.chargeOf (si : SI) (b : Int) : Py Nat := do
  let s ← si.getState b
  pure s.sum

/-- The element for a label `ind != -1`: various.py:115-121. -/
def DM.phi0At (d : DM) (phi0 : CVec) (ind : Int) (conj : Bool) : Py ℂ := do
  if d.kind = .dmc then phi0.get ind
  else do
    let x ← phi0.get ind
    let y ← phi0.get ((d.ndm0 : Int) - d.npauli + ind)
    pure (x + Complex.I * y * (if conj then 1 else -1) * (if ind < d.npauli then 0 else 1))

/-- `get_ind_dm0(..., maptype=3)`. Only `StateIndexingDM` has it; in the other classes the
function returns `None` (indexing.py:1203-1214), which the caller does not use. -/
def DM.conjOrNone (d : DM) (b bp : Nat) (charge : Int) : Py Bool :=
  if d.kind = .dm then d.getConjDm0 b bp charge else pure false

/-- `get_phi0(self, b_, bp_)`: various.py:85-122. `kt` is `funcp.kerntype`, `order` is
`si.states_order`. -/
def DM.getPhi0 (d : DM) (kt : String) (order : List Nat) (phi0 : CVec) (b_ bp_ : Int) : Py ℂ := do
  let b ← pyGet order b_
  let bp ← pyGet order bp_
  let bcharge ← d.si.chargeOf (b : Nat)
  let bpcharge ← d.si.chargeOf (bp : Nat)
  if kt = "Pauli" then
    if b = bp then do
      let ind ← d.getIndDm0 b b (bcharge : Nat)
      phi0.get ind
    else pure 0
  else if bcharge = bpcharge then do
    let ind ← d.getIndDm0 b bp (bcharge : Nat)
    let conj ← d.conjOrNone b bp (bcharge : Nat)
    if ind ≠ -1 then d.phi0At phi0 ind conj else pure 0
  else pure 0

/-- `get_phi1(self, l, c_, b_)`: various.py:125-158. `none` is Python's `None`. `phi1` is the
list of the rows of the leads. -/
def DM.getPhi1 (d : DM) (kt : String) (order : List Nat) (phi1 : List CVec) (l c_ b_ : Int) :
    Py (Option ℂ) := do
  if kt = "Pauli" then pure none
  else do
    let c ← pyGet order c_
    let b ← pyGet order b_
    let ccharge ← d.si.chargeOf (c : Nat)
    let bcharge ← d.si.chargeOf (b : Nat)
    if ccharge = bcharge + 1 then do
      let ind ← d.getIndDm1 c b (bcharge : Nat)
      let row ← pyGet phi1 l
      let x ← row.get (ind : Nat)
      pure (some x)
    else if ccharge + 1 = bcharge then do
      let ind ← d.getIndDm1 b c (ccharge : Nat)
      let row ← pyGet phi1 l
      let x ← row.get (ind : Nat)
      pure (some (starRingEnd ℂ x))
    else pure (some 0)

end

end Verif
