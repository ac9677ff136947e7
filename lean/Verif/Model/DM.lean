import Verif.Model.Indexing

/-!
Model of `qmeq/indexing.py`, lines 669-1245: `StateIndexingPauli`, `StateIndexingDM` and
`StateIndexingDMc`, which label the elements of the reduced density matrix.

Simplifications: the considered states are natural numbers (a negative index in the
argument of `set_statesdm` is not modelled). numpy integer arrays are lists of unbounded
integers.
-/

namespace Verif

/-- Which of the three classes of indexing.py:669-1245 an object belongs to. -/
inductive DMKind where
  | pauli   -- StateIndexingPauli, 669-802
  | dm      -- StateIndexingDM, 805-1050
  | dmc     -- StateIndexingDMc, 1053-1245
  deriving DecidableEq, Repr

/-- The attributes written by `add_elem`. -/
structure MapSt where
  map : List Int
  bool : List Bool
  conj : List Bool
  ind : Dict Nat (Nat × Nat)
  deriving DecidableEq, Repr

/-- An indexing object for density matrix elements. `lenlst`, `shiftlst1`, `inddm0` do not
exist in `StateIndexingPauli`, `conjdm0` only exists in `StateIndexingDM`; the model then
holds unused values. -/
structure DM where
  kind : DMKind
  si : SI
  statesdm : List (List Nat)
  npauli_ : Nat
  ndm0_ : Nat
  ndm1_ : Nat
  lenlst : List Nat
  shiftlst0 : List Nat
  shiftlst1 : List Nat
  dictdm : List Nat
  mp : MapSt
  npauli : Nat
  ndm0 : Nat
  ndm0r : Nat
  ndm1 : Nat
  ndm0Tot : Nat
  ndm1Tot : Nat

/-- `get_ind_dm0(b, bp, charge, maptype=0)`: indexing.py:793-794 (Pauli, where `bp` is a
dummy), 1008-1010 (DM), 1207-1208 (DMc). -/
def DM.rawInd0 (d : DM) (b bp : Nat) (charge : Int) : Py Nat := do
  let i ← pyGet d.dictdm (b : Nat)
  let s ← pyGet d.shiftlst0 charge
  match d.kind with
  | .pauli => pure (i + s)
  | _ => do
    let len ← pyGet d.lenlst charge
    let j ← pyGet d.dictdm (bp : Nat)
    pure (len * i + j + s)

/-- `get_ind_dm0(b, bp, charge)` (`maptype=1`): indexing.py:795-796, 1011-1013, 1209-1211. -/
def DM.getIndDm0 (d : DM) (b bp : Nat) (charge : Int) : Py Int := do
  let k ← d.rawInd0 b bp charge
  pyGet d.mp.map (k : Nat)

/-- `get_ind_dm0(b, bp, charge, maptype=2)`: indexing.py:797-798, 1014-1016, 1212-1214. -/
def DM.getBoolDm0 (d : DM) (b bp : Nat) (charge : Int) : Py Bool := do
  let k ← d.rawInd0 b bp charge
  pyGet d.mp.bool (k : Nat)

/-- `get_ind_dm0(b, bp, charge, maptype=3)`, only in `StateIndexingDM`:
indexing.py:1017-1019. -/
def DM.getConjDm0 (d : DM) (b bp : Nat) (charge : Int) : Py Bool := do
  let k ← d.rawInd0 b bp charge
  pyGet d.mp.conj (k : Nat)

/-- `get_ind_dm1(c, b, bcharge)`: indexing.py:1021-1046, 1216-1241. -/
def DM.getIndDm1 (d : DM) (c b : Nat) (bcharge : Int) : Py Nat := do
  let len ← pyGet d.lenlst bcharge
  let i ← pyGet d.dictdm (c : Nat)
  let j ← pyGet d.dictdm (b : Nat)
  let s ← pyGet d.shiftlst1 bcharge
  pure (len * i + j + s)

/-- `self.conjdm0[bbp] = conjq`, in `StateIndexingDM` only (indexing.py:934). -/
def setConj (k : DMKind) (l : List Bool) (i : Nat) (v : Bool) : Py (List Bool) :=
  if k = .dm then pySet l (i : Nat) v else pure l

/-- `add_elem`: indexing.py:747-753, 930-937, 1132-1138. -/
def DM.addElem (d : DM) (st : MapSt) (counter b bp charge : Nat) (dictq conjq : Bool) :
    Py MapSt := do
  let bbp ← d.rawInd0 b bp (charge : Nat)
  let map ← pySet st.map (bbp : Nat) (counter : Int)
  let bool ← pySet st.bool (bbp : Nat) dictq
  let conj ← setConj d.kind st.conj bbp conjq
  pure { map, bool, conj,
         ind := if dictq ∧ d.kind ≠ .pauli then st.ind.set counter (b, bp) else st.ind }

/-- `(ch, sz, ssq, alpha) = self.ind_qn[b]`. -/
def SI.qn4 (si : SI) (b : Nat) : Py (Int × Int × Int × Int) := do
  let q ← si.indQn.get b
  match q with
  | [c, z, s, a] => pure (c, z, s, a)
  | _ => .error .value

/-- Body of the loop over diagonal elements: indexing.py:762-771, 947-956, 1148-1157. -/
def DM.diagStep (d : DM) (charge : Nat) (st : MapSt × Nat) (b : Nat) : Py (MapSt × Nat) :=
  if d.si.indexing = .ssq then do
    let q ← d.si.qn4 b
    if q.2.2.1 = -q.2.1 then do
      let m ← d.addElem st.1 st.2 b b charge true true
      let m ← (pyRange (q.2.1 + 2) (q.2.2.1 + 1) 2).foldlM
        (fun m sz => do
          let b1 ← d.si.qnInd.get [q.1, sz, q.2.2.1, q.2.2.2]
          d.addElem m st.2 b1 b1 charge false true) m
      pure (m, st.2 + 1)
    else pure st
  else do
    let m ← d.addElem st.1 st.2 b b charge true true
    pure (m, st.2 + 1)

/-- `itertools.combinations(l, 2)`. -/
def combs2 : List Nat → List (Nat × Nat)
  | [] => []
  | b :: l => l.map (fun bp => (b, bp)) ++ combs2 l

/-- `itertools.permutations(l, 2)`: by position. -/
def perms2 (l : List Nat) : List (Nat × Nat) :=
  l.zipIdx.flatMap fun p => l.zipIdx.filterMap fun p' =>
    if p.2 = p'.2 then none else some (p.1, p'.1)

/-- `self.ind_qn[b][1]`. -/
def SI.qnSz (si : SI) (b : Nat) : Py Int := do
  let q ← si.indQn.get b
  pyGet q 1

/-- `StateIndexingDM`, body of the loop over off-diagonal elements: indexing.py:961-980. -/
def DM.offStepDM (d : DM) (charge : Nat) (st : MapSt × Nat) (p : Nat × Nat) :
    Py (MapSt × Nat) :=
  match d.si.indexing with
  | .sz => do
    let z ← d.si.qnSz p.1
    let z' ← d.si.qnSz p.2
    if z = z' then do
      let m ← d.addElem st.1 st.2 p.2 p.1 charge false false
      let m ← d.addElem m st.2 p.1 p.2 charge true true
      pure (m, st.2 + 1)
    else pure st
  | .ssq => do
    let q ← d.si.qn4 p.1
    let q' ← d.si.qn4 p.2
    if (q.2.1, q.2.2.1) = (q'.2.1, q'.2.2.1) then
      if q.2.2.1 = -q.2.1 then do
        let m ← d.addElem st.1 st.2 p.2 p.1 charge false false
        let m ← d.addElem m st.2 p.1 p.2 charge true true
        let m ← (pyRange (q.2.1 + 2) (q.2.2.1 + 1) 2).foldlM
          (fun m sz => do
            let b1 ← d.si.qnInd.get [q.1, sz, q.2.2.1, q.2.2.2]
            let b1p ← d.si.qnInd.get [q'.1, sz, q'.2.2.1, q'.2.2.2]
            let m ← d.addElem m st.2 b1p b1 charge false false
            d.addElem m st.2 b1 b1p charge false true) m
        pure (m, st.2 + 1)
      else pure st
    else pure st
  | _ => do
    let m ← d.addElem st.1 st.2 p.2 p.1 charge false false
    let m ← d.addElem m st.2 p.1 p.2 charge true true
    pure (m, st.2 + 1)

/-- `StateIndexingDMc`, body of the loop over off-diagonal elements: indexing.py:1164-1179. -/
def DM.offStepDMc (d : DM) (charge : Nat) (st : MapSt × Nat) (p : Nat × Nat) :
    Py (MapSt × Nat) :=
  match d.si.indexing with
  | .sz => do
    let z ← d.si.qnSz p.1
    let z' ← d.si.qnSz p.2
    if z = z' then do
      let m ← d.addElem st.1 st.2 p.1 p.2 charge true true
      pure (m, st.2 + 1)
    else pure st
  | .ssq => do
    let q ← d.si.qn4 p.1
    let q' ← d.si.qn4 p.2
    if (q.2.1, q.2.2.1) = (q'.2.1, q'.2.2.1) then
      if q.2.2.1 = -q.2.1 then do
        let m ← d.addElem st.1 st.2 p.1 p.2 charge true true
        let m ← (pyRange (q.2.1 + 2) (q.2.2.1 + 1) 2).foldlM
          (fun m sz => do
            let b1 ← d.si.qnInd.get [q.1, sz, q.2.2.1, q.2.2.2]
            let b1p ← d.si.qnInd.get [q'.1, sz, q'.2.2.1, q'.2.2.2]
            d.addElem m st.2 b1 b1p charge false true) m
        pure (m, st.2 + 1)
      else pure st
    else pure st
  | _ => do
    let m ← d.addElem st.1 st.2 p.1 p.2 charge true true
    pure (m, st.2 + 1)

/-- The loop over off-diagonal elements; `StateIndexingPauli` has none. -/
def DM.offLoop (d : DM) (st : MapSt × Nat) : Py (MapSt × Nat) :=
  match d.kind with
  | .pauli => pure st
  | .dm => (List.range d.si.ncharge).foldlM
      (fun st charge => do
        let l ← pyGet d.statesdm (charge : Nat)
        (combs2 l).foldlM (d.offStepDM charge) st) st
  | .dmc => (List.range d.si.ncharge).foldlM
      (fun st charge => do
        let l ← pyGet d.statesdm (charge : Nat)
        (perms2 l).foldlM (d.offStepDMc charge) st) st

/-- `set_mapdm`: indexing.py:742-772, 925-983, 1127-1182. -/
def DM.setMapdm (d : DM) : Py DM := do
  let size := if d.kind = .pauli then d.npauli_ else d.ndm0_
  let m0 : MapSt := { map := List.replicate size (-1), bool := List.replicate size false,
                      conj := List.replicate size false, ind := [] }
  let st ← (List.range d.si.ncharge).foldlM
    (fun st charge => do
      let l ← pyGet d.statesdm (charge : Nat)
      l.foldlM (d.diagStep charge) st) (m0, 0)
  let st' ← d.offLoop st
  pure { d with mp := st'.1, npauli := st.2, ndm0 := st'.2,
                ndm0r := st.2 + 2 * (st'.2 - st.2), ndm1 := d.ndm1_ }

/-- `shiftlst1[j1+1] = shiftlst1[j1] + len(statesdm[j1])*len(statesdm[j1+1])`, when
`j1 < ncharge-1` (indexing.py:916-918); not in `StateIndexingPauli`. -/
def setShift1 (ncharge : Nat) (statesdm : List (List Nat)) (j1 len : Nat) (s1 : List Nat) :
    Py (List Nat) :=
  if j1 + 1 < ncharge then do
    let l' ← pyGet statesdm ((j1 + 1 : Nat) : Int)
    let s ← pyGet s1 (j1 : Nat)
    pySet s1 ((j1 + 1 : Nat) : Int) (s + len * l'.length)
  else pure s1

/-- `dictdm[j2] = counter` for the states of one charge (indexing.py:736-739, 919-922). -/
def enumStates (l : List Nat) (dict : List Nat) : Py (List Nat) :=
  l.zipIdx.foldlM (fun dict p => pySet dict (p.1 : Nat) p.2) dict

/-- `set_dictdm`, up to the call of `set_mapdm`: indexing.py:730-740, 909-923, 1111-1125. -/
def DM.setDictdm (d : DM) : Py DM := do
  (List.range d.si.ncharge).foldlM
    (fun (d : DM) (j1 : Nat) => do
      let l ← pyGet d.statesdm (j1 : Nat)
      let lenlst ← pySet d.lenlst (j1 : Nat) l.length
      let s ← pyGet d.shiftlst0 (j1 : Nat)
      let shiftlst0 ← pySet d.shiftlst0 ((j1 + 1 : Nat) : Int)
        (s + if d.kind = .pauli then l.length else l.length ^ 2)
      let shiftlst1 ← setShift1 d.si.ncharge d.statesdm j1 l.length d.shiftlst1
      let dictdm ← enumStates l d.dictdm
      pure { d with lenlst, shiftlst0, shiftlst1, dictdm }) d

/-- The product added to `ndm1_` (indexing.py:903-904). -/
def ndm1Term (ncharge : Nat) (statesdm : List (List Nat)) (j1 len : Nat) : Py Nat :=
  if j1 + 1 < ncharge then do
    let l' ← pyGet statesdm ((j1 + 1 : Nat) : Int)
    pure (len * l'.length)
  else pure 0

/-- The loop over charges in `set_statesdm` (indexing.py:723-725, 899-904, 1101-1106):
`npauli_`, `ndm0_`, `ndm1_`. -/
def countStates (ncharge : Nat) (statesdm : List (List Nat)) : Py (Nat × Nat × Nat) :=
  (List.range ncharge).foldlM
    (fun (t : Nat × Nat × Nat) (j1 : Nat) => do
      let l ← pyGet statesdm (j1 : Nat)
      let e ← ndm1Term ncharge statesdm j1 l.length
      pure (t.1 + l.length, t.2.1 + l.length ^ 2, t.2.2 + e)) (0, 0, 0)

/-- `set_statesdm`: indexing.py:712-728, 888-907, 1090-1109. `StateIndexingDM` copies its
argument before appending `[]`; the loop over the argument therefore does not see the
appended list, while in the other two classes it does. -/
def DM.setStatesdm (d : DM) (arg : List (List Nat)) : Py DM := do
  let statesdm := arg ++ [[]]
  let t ← countStates d.si.ncharge (if d.kind = .dm then arg else statesdm)
  let d := { d with statesdm, npauli_ := t.1, ndm0_ := t.2.1, ndm1_ := t.2.2 }
  let d ← d.setDictdm
  let d ← d.setMapdm
  pure { d with si := { d.si with statesChanged := true } }

/-- `self.set_statesdm(self.chargelst)` (indexing.py:710, 802, 886, 1050, 1088, 1245,
various.py:320). In `StateIndexingPauli` and `StateIndexingDMc` the list is shared, so `[]`
is also appended to `chargelst`. -/
def DM.setStatesAll (d : DM) : Py DM := do
  let d' ← d.setStatesdm d.si.chargelst
  pure (if d.kind = .dm then d'
        else { d' with si := { d'.si with chargelst := d'.si.chargelst ++ [[]] } })

/-- `int(factorial(2*n)/factorial(n)**2)` (indexing.py:877). Simplification: exact division
instead of floating point division followed by truncation. -/
def ndm0TotOf (n : Nat) : Nat :=
  (Nat.rec 1 (fun k f => (k + 1) * f) (2 * n) : Nat)
    / ((Nat.rec 1 (fun k f => (k + 1) * f) n : Nat) ^ 2)

/-- Constructor: indexing.py:692-710, 863-886, 1065-1088. `ndm1_tot` is
`int(n/(n+1)*ndm0_tot)`, with exact division in place of floating point. -/
def DM.init (kind : DMKind) (nsingle : Nat) (indexing : String) : Py DM := do
  let si ← SI.init nsingle indexing
  let d : DM :=
    { kind, si, statesdm := [], npauli_ := 0, ndm0_ := 0, ndm1_ := 0,
      lenlst := List.replicate si.ncharge 0, shiftlst0 := List.replicate (si.ncharge + 1) 0,
      shiftlst1 := List.replicate si.ncharge 0, dictdm := List.replicate si.nmany 0,
      mp := { map := [], bool := [], conj := [], ind := [] },
      npauli := 0, ndm0 := 0, ndm0r := 0, ndm1 := 0,
      ndm0Tot := ndm0TotOf nsingle,
      ndm1Tot := nsingle * ndm0TotOf nsingle / (nsingle + 1) }
  d.setStatesAll

/-- `remove_fock_states`: indexing.py:800-802, 1048-1050, 1243-1245. -/
def DM.removeFockStates (d : DM) (inds : List Int) : Py DM := do
  let si ← d.si.removeFockStates inds
  { d with si }.setStatesAll

/-- A call on the object by a user or by the builder. -/
inductive DMCall where
  | setStates (statesdm : List (List Nat))   -- set_statesdm
  | allStates                                -- set_statesdm(chargelst)
  | removeFock (inds : List Int)             -- remove_fock_states
  deriving DecidableEq, Repr

/-- One call. -/
def DM.call (d : DM) : DMCall → Py DM
  | .setStates s => d.setStatesdm s
  | .allStates => d.setStatesAll
  | .removeFock inds => d.removeFockStates inds

/-- Construction and a sequence of calls; the history ends at the first exception. -/
def DM.run (kind : DMKind) (nsingle : Nat) (indexing : String) (calls : List DMCall) :
    Py DM := do
  let d ← DM.init kind nsingle indexing
  calls.foldlM DM.call d

end Verif
