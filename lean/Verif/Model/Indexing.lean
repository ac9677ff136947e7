import Verif.Model.Py

/-!
Model of `qmeq/indexing.py`, lines 16-667: conversion between integers and
occupation lists, tables of states by charge / spin, `StateIndexing`.

Simplifications: `symmetry`, `nleads` and `nbaths` are plain numbers that play no
role in the tables and are left out; printing is left out.
-/

namespace Verif

/-- Binary digits of `n`, most significant first, without padding (`format(n, 'b')`). -/
def binDigits (n : Nat) : List Nat :=
  if n < 2 then [n] else binDigits (n / 2) ++ [n % 2]
termination_by n
decreasing_by omega

/-- indexing.py:33-53 `integer_to_binarylist` with `strq=False`:
`format(num, '0<binlen>b')` pads with zeros on the left up to `binlen` digits. -/
def integerToBinarylist (num binlen : Nat) : List Nat :=
  List.replicate (binlen - (binDigits num).length) 0 ++ binDigits num

/-- indexing.py:16-30 `binarylist_to_integer`: `int(''.join(map(str, lst)), 2)`.
The empty string and digits other than 0 and 1 are a `ValueError`
(simplification: entries with several decimal digits, such as 10, are rejected,
Python would read them as several digits). -/
def binarylistToInteger (lst : List Nat) : Py Nat :=
  if lst = [] then .error .value
  else if lst.all (· < 2) then .ok (lst.foldl (fun acc d => 2 * acc + d) 0)
  else .error .value

/-- indexing.py:56-77 `construct_chargelst`. -/
def constructChargelst (nsingle : Nat) : Py (List (List Nat)) :=
  (List.range (2 ^ nsingle)).foldlM
    (fun chargelst j1 =>
      let state := integerToBinarylist j1 nsingle
      pyModify chargelst (state.sum : Nat) (· ++ [j1]))
    (List.replicate (nsingle + 1) [])

/-- indexing.py:98 `szmax`. -/
def szMax (charge nsingle : Int) : Int := min charge (nsingle - charge)

/-- indexing.py:80-99 `sz_to_ind`; `int(x/2)` truncates towards zero. -/
def szToInd (sz charge nsingle : Int) : Int := (szMax charge nsingle + sz).tdiv 2

/-- indexing.py:102-119 `szrange`. -/
def szrange (charge nsingle : Int) : List Int :=
  pyRange (-szMax charge nsingle) (szMax charge nsingle + 1) 2

/-- indexing.py:123-144 `empty_szlst` with `noneq=False`. -/
def emptySzlst (nsingle : Nat) : List (List (List Nat)) :=
  (List.range (nsingle + 1)).map fun (i : Nat) => (szrange i nsingle).map fun _ => []

/-- indexing.py:147-173 `construct_szlst`. -/
def constructSzlst (nsingle : Nat) : Py (List (List (List Nat))) :=
  (List.range (2 ^ nsingle)).foldlM
    (fun szlst j1 => do
      let state := integerToBinarylist j1 nsingle
      let charge := state.sum
      -- state[0:int(nsingle/2)] and state[int(nsingle/2):nsingle]
      let sz : Int := ((state.take (nsingle / 2)).sum : Nat)
        - (((state.take nsingle).drop (nsingle / 2)).sum : Nat)
      let szind := szToInd sz charge nsingle
      let row ← pyGet szlst (charge : Nat)
      let row' ← pyModify row szind (· ++ [j1])
      pySet szlst (charge : Nat) row')
    (emptySzlst nsingle)

/-- indexing.py:176-192 `ssq_to_ind`. -/
def ssqToInd (ssq sz : Int) : Int := (ssq - sz.natAbs).tdiv 2

/-- indexing.py:195-214 `ssqrange`. -/
def ssqrange (charge sz nsingle : Int) : List Int :=
  pyRange sz.natAbs (szMax charge nsingle + 1) 2

/-- indexing.py:217-239 `empty_ssqlst` with `noneq=False`. -/
def emptySsqlst (nsingle : Nat) : List (List (List (List Nat))) :=
  (List.range (nsingle + 1)).map fun (i : Nat) =>
    (szrange i nsingle).map fun j => (ssqrange i j nsingle).map fun _ => []

/-- `len(szlst[j1][j2-1]) if j2 > 0 else 0` of indexing.py:265-272. -/
def prevLen (row : List (List Nat)) (j2 : Nat) : Py Nat :=
  if 0 < j2 then (do let z ← pyGet row ((j2 : Int) - 1); pure z.length) else pure 0

/-- indexing.py:265-272: number of multiplets for each charge and total spin. -/
def ssqCount (szlst : List (List (List Nat))) (nsingle : Nat) : Py (List (List Int)) :=
  (List.range (nsingle + 1)).foldlM
    (fun ssqcount (j1 : Nat) => do
      let ssqr := ssqrange (j1 : Nat) ((j1 % 2 : Nat) : Int) nsingle
      let lssqr := ssqr.length
      (List.range lssqr).foldlM
        (fun ssqcount (j2 : Nat) => do
          let s ← pyGet ssqr ((lssqr : Int) - j2 - 1)
          let ssqind := ssqToInd s 0
          let row ← pyGet szlst (j1 : Nat)
          let x ← pyGet row (j2 : Nat)
          let y ← prevLen row j2
          let crow ← pyGet ssqcount (j1 : Nat)
          let crow' ← pySet crow ssqind ((x.length : Int) - (y : Int))
          pySet ssqcount (j1 : Nat) crow')
        ssqcount)
    ((List.range (nsingle + 1)).map fun (i : Nat) =>
      (ssqrange i ((i % 2 : Nat) : Int) nsingle).map fun _ => 0)

/-- indexing.py:242-284 `construct_ssqlst`. `range(k)` of a negative `k` is empty. -/
def constructSsqlst (szlst : List (List (List Nat))) (nsingle : Nat) :
    Py (List (List (List (List Nat)))) := do
  let ssqcount ← ssqCount szlst nsingle
  let r ← (List.range (nsingle + 1)).foldlM
    (fun (st : List (List (List (List Nat))) × Nat) (charge : Nat) =>
      (szrange charge nsingle).foldlM
        (fun st sz => do
          let szind := szToInd sz charge nsingle
          (ssqrange charge sz nsingle).foldlM
            (fun st ssq => do
              let ssqind := ssqToInd ssq sz
              let ssqind2 := ssqToInd ssq 0
              let cnt ← pyGet ssqcount (charge : Nat)
              let cnt ← pyGet cnt ssqind2
              (List.range cnt.toNat).foldlM
                (fun (st : List (List (List (List Nat))) × Nat) _ => do
                  let r1 ← pyGet st.1 (charge : Nat)
                  let r2 ← pyGet r1 szind
                  let r2' ← pyModify r2 ssqind (· ++ [st.2])
                  let r1' ← pySet r1 szind r2'
                  let l' ← pySet st.1 (charge : Nat) r1'
                  pure (l', st.2 + 1))
                st)
            st)
        st)
    (emptySsqlst nsingle, 0)
  pure r.1

/-- `list(range(a, b))` for natural numbers. -/
def natRange (a b : Nat) : List Nat := List.range' a (b - a)

/-- indexing.py:303-323 `enum_chargelst`: the loop carries `counter1`. -/
def enumChargelst (chargelstLin : List (List Nat)) : List (List Nat) :=
  (chargelstLin.foldl
    (fun (st : List (List Nat) × Nat) row =>
      let counter2 := st.2 + row.length
      (st.1 ++ [natRange st.2 counter2], counter2))
    ([], 0)).1

/-- indexing.py:326-349 `enum_szlst`. (The code pre-allocates the nested list and
assigns into it; every position is assigned once, in order.) -/
def enumSzlst (szlstLin : List (List (List Nat))) : List (List (List Nat)) :=
  (szlstLin.foldl
    (fun (st : List (List (List Nat)) × Nat) crow =>
      let r := crow.foldl
        (fun (st2 : List (List Nat) × Nat) row =>
          let counter2 := st2.2 + row.length
          (st2.1 ++ [natRange st2.2 counter2], counter2))
        ([], st.2)
      (st.1 ++ [r.1], r.2))
    ([], 0)).1

/-- indexing.py:352-369 `make_inverse_map`. Entries of `j` become `None` only in
`remove_fock_states`, hence the option. -/
def makeInverseMap (lst : List Nat) : Py (List (Option Nat)) :=
  (List.range lst.length).foldlM
    (fun rez j1 => do
      let x ← pyGet lst (j1 : Nat)
      pySet rez (x : Nat) (some j1))
    (List.replicate lst.length (some 0))

/-- Quantum numbers of a state: `(charge, alpha)`, `(charge, sz, alpha)` or
`(charge, sz, ssq, alpha)`. -/
abbrev QN := List Int

/-- The value of the `indexing` argument after initialisation. -/
inductive Indexing where
  | Lin | charge | sz | ssq
  deriving DecidableEq, Repr

/-- indexing.py:420-528: the fields of a `StateIndexing` object that the tables use. -/
structure SI where
  nsingle : Nat
  indexing : Indexing
  ncharge : Nat
  nmany : Nat
  nmany_ : Nat
  i : List Nat
  j : List (Option Nat)
  chargelstLin : List (List Nat)
  chargelst : List (List Nat)
  szlstLin : Option (List (List (List Nat)))
  szlst : Option (List (List (List Nat)))
  ssqlst : Option (List (List (List (List Nat))))
  qnInd : Dict QN Nat
  indQn : Dict Nat QN
  removed : Option (List Bool)
  statesChanged : Bool
  deriving Repr

/-- Adds the entries for one list of states that share the quantum numbers `qn`
(inner loops `for alpha in range(len(lst))` of indexing.py:399-402, 407-410, 413-416). -/
def addQn (d : Dict QN Nat × Dict Nat QN) (qn : QN) (lst : List Nat) :
    Dict QN Nat × Dict Nat QN :=
  lst.zipIdx.foldl
    (fun d p => (d.1.set (qn ++ [(p.2 : Int)]) p.1, d.2.set p.1 (qn ++ [(p.2 : Int)]))) d

/-- indexing.py:372-417 `make_quantum_numbers`. -/
def makeQuantumNumbers (indexing : Indexing) (ncharge nsingle : Nat)
    (chargelst : List (List Nat)) (szlst : Option (List (List (List Nat))))
    (ssqlst : Option (List (List (List (List Nat))))) : Py (Dict QN Nat × Dict Nat QN) :=
  match indexing with
  | .ssq => match ssqlst with
    | none => .error .type
    | some ssqlst =>
      (List.range ncharge).foldlM
        (fun d (charge : Nat) =>
          (szrange charge nsingle).foldlM
            (fun d sz =>
              (ssqrange charge sz nsingle).foldlM
                (fun d ssq => do
                  let r1 ← pyGet ssqlst (charge : Nat)
                  let r2 ← pyGet r1 (szToInd sz charge nsingle)
                  let lst ← pyGet r2 (ssqToInd ssq sz)
                  pure (addQn d [(charge : Int), sz, ssq] lst))
                d)
            d)
        ([], [])
  | .sz => match szlst with
    | none => .error .type
    | some szlst =>
      (List.range ncharge).foldlM
        (fun d (charge : Nat) =>
          (szrange charge nsingle).foldlM
            (fun d sz => do
              let r1 ← pyGet szlst (charge : Nat)
              let lst ← pyGet r1 (szToInd sz charge nsingle)
              pure (addQn d [(charge : Int), sz] lst))
            d)
        ([], [])
  | _ =>
    (List.range ncharge).foldlM
      (fun d (charge : Nat) => do
        let lst ← pyGet chargelst (charge : Nat)
        pure (addQn d [(charge : Int)] lst))
      ([], [])

/-- indexing.py:493-519: which of the branches of `__init__` is taken for the
requested indexing string. 'sz' and 'ssq' need an even number of single-particle
states, unknown strings fall back to 'Lin'. -/
def chooseIndexing (nsingle : Nat) (indexing : String) : Indexing :=
  if indexing = "charge" then .charge
  else if indexing = "sz" ∧ nsingle % 2 = 0 then .sz
  else if indexing = "ssq" ∧ nsingle % 2 = 0 then .ssq
  else .Lin

/-- indexing.py:465-528 `StateIndexing.__init__`. `chargelst_lin` is not set by the
code for 'Lin' indexing; the field then holds an unused empty list. -/
def SI.init (nsingle : Nat) (indexing : String) : Py SI := do
  let ix := chooseIndexing nsingle indexing
  let chargelstLin ← constructChargelst nsingle
  match ix with
  | .Lin => do
    let i := List.range (2 ^ nsingle)
    let j ← makeInverseMap i
    let d ← makeQuantumNumbers ix (nsingle + 1) nsingle chargelstLin none none
    pure { nsingle, indexing := ix, ncharge := nsingle + 1, nmany := 2 ^ nsingle,
           nmany_ := 2 ^ nsingle, i, j, chargelstLin := [], chargelst := chargelstLin,
           szlstLin := none, szlst := none, ssqlst := none, qnInd := d.1, indQn := d.2,
           removed := none, statesChanged := true }
  | .charge => do
    let chargelst := enumChargelst chargelstLin
    let i := chargelstLin.flatten
    let j ← makeInverseMap i
    let d ← makeQuantumNumbers ix (nsingle + 1) nsingle chargelst none none
    pure { nsingle, indexing := ix, ncharge := nsingle + 1, nmany := 2 ^ nsingle,
           nmany_ := 2 ^ nsingle, i, j, chargelstLin, chargelst,
           szlstLin := none, szlst := none, ssqlst := none, qnInd := d.1, indQn := d.2,
           removed := none, statesChanged := true }
  | _ => do
    let chargelst := enumChargelst chargelstLin
    let szlstLin ← constructSzlst nsingle
    let szlst := enumSzlst szlstLin
    let i := szlstLin.flatten.flatten
    let ssqlst ← if ix = .ssq then (do let l ← constructSsqlst szlst nsingle; pure (some l))
                 else pure none
    let j ← makeInverseMap i
    let d ← makeQuantumNumbers ix (nsingle + 1) nsingle chargelst (some szlst) ssqlst
    pure { nsingle, indexing := ix, ncharge := nsingle + 1, nmany := 2 ^ nsingle,
           nmany_ := 2 ^ nsingle, i, j, chargelstLin, chargelst,
           szlstLin := some szlstLin, szlst := some szlst, ssqlst, qnInd := d.1,
           indQn := d.2, removed := none, statesChanged := true }

/-- indexing.py:530-551 `get_state` with `strq=False`. -/
def SI.getState (si : SI) (ind : Int) : Py (List Nat) := do
  let x ← pyGet si.i ind
  pure (integerToBinarylist x si.nsingle)

/-- indexing.py:553-572 `get_ind`; the result is `None` for a removed Fock state. -/
def SI.getInd (si : SI) (state : List Nat) : Py (Option Nat) := do
  let x ← binarylistToInteger state
  pyGet si.j (x : Nat)

/-- indexing.py:574-607 `get_lst` (result `none` is Python's `None`). -/
def SI.getLst (si : SI) (charge : Option Int) (sz : Option Int) (ssq : Option Int) :
    Py (Option (List Nat)) :=
  match charge, sz with
  | none, none => .ok none
  | none, some _ => .error .type   -- chargelst[None] or arithmetic with None
  | some charge, none => do
    let l ← pyGet si.chargelst charge
    pure (some l)
  | some charge, some sz =>
    match si.szlst, ssq, si.ssqlst with
    | some szlst, none, _ => do
      let r ← pyGet szlst charge
      let l ← pyGet r (szToInd sz charge si.nsingle)
      pure (some l)
    | some _, some ssq, some ssqlst => do
      let r ← pyGet ssqlst charge
      let r ← pyGet r (szToInd sz charge si.nsingle)
      let l ← pyGet r (ssqToInd ssq sz)
      pure (some l)
    | _, _, _ => do
      let l ← pyGet si.chargelst charge
      pure (some l)

/-- One filtering loop of `remove_fock_states` (indexing.py:631-637 and 648-654):
keeps the states that are not removed and sets `j` of the removed ones to `None`. -/
def filterRemoved (removed : List Bool) (lst : List Nat) (j : List (Option Nat)) :
    Py (List Nat × List (Option Nat)) :=
  lst.foldlM
    (fun (st : List Nat × List (Option Nat)) j1 => do
      let r ← pyGet removed (j1 : Nat)
      if r then (do
        let j' ← pySet st.2 (j1 : Nat) none
        pure (st.1, j'))
      else pure (st.1 ++ [j1], st.2))
    ([], j)

/-- indexing.py:661-662: final renumbering `self.j[self.i[j1]] = j1`. -/
def renumber (i : List Nat) (j : List (Option Nat)) : Py (List (Option Nat)) :=
  (List.range i.length).foldlM
    (fun j j1 => do
      let x ← pyGet i (j1 : Nat)
      pySet j (x : Nat) (some j1))
    j

/-- indexing.py:621-622: `removed_fock_states`, created on the first call. -/
def SI.removedArr (si : SI) : List Bool :=
  match si.removed with
  | some r => r
  | none => List.replicate si.nmany false

/-- indexing.py:609-666 `remove_fock_states`. For 'Lin' indexing the code filters
`self.chargelst` in the role of `chargelst_lin`. -/
def SI.removeFockStates (si : SI) (linStateIndices : List Int) : Py SI := do
  if si.indexing = .ssq then pure si
  else
    let removed ← linStateIndices.foldlM (fun r ind => pySet r ind true) si.removedArr
    let nmany := si.nmany_ - removed.count true
    let src := if si.indexing = .Lin then si.chargelst else si.chargelstLin
    -- for charge in range(ncharge): chargelst_lin[charge] = charge_states
    let st ← (List.range si.ncharge).foldlM
      (fun (st : List (List Nat) × List (Option Nat)) charge => do
        let lst ← pyGet st.1 (charge : Nat)
        let r ← filterRemoved removed lst st.2
        let l ← pySet st.1 (charge : Nat) r.1
        pure (l, r.2))
      (src, si.j)
    let src := st.1
    if si.indexing = .sz then
      match si.szlstLin with
      | none => .error .type
      | some szlstLin => do
        let st2 ← (List.range si.ncharge).foldlM
          (fun (st : List (List (List Nat)) × List (Option Nat)) (charge : Nat) => do
            let crow ← pyGet st.1 (charge : Nat)
            let r ← (szrange charge si.nsingle).foldlM
              (fun (st3 : List (List Nat) × List (Option Nat)) sz => do
                let lst ← pyGet crow (szToInd sz charge si.nsingle)
                let r ← filterRemoved removed lst st3.2
                pure (st3.1 ++ [r.1], r.2))
              ([], st.2)
            let l ← pySet st.1 (charge : Nat) r.1
            pure (l, r.2))
          (szlstLin, st.2)
        let chargelst := enumChargelst src
        let szlst := enumSzlst st2.1
        let i := st2.1.flatten.flatten
        let j ← renumber i st2.2
        let d ← makeQuantumNumbers si.indexing si.ncharge si.nsingle chargelst (some szlst) si.ssqlst
        pure { si with nmany, i, j, chargelstLin := src, chargelst, szlstLin := some st2.1,
                       szlst := some szlst, qnInd := d.1, indQn := d.2,
                       removed := some removed, statesChanged := true }
    else
      let i := src.flatten
      let chargelst := enumChargelst src
      let j ← renumber i st.2
      let d ← makeQuantumNumbers si.indexing si.ncharge si.nsingle chargelst si.szlst si.ssqlst
      pure { si with nmany, i, j, chargelst,
                     chargelstLin := (if si.indexing = .Lin then si.chargelstLin else src),
                     qnInd := d.1, indQn := d.2, removed := some removed,
                     statesChanged := true }

/-- A history: construction followed by calls of `remove_fock_states`
(indexing.py:465-528 and 609-666). After an exception the history ends
(the partly updated object is not modelled). -/
def SI.run (nsingle : Nat) (indexing : String) (calls : List (List Int)) : Py SI := do
  let si ← SI.init nsingle indexing
  calls.foldlM SI.removeFockStates si

end Verif
