import Verif.Model.Indexing
import Mathlib.Analysis.Complex.Basic

/-!
Model of the constructors of many-body matrices in the Fock basis: `construct_ham_coulomb` and
`construct_ham_hopping` (qmeq/qdot.py), `construct_Tba` (qmeq/leadstun.py) and
`elph_construct_Vbbp` (qmeq/baths.py).

Simplifications: labels of orbitals, leads and baths are natural numbers (negative Python
indices are not modelled); the arrays hold exact complex numbers (`mtype=complex`). Modified
arrays are returned instead of changed in place.
-/

namespace Verif

noncomputable section

/-- A numpy array with entries in `ℂ`: its shape and its entries. -/
structure Arr where
  dims : List Nat
  val : List Nat → ℂ

/-- `np.zeros(dims)`. -/
def Arr.zeros (dims : List Nat) : Arr := ⟨dims, fun _ => 0⟩

/-- `a[ix] += x` for a tuple of as many natural numbers as there are dimensions. -/
def Arr.add (a : Arr) (ix : List Nat) (x : ℂ) : Py Arr :=
  if List.Forall₂ (· < ·) ix a.dims then
    .ok { a with val := Function.update a.val ix (a.val ix + x) }
  else .error .index

/-- `lst.index(x)`. -/
def pyIndex (lst : List Nat) (x : Nat) : Py Nat :=
  if x ∈ lst then .ok (lst.idxOf x) else .error .value

/-- qdot.py:104-126, one pass of the loops of `construct_ham_hopping`: column `j1`, entry `e`
of `hsingle`. -/
def hopStep (si : SI) (hermHs : Bool) (lst : List Nat) (j1 : Nat) (state : List Nat) (ham : Arr)
    (e : (Nat × Nat) × ℂ) : Py Arr :=
  let j2 := e.1.1
  let j3 := e.1.2
  let hop := e.2
  if j2 = j3 then do
    let x ← pyGet state j2
    if x = 1 then ham.add [j1, j1] hop else pure ham
  else do
    let x ← pyGet state j2
    if x = 1 then do
      let y ← pyGet state j3
      if y = 0 then do
        let fsign : ℤ := (-1) ^ ((state.take j2).sum + (state.take j3).sum) *
          (if j2 > j3 then 1 else -1)
        let statep ← pySet state j2 0
        let statep ← pySet statep j3 1
        let r ← si.getInd statep
        match r with
        | none => pure ham
        | some k => do
          let ind ← pyIndex lst k
          let ham ← ham.add [ind, j1] (hop * fsign)
          if hermHs then ham.add [j1, ind] (star hop * fsign) else pure ham
      else pure ham
    else pure ham

/-- qdot.py:74-127 `construct_ham_hopping`; `ham?` is the argument `ham_`. -/
def constructHamHopping (si : SI) (hermHs : Bool) (hsingle : Dict (Nat × Nat) ℂ)
    (lst : List Nat) (ham? : Option Arr) : Py Arr :=
  (List.range lst.length).foldlM (fun ham j1 => do
      let b ← pyGet lst (j1 : Nat)
      let state ← si.getState b
      hsingle.foldlM (hopStep si hermHs lst j1 state) ham)
    (ham?.getD (Arr.zeros [lst.length, lst.length]))

/-- qdot.py:45-70, one pass of the loops of `construct_ham_coulomb`: column `j1`, entry `e` of
`coulomb`. -/
def coulStep (si : SI) (hermC mLessN : Bool) (lst : List Nat) (j1 : Nat) (state : List Nat)
    (ham : Arr) (e : (Nat × Nat × Nat × Nat) × ℂ) : Py Arr :=
  let m := e.1.1
  let n := e.1.2.1
  let k := e.1.2.2.1
  let l := e.1.2.2.2
  let U := e.2
  do
  let x ← pyGet state k
  if x = 1 then do
    let y ← pyGet state l
    if y = 1 ∧ k ≠ l then do
      let fsign : ℤ := (-1) ^ ((state.take k).sum + (state.take l).sum) *
        (if k > l then -1 else 1)
      let statep ← pySet state k 0
      let statep ← pySet statep l 0
      let x ← pyGet statep m
      if x = 0 then do
        let y ← pyGet statep n
        if y = 0 ∧ m ≠ n then do
          let fsign : ℤ := fsign * (-1) ^ ((statep.take n).sum + (statep.take m).sum) *
            (if n > m then 1 else -1)
          let statep ← pySet statep m 1
          let statep ← pySet statep n 1
          let r ← si.getInd statep
          match r with
          | none => pure ham
          | some i => do
            let ind ← pyIndex lst i
            let ham ← ham.add [ind, j1] (U * fsign)
            if hermC = true ∧ (m ≠ l ∨ n ≠ k) ∧ ¬ (mLessN = true ∧ l > k) then
              ham.add [j1, ind] (star U * fsign)
            else pure ham
        else pure ham
      else pure ham
    else pure ham
  else pure ham

/-- qdot.py:13-71 `construct_ham_coulomb`. -/
def constructHamCoulomb (si : SI) (hermC mLessN : Bool) (coulomb : Dict (Nat × Nat × Nat × Nat) ℂ)
    (lst : List Nat) (ham? : Option Arr) : Py Arr :=
  (List.range lst.length).foldlM (fun ham j1 => do
      let b ← pyGet lst (j1 : Nat)
      let state ← si.getState b
      coulomb.foldlM (coulStep si hermC mLessN lst j1 state) ham)
    (ham?.getD (Arr.zeros [lst.length, lst.length]))

/-- leadstun.py:43-64, one pass of the loops of `construct_Tba`: column `j1`, entry `e` of
`tleads`. -/
def tbaStep (si : SI) (j1 : Nat) (state : List Nat) (tba : Arr) (e : (Nat × Nat) × ℂ) : Py Arr :=
  let j3 := e.1.1
  let j2 := e.1.2
  let tamp := e.2
  let fsign : ℤ := (-1) ^ (state.take j2).sum
  do
  let x ← pyGet state j2
  if x = 0 then do
    let statep ← pySet state j2 1
    let r ← si.getInd statep
    match r with
    | none => pure tba
    | some ind => tba.add [j3, ind, j1] (fsign * tamp)
  else do
    let statep ← pySet state j2 0
    let r ← si.getInd statep
    match r with
    | none => pure tba
    | some ind => tba.add [j3, ind, j1] (fsign * star tamp)

/-- leadstun.py:16-65 `construct_Tba`; `nleads` is `si.nleads`, `tba?` the argument `Tba_`. -/
def constructTba (si : SI) (nleads : Nat) (tleads : Dict (Nat × Nat) ℂ) (tba? : Option Arr) :
    Py Arr :=
  (List.range si.nmany).foldlM (fun tba j1 => do
      let state ← si.getState (j1 : Nat)
      tleads.foldlM (tbaStep si j1 state) tba)
    (tba?.getD (Arr.zeros [nleads, si.nmany, si.nmany]))

/-- baths.py:39-60, one pass of the loops of `elph_construct_Vbbp`: column `j1`, entry `e` of
`velph`. -/
def vbbpStep (si : SI) (j1 : Nat) (state : List Nat) (v : Arr) (e : (Nat × Nat × Nat) × ℂ) :
    Py Arr :=
  let j4 := e.1.1
  let j3 := e.1.2.1
  let j2 := e.1.2.2
  let vamp := e.2
  if j2 = j3 then do
    let x ← pyGet state j2
    if x = 1 then v.add [j4, j1, j1] vamp else pure v
  else do
    let x ← pyGet state j2
    if x = 1 then do
      let y ← pyGet state j3
      if y = 0 then do
        let fsign : ℤ := (-1) ^ ((state.take j2).sum + (state.take j3).sum) *
          (if j2 > j3 then 1 else -1)
        let statep ← pySet state j2 0
        let statep ← pySet statep j3 1
        let r ← si.getInd statep
        match r with
        | none => pure v
        | some ind => v.add [j4, ind, j1] (vamp * fsign)
      else pure v
    else pure v

/-- baths.py:13-61 `elph_construct_Vbbp`; `nbaths` is `si.nbaths`, `v?` the argument `Vbbp_`. -/
def constructVbbp (si : SI) (nbaths : Nat) (velph : Dict (Nat × Nat × Nat) ℂ) (v? : Option Arr) :
    Py Arr :=
  (List.range si.nmany).foldlM (fun v j1 => do
      let state ← si.getState (j1 : Nat)
      velph.foldlM (vbbpStep si j1 state) v)
    (v?.getD (Arr.zeros [nbaths, si.nmany, si.nmany]))

end

end Verif
