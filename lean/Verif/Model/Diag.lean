import Verif.Model.Rotate
import Verif.Model.SpinOps
import Mathlib.Algebra.Order.Round
import Mathlib.Analysis.SpecialFunctions.Sqrt

/-!
Model of the diagonalisation: `construct_manybody_eigenstates`, `ssquare_eigenstates`,
`construct_manybody_eigenstates_ssq_all`, `construct_Ea_manybody`,
`QuantumDot.diagonalise_charge` (called without total spin) and `QuantumDot.diagonalise` (qmeq/qdot.py).

Simplifications: `numpy.linalg.eigh` is a parameter. `valslst` and `vecslst` are returned as new
lists instead of being written entry by entry; while the multiplets are constructed both are one table of
pairs.
-/

namespace Verif

noncomputable section

/-- `np.linalg.eigh`: eigenvalues and the matrix with the eigenvectors as columns. -/
abbrev Eigh := Arr → Py (List ℝ × Arr)

/-- qdot.py:130-162 `construct_manybody_eigenstates`, with the list of states as in
`diagonalise_charge` (qdot.py:891-907): `ham_` is `self.hamlst[charge]` or
`self.hamlst[charge][szind]`. -/
def QD.eigenstates (qd : QD) (eigh : Eigh) (charge : Nat) (sz : Option Int) (szind : Int) :
    Py (List ℝ × Arr) := do
  let r ← qd.si.getLst (some charge) sz none
  match r with
  | none => .error .type
  | some _ =>
    match qd.hamlst charge szind with
    | some ham => eigh ham
    | none => do
      let ham ← qd.hamBlock qd.hsingle qd.coulomb charge sz none
      eigh ham

/-! ### Total spin -/

/-- A numpy matrix of integers used together with complex ones. -/
def IMat.arr (m : IMat) : Arr := Arr.ofMat m.rows m.cols fun i j => ((m.val i j : ℤ) : ℂ)

/-- `a.T` of a matrix. -/
def transp (a : Arr) : Py Arr := do
  let s ← a.shape2
  pure (Arr.ofMat s.2 s.1 fun i j => a.mat j i)

/-- `a[:, i:j]` of a matrix. -/
def Arr.colSlice (a : Arr) (i j : Nat) : Py Arr := do
  let s ← a.shape2
  pure (Arr.ofMat s.1 (sliceLen s.2 i j) fun x y => a.mat x (i + y))

/-- qdot.py:338-376 `ssquare_eigenstates`; `none` is the number 0 returned after the warning. `np.rint` is
rounding to the nearest integer (halves, which `rint` rounds to even numbers, are rounded up); `nan`, the
root of a negative number, is left out. The entries of the new list, the numbers 0, are arrays
without dimensions. -/
def ssquareEigenstates (eigh : Eigh) (charge : Nat) (sz : Int) (si : SI) : Py (Option (List Arr)) :=
  if (charge : Int) % 2 ≠ sz % 2 then pure none
  else do
    let ssquare ← operatorSsquare charge sz si
    let p ← eigh ssquare.arr
    let eigval := p.1.map fun x => round (-1 + Real.sqrt (1 + x))
    let lst ← (ssqrange charge sz si.nsingle).foldlM (fun lst ssq => do
      let v := (List.range eigval.length).filter fun i => eigval[i]? = some ssq
      let a ← pyGet v 0
      let b ← pyGet v (-1)
      let x ← p.2.colSlice a (b + 1)
      pySet lst (ssqToInd ssq sz) x) ((ssqrange charge sz si.nsingle).map fun _ => Arr.zeros [])
    pure (some lst)

/-- The tables `valslst` and `vecslst` of one charge while they are filled; `none` is `[None]`. -/
abbrev SpinTab := List (List (Option (List ℝ × Arr)))

/-- `valslst[k][q]`, `vecslst[k][q]`. -/
def SpinTab.get (t : SpinTab) (k q : Int) : Py (List ℝ × Arr) := do
  let r ← pyGet t k
  let x ← pyGet r q
  match x with
  | some p => pure p
  | none => .error .type

/-- `valslst[k][q] = p.1`, `vecslst[k][q] = p.2`. -/
def SpinTab.put (t : SpinTab) (k q : Int) (p : List ℝ × Arr) : Py SpinTab := do
  let r ← pyGet t k
  let r ← pySet r q (some p)
  pySet t k r

/-- `np.dot(op, v)/fct`, where `op` may be the number 0. -/
def opDot (op : Option IMat) (v : Arr) (fct : ℝ) : Py Arr := do
  let x ← match op with
    | some m => matDot m.arr v
    | none => pure (Arr.zeros v.dims)
  let s ← x.shape2
  pure (Arr.ofMat s.1 s.2 fun i j => x.mat i j / fct)

/-- `range(start, stop, -step)`. -/
def pyRangeDown (start stop step : Int) : List Int :=
  (List.range ((start - stop + step - 1) / step).toNat).map fun (k : Nat) => start - step * k

/-- qdot.py:510-516, one pass: the eigenstates of the Hamiltonian in the subspace `v` of total spin
`ssq`. -/
def spinBase (eigh : Eigh) (ham v : Arr) : Py (List ℝ × Arr) := do
  let vt ← transp v
  let m ← matDot ham v
  let hamp ← matDot vt m
  let p ← eigh hamp
  let x ← matDot v p.2
  pure (p.1, x)

/-- qdot.py:522-528, 533-539, the inner loop: from the row of projection `sz` of the table to the one of
projection `sz2`. The operator does not depend on `ssq`. -/
def spinStep (charge : Nat) (sz sz2 : Int) (si : SI) (op : Py (Option IMat)) (t : SpinTab) : Py SpinTab :=
  (ssqrange charge sz2 si.nsingle).foldlM (fun t ssq => do
    let m ← op
    let fct := Real.sqrt (((ssq * (ssq + 2) - sz * sz2 : ℤ) : ℝ))
    let p ← t.get (szToInd sz charge si.nsingle) (ssqToInd ssq sz)
    let x ← opDot m p.2 fct
    t.put (szToInd sz2 charge si.nsingle) (ssqToInd ssq sz2) (p.1, x)) t

/-- qdot.py:460-540 `construct_manybody_eigenstates_ssq_all`, with `ham_` from `self.hamlst`. -/
def QD.spinStates (qd : QD) (eigh : Eigh) (charge : Nat) : Py SpinTab := do
  let si := qd.si
  let szlow : Int := -((charge % 2 : Nat) : Int)
  let szind := szToInd szlow charge si.nsingle
  let tab : SpinTab := (szrange charge si.nsingle).map fun j => (ssqrange charge j si.nsingle).map fun _ => none
  let _ ← si.lstSz charge szlow
  let ham ← match qd.hamlst charge szind with
    | some ham => pure ham
    | none => qd.hamBlock qd.hsingle qd.coulomb charge (some szlow) none
  let ssqEigvec ← ssquareEigenstates eigh charge szlow si
  match ssqEigvec with
  | none => .error .type
  | some vs => do
    let tab ← (ssqrange charge szlow si.nsingle).foldlM (fun t ssq => do
      let ssqind := ssqToInd ssq szlow
      let v ← pyGet vs ssqind
      let p ← spinBase eigh ham v
      t.put szind ssqind p) tab
    let szmax := min (charge : Int) (si.nsingle - charge)
    let tab ← (pyRange szlow (szmax - 1) 2).foldlM (fun t sz =>
      spinStep charge sz (sz + 2) si (operatorSp charge sz si) t) tab
    (pyRangeDown szlow (-szmax + 1) 2).foldlM (fun t sz =>
      spinStep charge sz (sz - 2) si (operatorSm charge sz si) t) tab

/-! ### Energies -/

/-- The eigenvalues `valslst`. -/
inductive Vals where
  | charge (v : List (List ℝ))
  | sz (v : List (List (List ℝ)))
  | ssq (v : List (List (List (List ℝ))))

/-- qdot.py:190-191, 203-204, 211-213: the innermost loop over `ind`. -/
def fillVals (row : List Nat) (w : List ℝ) (ea : List ℝ) : Py (List ℝ) :=
  (List.range row.length).foldlM (fun ea (i : Nat) => do
    let b ← pyGet row i
    let x ← pyGet w i
    pySet ea (b : Nat) x) ea

/-- qdot.py:165-214 `construct_Ea_manybody`. -/
def constructEa (si : SI) (vals : Vals) : Py (List ℝ) :=
  let ea := List.replicate si.nmany 0
  match si.indexing, vals with
  | .sz, .sz v => (List.range si.ncharge).foldlM (fun ea (c : Nat) =>
      (szrange c si.nsingle).foldlM (fun ea sz => do
        let k := szToInd sz c si.nsingle
        let row ← si.szRow c k
        let r ← pyGet v c
        let w ← pyGet r k
        fillVals row w ea) ea) ea
  | .ssq, .ssq v => (List.range si.ncharge).foldlM (fun ea (c : Nat) =>
      (szrange c si.nsingle).foldlM (fun ea sz =>
        (ssqrange c sz si.nsingle).foldlM (fun ea ssq => do
          let k := szToInd sz c si.nsingle
          let q := ssqToInd ssq sz
          let row ← si.ssqRow c k
          let row ← pyGet row q
          let r ← pyGet v c
          let r ← pyGet r k
          let w ← pyGet r q
          fillVals row w ea) ea) ea) ea
  | .charge, .charge v | .Lin, .charge v => (List.range si.ncharge).foldlM (fun ea (c : Nat) => do
      let row ← pyGet si.chargelst c
      let w ← pyGet v c
      fillVals row w ea) ea
  | _, _ => .error .type

/-- qdot.py:921-937 `QuantumDot.diagonalise` with `set_Ea`: the eigenvalues, the eigenvectors and the energies
of the many-body states. (Cells that were left `[None]` would raise in `construct_Ea_manybody`.) -/
def QD.diagonalise (qd : QD) (eigh : Eigh) : Py (Vals × Vecs × List ℝ) :=
  match qd.si.indexing with
  | .sz => do
    let p ← (List.range qd.si.ncharge).mapM fun (c : Nat) =>
      (szrange c qd.si.nsingle).mapM fun sz =>
        qd.eigenstates eigh c (some sz) (szToInd sz c qd.si.nsingle)
    let vals := Vals.sz (p.map fun r => r.map Prod.fst)
    let ea ← constructEa qd.si vals
    pure (vals, .sz (p.map fun r => r.map Prod.snd), ea)
  | .ssq => do
    let p ← (List.range qd.si.ncharge).mapM fun (c : Nat) => qd.spinStates eigh c
    let p ← p.mapM fun t => t.mapM fun r => r.mapM fun x =>
      match x with
      | some y => pure y
      | none => (.error .type : Py (List ℝ × Arr))
    let vals := Vals.ssq (p.map fun t => t.map fun r => r.map Prod.fst)
    let ea ← constructEa qd.si vals
    pure (vals, .ssq (p.map fun t => t.map fun r => r.map Prod.snd), ea)
  | _ => do
    let p ← (List.range qd.si.ncharge).mapM fun (c : Nat) => qd.eigenstates eigh c none 0
    let vals := Vals.charge (p.map Prod.fst)
    let ea ← constructEa qd.si vals
    pure (vals, .charge (p.map Prod.snd), ea)

end

end Verif
