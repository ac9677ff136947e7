import Verif.Model.Params

/-!
Model of the change to the eigenbasis: `construct_full_pmtr`, `rotate_Tba` (qmeq/leadstun.py) and
`elph_rotate_Vbbp` (qmeq/baths.py).

Simplifications: assignments to slices need arrays of
exactly the shape of the slice (numpy would also stretch axes of length 1). The number of leads or
baths is an argument.
-/

namespace Verif

noncomputable section

/-- The entry of a matrix. -/
def Arr.mat (a : Arr) (i j : Nat) : ℂ := a.val [i, j]

/-- A two-dimensional array. -/
def Arr.ofMat (r c : Nat) (f : Nat → Nat → ℂ) : Arr :=
  ⟨[r, c], fun ix => match ix with
    | [i, j] => f i j
    | _ => 0⟩

/-- The shape of a matrix. -/
def Arr.shape2 (a : Arr) : Py (Nat × Nat) :=
  match a.dims with
  | [r, c] => .ok (r, c)
  | _ => .error .value

/-- `np.dot(a, b)` of two matrices. -/
def matDot (a b : Arr) : Py Arr := do
  let s ← a.shape2
  let t ← b.shape2
  if s.2 = t.1 then
    pure (Arr.ofMat s.1 t.2 fun i j => ∑ x ∈ Finset.range s.2, a.mat i x * b.mat x j)
  else .error .value

/-- `a.conj().T` of a matrix. -/
def conjT (a : Arr) : Py Arr := do
  let s ← a.shape2
  pure (Arr.ofMat s.2 s.1 fun i j => starRingEnd ℂ (a.mat j i))

/-- `np.concatenate(lst, axis=1)` of matrices. -/
def concatCols : List Arr → Py Arr
  | [] => .error .value
  | a :: rest => rest.foldlM (fun a b => do
      let s ← a.shape2
      let t ← b.shape2
      if s.1 = t.1 then
        pure (Arr.ofMat s.1 (s.2 + t.2) fun i j => if j < s.2 then a.mat i j else b.mat i (j - s.2))
      else .error .value) a

/-- The length of the slice `i:j` of an axis of length `n`. -/
def sliceLen (n i j : Nat) : Nat := min j n - min i n

/-- `t[l, i1:i2][:, i3:i4]`. -/
def Arr.block (t : Arr) (l i1 i2 i3 i4 : Nat) : Py Arr :=
  match t.dims with
  | [L, R, C] =>
    if l < L then
      .ok (Arr.ofMat (sliceLen R i1 i2) (sliceLen C i3 i4) fun i j => t.val [l, i1 + i, i3 + j])
    else .error .index
  | _ => .error .index

/-- `t[l, i1:i2][:, i3:i4] = x`. -/
def Arr.setBlock (t : Arr) (l i1 i2 i3 i4 : Nat) (x : Arr) : Py Arr :=
  match t.dims with
  | [L, R, C] =>
    if l < L then
      if x.dims = [sliceLen R i1 i2, sliceLen C i3 i4] then
        .ok { t with val := fun ix => match ix with
          | [l', i, j] =>
            if l' = l ∧ (i1 ≤ i ∧ i < i2) ∧ (i3 ≤ j ∧ j < i4) then x.mat (i - i1) (j - i3)
            else t.val [l', i, j]
          | _ => t.val ix }
      else .error .value
    else .error .index
  | _ => .error .index

/-- `a[ix]`. -/
def Arr.get (a : Arr) (ix : List Nat) : Py ℂ :=
  if List.Forall₂ (· < ·) ix a.dims then .ok (a.val ix) else .error .index

/-- The eigenvectors `vecslst`: a matrix for every charge, for every charge and spin projection,
or for every charge, spin projection and total spin. -/
inductive Vecs where
  | charge (v : List Arr)
  | sz (v : List (List Arr))
  | ssq (v : List (List (List Arr)))

/-- `vecslst[charge]` used as a matrix (a list has no attribute `conj`). -/
def Vecs.at1 (v : Vecs) (c : Nat) : Py Arr :=
  match v with
  | .charge v => pyGet v c
  | _ => .error .attribute

/-- `vecslst[charge][szind]` used as a matrix. (For the eigenvectors by charge this would be a
row, an error in the operations that follow.) -/
def Vecs.at2 (v : Vecs) (c : Nat) (k : Int) : Py Arr :=
  match v with
  | .charge _ => .error .value
  | .sz v => do
    let r ← pyGet v c
    pyGet r k
  | .ssq _ => .error .attribute

/-- `vecslst[charge][szind]` used as a list of matrices. -/
def Vecs.at3 (v : Vecs) (c : Nat) (k : Int) : Py (List Arr) :=
  match v with
  | .ssq v => do
    let r ← pyGet v c
    pyGet r k
  | _ => .error .value

/-- `si.szlst[charge][szind]`; without spin projection `szlst` is `None`. -/
def SI.szRow (si : SI) (c : Nat) (k : Int) : Py (List Nat) :=
  match si.szlst with
  | none => .error .type
  | some t => do
    let r ← pyGet t c
    pyGet r k

/-- `si.ssqlst[charge][szind]`. -/
def SI.ssqRow (si : SI) (c : Nat) (k : Int) : Py (List (List Nat)) :=
  match si.ssqlst with
  | none => .error .type
  | some t => do
    let r ← pyGet t c
    pyGet r k

/-- leadstun.py:97-100, 110-113, 118-120: the innermost loop over `j1`, `j2`, which copies the
entries of `v` to the rows `rows` and the columns `cols`. -/
def fillBlock (rows cols : List Nat) (v p : Arr) : Py Arr :=
  (List.range rows.length).foldlM (fun p (j1 : Nat) =>
    (List.range cols.length).foldlM (fun p (j2 : Nat) => do
      let x ← pyGet rows j1
      let y ← pyGet cols j2
      let u ← v.get [j1, j2]
      p.put [x, y] u) p) p

/-- leadstun.py:68-120 `construct_full_pmtr`. -/
def constructFullPmtr (si : SI) (vecs : Vecs) : Py Arr :=
  let pmtr := Arr.zeros [si.nmany, si.nmany]
  match si.indexing with
  | .sz => (List.range si.ncharge).foldlM (fun p (c : Nat) =>
      (szrange c si.nsingle).foldlM (fun p sz => do
        let k := szToInd sz c si.nsingle
        let row ← si.szRow c k
        if row = [] then pure p
        else do
          let v ← vecs.at2 c k
          fillBlock row row v p) p) pmtr
  | .ssq => (List.range si.ncharge).foldlM (fun p (c : Nat) =>
      (szrange c si.nsingle).foldlM (fun p sz =>
        (ssqrange c sz si.nsingle).foldlM (fun p ssq => do
          let k := szToInd sz c si.nsingle
          let q := ssqToInd ssq sz
          let row ← si.szRow c k
          let cols ← si.ssqRow c k
          let cols ← pyGet cols q
          if row = [] ∨ cols = [] then pure p
          else do
            let vs ← vecs.at3 c k
            let v ← pyGet vs q
            fillBlock row cols v p) p) p) pmtr
  | _ => (List.range si.ncharge).foldlM (fun p (c : Nat) => do
      let row ← pyGet si.chargelst c
      if row = [] then pure p
      else do
        let v ← vecs.at1 c
        fillBlock row row v p) pmtr

/-- `l[0]` and `l[-1] + 1`. -/
def ends (l : List Nat) : Py (Nat × Nat) := do
  let a ← pyGet l 0
  let b ← pyGet l (-1)
  pure (a, b + 1)

/-- leadstun.py:173-180, 193-202, 207-214: the block of the rotated amplitudes and its conjugate
transpose. -/
def rotBlock (t0 t : Arr) (l : Nat) (row row' : List Nat) (v v' : Arr) : Py Arr := do
  let i12 ← ends row
  let i34 ← ends row'
  let vd ← conjT v
  let b ← t0.block l i12.1 i12.2 i34.1 i34.2
  let m ← matDot b v'
  let x ← matDot vd m
  let t ← t.setBlock l i12.1 i12.2 i34.1 i34.2 x
  let y ← t.block l i12.1 i12.2 i34.1 i34.2
  let y ← conjT y
  t.setBlock l i34.1 i34.2 i12.1 i12.2 y

/-- leadstun.py:161-167, 183-189: the spin projections for which lead `l` can add an electron, and
the change of the spin projection. -/
def leadSz (nleads ncharge nsingle l c : Nat) : List Int × Int :=
  let r := szrange c nsingle
  let r := if ncharge / 2 ≤ c then (if l < nleads / 2 then r.dropLast else r.drop 1) else r
  (r, if l < nleads / 2 then 1 else -1)

/-- leadstun.py:152-158, baths.py:94-100: rotation with the full matrix. -/
def rotateFull (si : SI) (nleads : Nat) (t0 : Arr) (vecs : Vecs) : Py Arr := do
  let p ← constructFullPmtr si vecs
  (List.range nleads).foldlM (fun t (l : Nat) => do
    let pd ← conjT p
    let b ← (match t0.dims with
      | [L, R, C] => if l < L then .ok (Arr.ofMat R C fun i j => t0.val [l, i, j])
                     else .error .index
      | _ => .error .index)
    let m ← matDot b p
    let x ← matDot pd m
    t.setBlock l 0 si.nmany 0 si.nmany x) (Arr.zeros [nleads, si.nmany, si.nmany])

/-- leadstun.py:123-220 `rotate_Tba`. -/
def rotateTba (si : SI) (nleads : Nat) (t0 : Arr) (vecs : Vecs) (indexing : Option Indexing) :
    Py Arr :=
  match indexing.getD si.indexing with
  | .Lin => rotateFull si nleads t0 vecs
  | .sz => (List.range nleads).foldlM (fun t (l : Nat) =>
      (List.range (si.ncharge - 1)).foldlM (fun t (c : Nat) =>
        let rs := leadSz nleads si.ncharge si.nsingle l c
        rs.1.foldlM (fun t sz => do
          let k := szToInd sz c si.nsingle
          let k' := szToInd (sz + rs.2) (c + 1) si.nsingle
          let row ← si.szRow c k
          let row' ← si.szRow (c + 1) k'
          if row = [] ∨ row' = [] then pure t
          else do
            let v ← vecs.at2 c k
            let v' ← vecs.at2 (c + 1) k'
            rotBlock t0 t l row row' v v') t) t) (Arr.zeros [nleads, si.nmany, si.nmany])
  | .ssq => (List.range nleads).foldlM (fun t (l : Nat) =>
      (List.range (si.ncharge - 1)).foldlM (fun t (c : Nat) =>
        let rs := leadSz nleads si.ncharge si.nsingle l c
        rs.1.foldlM (fun t sz => do
          let k := szToInd sz c si.nsingle
          let k' := szToInd (sz + rs.2) (c + 1) si.nsingle
          let row ← si.szRow c k
          let row' ← si.szRow (c + 1) k'
          let vs ← vecs.at3 c k
          let v ← concatCols vs
          let vs' ← vecs.at3 (c + 1) k'
          let v' ← concatCols vs'
          rotBlock t0 t l row row' v v') t) t) (Arr.zeros [nleads, si.nmany, si.nmany])
  | .charge => (List.range nleads).foldlM (fun t (l : Nat) =>
      (List.range (si.ncharge - 1)).foldlM (fun t (c : Nat) => do
        let row ← pyGet si.chargelst c
        let row' ← pyGet si.chargelst (c + 1 : Nat)
        if row = [] ∨ row' = [] then pure t
        else do
          let v ← vecs.at1 c
          let v' ← vecs.at1 (c + 1)
          rotBlock t0 t l row row' v v') t) (Arr.zeros [nleads, si.nmany, si.nmany])

/-- baths.py:110-111, 120, 127-128: one block of the rotated couplings. -/
def rotDiag (t0 t : Arr) (l : Nat) (row : List Nat) (v : Arr) : Py Arr := do
  let i12 ← ends row
  let vd ← conjT v
  let b ← t0.block l i12.1 i12.2 i12.1 i12.2
  let m ← matDot b v
  let x ← matDot vd m
  t.setBlock l i12.1 i12.2 i12.1 i12.2 x

/-- baths.py:64-129 `elph_rotate_Vbbp`. -/
def rotateVbbp (si : SI) (nbaths : Nat) (t0 : Arr) (vecs : Vecs) (indexing : Option Indexing) :
    Py Arr :=
  match indexing.getD si.indexing with
  | .Lin => rotateFull si nbaths t0 vecs
  | .sz => (List.range nbaths).foldlM (fun t (l : Nat) =>
      (List.range si.ncharge).foldlM (fun t (c : Nat) =>
        (szrange c si.nsingle).foldlM (fun t sz => do
          let k := szToInd sz c si.nsingle
          let row ← si.szRow c k
          if row = [] then pure t
          else do
            let v ← vecs.at2 c k
            rotDiag t0 t l row v) t) t) (Arr.zeros [nbaths, si.nmany, si.nmany])
  | .ssq => (List.range nbaths).foldlM (fun t (l : Nat) =>
      (List.range si.ncharge).foldlM (fun t (c : Nat) =>
        (szrange c si.nsingle).foldlM (fun t sz => do
          let k := szToInd sz c si.nsingle
          let row ← si.szRow c k
          let vs ← vecs.at3 c k
          let v ← concatCols vs
          rotDiag t0 t l row v) t) t) (Arr.zeros [nbaths, si.nmany, si.nmany])
  | .charge => (List.range nbaths).foldlM (fun t (l : Nat) =>
      (List.range si.ncharge).foldlM (fun t (c : Nat) => do
        let row ← pyGet si.chargelst c
        if row = [] then pure t
        else do
          let v ← vecs.at1 c
          rotDiag t0 t l row v) t) (Arr.zeros [nbaths, si.nmany, si.nmany])

end

end Verif
