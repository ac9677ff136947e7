import Mathlib.Data.Real.Basic
import Verif.Model.Py

/-! Parameters of the leads and of the phonon baths: chemical potentials, temperatures, bandwidths.

Arrays are lists of reals; that an exception leaves an array partly changed (`lst_old[0:npar]` is a view of the stored
array) is not modelled. `si.symmetry is 'spin'` (leadstun.py:359) is modelled as equality of strings. -/

namespace Verif

noncomputable section

/-- An argument `mulst`, `tlst` or `tlst_ph`. `other` is everything that is not a dictionary, list, array or
number, for instance `None` or a tuple. -/
inductive LstArg where
  | dict (d : Dict Int ℝ)
  | list (l : List ℝ)
  | num (x : ℝ)
  | other

/-- An entry of `dlst`. -/
inductive DVal where
  | num (x : ℝ)
  | pair (a b : ℝ)

/-- leadstun.py:378-381, also 374-375 and 384-385. -/
def DVal.ends : DVal → ℝ × ℝ
  | .num x => (-x, x)
  | .pair a b => (a, b)

/-- An argument `dlst` or `dlst_ph`. Lists contain numbers or pairs. -/
inductive DlstArg where
  | dict (d : Dict Int DVal)
  | nums (l : List ℝ)
  | pairs (l : List (ℝ × ℝ))
  | num (x : ℝ)
  | other

/-- `a[:] = b` for an array `a` with `n` entries (or `n` rows): `b` must have `n` entries or one, which is repeated. -/
def npAssign {α : Type} (n : Nat) (b : List α) : Py (List α) :=
  if b.length = n then .ok b
  else match b with
    | [x] => .ok (List.replicate n x)
    | _ => .error .value

/-- `a += b`. -/
def npAdd {α : Type} [Add α] (a b : List α) : Py (List α) := do
  let b ← npAssign a.length b
  pure (List.zipWith (· + ·) a b)

/-- leadstun.py:350-351 and 377-381, the entries of a dictionary are stored one after the other. -/
def npStore {α β : Type} (f : β → α) (a : List α) (d : Dict Int β) : Py (List α) :=
  d.foldlM (fun a e => pySet a e.1 (f e.2)) a

/-- leadstun.py:346-349 and 368-371, the array that is filled. -/
def startArray {α : Type} (z : α) (npar : Nat) (old : Option (List α)) : List α :=
  match old with
  | none => List.replicate npar z
  | some o => o.take npar

/-- leadstun.py:359-362 and 389-392; `sym` says whether the symmetry 'spin' is set and used. -/
def spinTwice {α : Type} (sym : Bool) (a : List α) : List α := if sym then a ++ a else a

/-- leadstun.py:321-362 `make_array`. -/
def makeArray (sym : Bool) (npar : Nat) (old : Option (List ℝ)) : LstArg → Py (List ℝ)
  | .dict d => do
    let a ← npStore id (startArray 0 npar old) d
    pure (spinTwice sym a)
  | .list l => pure (spinTwice sym l)
  | .num x => pure (spinTwice sym (List.replicate npar x))
  | .other => pure (spinTwice sym (List.replicate npar 0))

/-- leadstun.py:365-392 `make_array_dlst`. -/
def makeArrayDlst (sym : Bool) (npar : Nat) (old : Option (List (ℝ × ℝ))) (dlst : DlstArg) : Py (List (ℝ × ℝ)) := do
  let start := startArray (0, 0) npar old
  let a ← match dlst with
    | .num x => npAssign start.length (List.replicate npar (DVal.num x).ends)
    | .dict d => npStore DVal.ends start d
    | .nums l => if l = [] then .error .index else npAssign start.length (l.map fun x => (DVal.num x).ends)
    | .pairs l => if l = [] then .error .index else pure l
    | .other => pure start
  pure (spinTwice sym a)

/-- leadstun.py:427-435, the attributes of `LeadsTunneling` for the parameters of the leads; `npar` is
`si.nleads_sym`. -/
structure LeadPars where
  sym : Bool
  npar : Nat
  mulst : List ℝ
  tlst : List ℝ
  dlst : List (ℝ × ℝ)

/-- leadstun.py:427-435, the part of `LeadsTunneling.__init__`. -/
def LeadPars.init (sym : Bool) (nleads : Nat) (mulst tlst : LstArg) (dlst : DlstArg) : Py LeadPars := do
  let npar := if sym then nleads / 2 else nleads
  let m ← makeArray sym npar none mulst
  let t ← makeArray sym npar none tlst
  let d ← makeArrayDlst sym npar none dlst
  pure ⟨sym, npar, m, t, d⟩

/-- `if x is not None: y = f(x)`. -/
def ifGiven {α β : Type} (x : Option α) (y : β) (f : α → Py β) : Py β :=
  match x with
  | none => pure y
  | some x => f x

/-- leadstun.py:459-465, the part of `LeadsTunneling.add` with `lstq=True`. -/
def LeadPars.add (p : LeadPars) (mulst tlst : Option LstArg) (dlst : Option DlstArg) : Py LeadPars := do
  let m ← ifGiven mulst p.mulst fun x => do npAdd p.mulst (← makeArray p.sym p.npar none x)
  let t ← ifGiven tlst p.tlst fun x => do npAdd p.tlst (← makeArray p.sym p.npar none x)
  let d ← ifGiven dlst p.dlst fun x => do npAdd p.dlst (← makeArrayDlst p.sym p.npar none x)
  pure { p with mulst := m, tlst := t, dlst := d }

/-- leadstun.py:488-493, the part of `LeadsTunneling.change`. -/
def LeadPars.change (p : LeadPars) (mulst tlst : Option LstArg) (dlst : Option DlstArg) : Py LeadPars := do
  let m ← ifGiven mulst p.mulst fun x => do npAssign p.mulst.length (← makeArray p.sym p.npar (some p.mulst) x)
  let t ← ifGiven tlst p.tlst fun x => do npAssign p.tlst.length (← makeArray p.sym p.npar (some p.tlst) x)
  let d ← ifGiven dlst p.dlst fun x => do npAssign p.dlst.length (← makeArrayDlst p.sym p.npar (some p.dlst) x)
  pure { p with mulst := m, tlst := t, dlst := d }

/-- baths.py:210-216, the attributes of `PhononBaths` for the parameters of the baths. -/
structure BathPars where
  nbaths : Nat
  tlst : List ℝ
  dlst : List (ℝ × ℝ)

/-- baths.py:215-216, the part of `PhononBaths.__init__`. -/
def BathPars.init (nbaths : Nat) (tlst : LstArg) (dlst : DlstArg) : Py BathPars := do
  let t ← makeArray false nbaths none tlst
  let d ← makeArrayDlst false nbaths none dlst
  pure ⟨nbaths, t, d⟩

/-- baths.py:245-249, the part of `PhononBaths.add` with `lstq=True`. -/
def BathPars.add (p : BathPars) (tlst : Option LstArg) (dlst : Option DlstArg) : Py BathPars := do
  let t ← ifGiven tlst p.tlst fun x => do npAdd p.tlst (← makeArray false p.nbaths none x)
  let d ← ifGiven dlst p.dlst fun x => do npAdd p.dlst (← makeArrayDlst false p.nbaths none x)
  pure { p with tlst := t, dlst := d }

/-- baths.py:275-278, the part of `PhononBaths.change`. -/
def BathPars.change (p : BathPars) (tlst : Option LstArg) (dlst : Option DlstArg) : Py BathPars := do
  let t ← ifGiven tlst p.tlst fun x => do npAssign p.tlst.length (← makeArray false p.nbaths (some p.tlst) x)
  let d ← ifGiven dlst p.dlst fun x => do npAssign p.dlst.length (← makeArrayDlst false p.nbaths (some p.dlst) x)
  pure { p with tlst := t, dlst := d }

end

end Verif
