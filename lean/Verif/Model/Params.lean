import Verif.Model.Fock

/-!
Model of the dictionaries of parameters and of their changes: `make_hsingle_dict`,
`make_coulomb_dict`, `QuantumDot.__init__/add/change` (qmeq/qdot.py), `make_tleads_dict`,
`make_tleads_array`, `LeadsTunneling.__init__/add/change` (qmeq/leadstun.py) and
`make_velph_dict`, `PhononBaths.__init__/add/change` (qmeq/baths.py).

Simplifications: labels are natural numbers, values exact complex numbers. The argument `nss` is
`some si.nsingle_sym` when `si.symmetry` is `'spin'` and `none` otherwise. The chemical
potentials, temperatures and bandwidths are not part of these objects. `hamlst[charge][szind]`
(`hamlst[charge]` for the indexings without spin, `szind = 0`) is a function of `(charge, szind)`,
`None` where nothing was stored. Objects are values, so an argument is never the same object as
a stored dictionary; `QD.addOwnHsingle` models that case separately. `valslst`, `vecslst`, `Ea`
are in other parts of the model.
-/

namespace Verif

noncomputable section

/-- An argument `hsingle`, `tleads` (`κ` are the pairs of labels) or `velph` (triples): a
dictionary, a list of rows, an array (of the right number of dimensions) or another type. -/
inductive Param (κ : Type) where
  | dict (d : Dict κ ℂ)
  | list (rows : List (κ × ℂ))
  | array (shape : List Nat) (val : κ → ℂ)
  | other

/-- `lst_dict.update({key: value})` for the rows of a list. -/
def rowsDict {κ : Type} [DecidableEq κ] (rows : List (κ × ℂ)) : Dict κ ℂ :=
  rows.foldl (fun d e => d.set e.1 e.2) []

open Classical in
/-- The entries of an array at `keys`, in this order; zeros only with `add_zeros`. -/
def arrayDict {κ : Type} [DecidableEq κ] (keys : List κ) (val : κ → ℂ) (addZeros : Bool) :
    Dict κ ℂ :=
  keys.foldl (fun d k => if val k ≠ 0 ∨ addZeros = true then d.set k (val k) else d) []

/-- qdot.py:602-609, the labels visited in an array: the upper triangle when `herm_hs`. -/
def hsingleKeys (hermHs : Bool) : List Nat → List (Nat × Nat)
  | n :: _ => (List.range n).flatMap fun j1 =>
      ((List.range n).filter fun j2 => (if hermHs then j1 else 0) ≤ j2).map fun j2 => (j1, j2)
  | [] => []

/-- qdot.py:614-622 and leadstun.py:280-287: the entries of the second spin species. -/
def spinDict {κ : Type} [DecidableEq κ] (shift : κ → κ) (d : Dict κ ℂ) : Dict κ ℂ :=
  d.foldl (fun s e => s.set (shift e.1) e.2) d

/-- qdot.py:576-624 `make_hsingle_dict`. -/
def makeHsingleDict (nss : Option Nat) (hermHs : Bool) (hsingle : Param (Nat × Nat))
    (addZeros : Bool) : Dict (Nat × Nat) ℂ :=
  let fin := fun (d : Dict (Nat × Nat) ℂ) => match nss with
    | some m => spinDict (fun k => (k.1 + m, k.2 + m)) d
    | none => d
  match hsingle with
  | .dict d => fin d
  | .list rows => fin (rowsDict rows)
  | .array shape val => fin (arrayDict (hsingleKeys hermHs shape) val addZeros)
  | .other => []

/-- An argument `coulomb`: a dictionary, a list or array of rows, or another type. -/
inductive CoulombArg where
  | dict (d : Dict (Nat × Nat × Nat × Nat) ℂ)
  | list (rows : List ((Nat × Nat × Nat × Nat) × ℂ))
  | other

/-- qdot.py:660-674, one pass of the loop over the entries with `symmetry='spin'`. -/
def coulombSpinStep (m0 : Nat) (hermC mLessN : Bool) (s : Dict (Nat × Nat × Nat × Nat) ℂ)
    (e : (Nat × Nat × Nat × Nat) × ℂ) : Dict (Nat × Nat × Nat × Nat) ℂ :=
  let m := e.1.1
  let n := e.1.2.1
  let k := e.1.2.2.1
  let l := e.1.2.2.2
  let U := e.2
  let s := if hermC = false ∨ s.get? (l, k + m0, n + m0, m) = none then
      s.set (m, n + m0, k + m0, l) U else s
  let s := if mLessN then
      (if hermC = false ∨ s.get? (k, l + m0, m + m0, n) = none then
        s.set (n, m + m0, l + m0, k) U else s)
    else s.set (m + m0, n, k, l + m0) U
  s.set (m + m0, n + m0, k + m0, l + m0) U

open Classical in
/-- qdot.py:627-677 `make_coulomb_dict`. -/
def makeCoulombDict (nss : Option Nat) (hermC mLessN : Bool) (coulomb : CoulombArg) :
    Dict (Nat × Nat × Nat × Nat) ℂ :=
  let fin := fun (d : Dict (Nat × Nat × Nat × Nat) ℂ) => match nss with
    | some m0 => d.foldl (coulombSpinStep m0 hermC mLessN) d
    | none => d
  match coulomb with
  | .dict d => fin d
  | .list rows => fin (rows.foldl (fun d e => if e.2 ≠ 0 then d.set e.1 e.2 else d) [])
  | .other => []

/-- qdot.py:782-791, leadstun.py:474-478, baths.py:252-256: one pass of the loop of `add`, entry
`e` of the given dictionary, changing the stored dictionary `d`. -/
def dictAddStep {κ : Type} [DecidableEq κ] (d : Dict κ ℂ) (e : κ × ℂ) : Dict κ ℂ :=
  match d.get? e.1 with
  | some v => d.set e.1 (v + e.2)
  | none => d.set e.1 e.2

/-- The loop of `add` over the given dictionary `new`, changing the stored dictionary `d`. -/
def dictAdd {κ : Type} [DecidableEq κ] (d new : Dict κ ℂ) : Dict κ ℂ := new.foldl dictAddStep d

open Classical in
/-- qdot.py:846-871, leadstun.py:506-517, baths.py:283-294: one pass of the loop of `change`, entry
`e` of the given dictionary; the stored dictionary and the dictionary of differences. -/
def dictChangeStep {κ : Type} [DecidableEq κ] (p : Dict κ ℂ × Dict κ ℂ) (e : κ × ℂ) :
    Dict κ ℂ × Dict κ ℂ :=
  match p.1.get? e.1 with
  | some v => if e.2 - v ≠ 0 then (p.1.set e.1 (v + (e.2 - v)), p.2.set e.1 (e.2 - v)) else p
  | none => if e.2 ≠ 0 then (p.1.set e.1 e.2, p.2.set e.1 e.2) else p

/-- The loop of `change` over the given dictionary `new`. -/
def dictChange {κ : Type} [DecidableEq κ] (d new : Dict κ ℂ) : Dict κ ℂ × Dict κ ℂ :=
  new.foldl dictChangeStep (d, [])

/-- qdot.py:680-759, the attributes of `QuantumDot` that `add` and `change` use. -/
structure QD where
  si : SI
  nss : Option Nat
  hermHs : Bool
  hermC : Bool
  mLessN : Bool
  hamSsqQ : Bool
  hsingle : Dict (Nat × Nat) ℂ
  coulomb : Dict (Nat × Nat × Nat × Nat) ℂ
  hamlst : Nat → Int → Option Arr

/-- qdot.py:793-819, the blocks visited by `add`: charge, the spin projection passed to
`get_lst`, and the position in `hamlst[charge]`. -/
def hamSectors (si : SI) (hamSsqQ : Bool) : List (Nat × Option Int × Int) :=
  (List.range si.ncharge).flatMap fun (charge : Nat) =>
    match si.indexing with
    | .sz => (szrange charge si.nsingle).map fun sz =>
        (charge, some sz, szToInd sz charge si.nsingle)
    | .ssq => (if hamSsqQ then szrange charge si.nsingle else [-((charge % 2 : Nat) : Int)]).map
        fun sz => (charge, some sz, szToInd sz charge si.nsingle)
    | _ => [(charge, none, 0)]

/-- qdot.py:793-819 (for example 799-802), the new block of the Hamiltonian. -/
def QD.hamBlock (qd : QD) (hs : Dict (Nat × Nat) ℂ) (cs : Dict (Nat × Nat × Nat × Nat) ℂ)
    (charge : Nat) (sz : Option Int) (old : Option Arr) : Py Arr := do
  let r ← qd.si.getLst (some charge) sz none
  match r with
  | none => .error .type
  | some lst => do
    let ham ← constructHamCoulomb qd.si qd.hermC qd.mLessN cs lst old
    constructHamHopping qd.si qd.hermHs hs lst (some ham)

/-- `self.hamlst[charge][szind] = ham`. -/
def QD.setBlock (qd : QD) (charge : Nat) (szind : Int) (ham : Arr) : QD :=
  { qd with hamlst := fun c i => if c = charge ∧ i = szind then some ham else qd.hamlst c i }

/-- qdot.py:793-819, the second part of `QuantumDot.add`; all of it when `updateq=False`. -/
def QD.addHam (qd : QD) (hs : Dict (Nat × Nat) ℂ) (cs : Dict (Nat × Nat × Nat × Nat) ℂ) :
    Py QD :=
  (hamSectors qd.si qd.hamSsqQ).foldlM (fun qd b => do
    let ham ← qd.hamBlock hs cs b.1 b.2.1 (qd.hamlst b.1 b.2.2)
    pure (qd.setBlock b.1 b.2.2 ham)) qd

/-- qdot.py:761-819 `QuantumDot.add` with `updateq=True`; a missing argument is `.other`
(`make_hsingle_dict` and `make_coulomb_dict` give `{}` for it). -/
def QD.add (qd : QD) (hsingle : Param (Nat × Nat)) (coulomb : CoulombArg) : Py QD :=
  let hs := makeHsingleDict qd.nss qd.hermHs hsingle false
  let cs := makeCoulombDict qd.nss qd.hermC qd.mLessN coulomb
  QD.addHam { qd with hsingle := dictAdd qd.hsingle hs, coulomb := dictAdd qd.coulomb cs } hs cs

/-- qdot.py:821-873 `QuantumDot.change` with `updateq=True`. -/
def QD.change (qd : QD) (hsingle : Param (Nat × Nat)) (coulomb : CoulombArg) : Py QD :=
  let hs := dictChange qd.hsingle (makeHsingleDict qd.nss qd.hermHs hsingle true)
  let cs := dictChange qd.coulomb (makeCoulombDict qd.nss qd.hermC qd.mLessN coulomb)
  QD.addHam { qd with hsingle := hs.1, coulomb := cs.1 } hs.2 cs.2

/-- qdot.py:729-759 `QuantumDot.__init__`. -/
def QD.init (si : SI) (nss : Option Nat) (hermHs hermC mLessN hamSsqQ : Bool)
    (hsingle : Param (Nat × Nat)) (coulomb : CoulombArg) : Py QD :=
  let hs := makeHsingleDict nss hermHs hsingle false
  let cs := makeCoulombDict nss hermC mLessN coulomb
  QD.addHam { si, nss, hermHs, hermC, mLessN, hamSsqQ, hsingle := hs, coulomb := cs,
              hamlst := fun _ _ => none } hs cs

/-- qdot.py:761-819 `qd.add(hsingle=qd.hsingle)` without the symmetry `'spin'`:
`make_hsingle_dict` returns the same dictionary object, so `self.hsingle[j0] += hsingle[j0]`
(qdot.py:784) doubles the values of the dictionary that is afterwards used as the
difference. -/
def QD.addOwnHsingle (qd : QD) : Py QD :=
  let hs := qd.hsingle.map fun e => (e.1, e.2 + e.2)
  QD.addHam { qd with hsingle := hs } hs []

/-- leadstun.py:396-441, the attributes of `LeadsTunneling` that `add` and `change` of `tleads`
use; `sym` is `some (si.nleads_sym, si.nsingle_sym)` with the symmetry `'spin'`. -/
structure LeadsTun where
  si : SI
  nleads : Nat
  sym : Option (Nat × Nat)
  tleads : Dict (Nat × Nat) ℂ
  tleadsArray : Arr
  tba0 : Arr

/-- leadstun.py:271-277, the labels visited in an array of shape `(nleads, nsingle)`. -/
def pairKeys : List Nat → List (Nat × Nat)
  | a :: b :: _ => (List.range a).flatMap fun j1 => (List.range b).map fun j2 => (j1, j2)
  | _ => []

/-- leadstun.py:252-290 `make_tleads_dict`. -/
def makeTleadsDict (sym : Option (Nat × Nat)) (tleads : Param (Nat × Nat)) (addZeros : Bool) :
    Dict (Nat × Nat) ℂ :=
  let fin := fun (d : Dict (Nat × Nat) ℂ) => match sym with
    | some m => spinDict (fun k => (k.1 + m.1, k.2 + m.2)) d
    | none => d
  match tleads with
  | .dict d => fin d
  | .list rows => fin (rowsDict rows)
  | .array shape val => fin (arrayDict (pairKeys shape) val addZeros)
  | .other => []

/-- `a[ix] = x`. -/
def Arr.put (a : Arr) (ix : List Nat) (x : ℂ) : Py Arr :=
  if List.Forall₂ (· < ·) ix a.dims then
    .ok { a with val := Function.update a.val ix x }
  else .error .index

/-- leadstun.py:292-313 `make_tleads_array`. -/
def makeTleadsArray (nleads nsingle : Nat) (tleads : Dict (Nat × Nat) ℂ) : Py Arr :=
  tleads.foldlM (fun a e => a.put [e.1.1, e.1.2] e.2) (Arr.zeros [nleads, nsingle])

/-- leadstun.py:426-445 `LeadsTunneling.__init__`. -/
def LeadsTun.init (si : SI) (nleads : Nat) (sym : Option (Nat × Nat)) (tleads : Param (Nat × Nat)) :
    Py LeadsTun := do
  let d := makeTleadsDict sym tleads false
  let arr ← makeTleadsArray nleads si.nsingle d
  let tba0 ← constructTba si nleads d none
  pure { si, nleads, sym, tleads := d, tleadsArray := arr, tba0 }

/-- leadstun.py:447-480 `LeadsTunneling.add` of `tleads` with `updateq=True`. -/
def LeadsTun.add (l : LeadsTun) (tleads : Param (Nat × Nat)) : Py LeadsTun := do
  let d := makeTleadsDict l.sym tleads false
  let stored := dictAdd l.tleads d
  let arr ← makeTleadsArray l.nleads l.si.nsingle stored
  let tba0 ← constructTba l.si l.nleads d (some l.tba0)
  pure { l with tleads := stored, tleadsArray := arr, tba0 }

/-- leadstun.py:482-519 `LeadsTunneling.change` of `tleads`. -/
def LeadsTun.change (l : LeadsTun) (tleads : Param (Nat × Nat)) : Py LeadsTun := do
  let r := dictChange l.tleads (makeTleadsDict l.sym tleads true)
  let tba0 ← constructTba l.si l.nleads r.2 (some l.tba0)
  pure { l with tleads := r.1, tba0 }

/-- baths.py:180-224, the attributes of `PhononBaths` that `add` and `change` of `velph` use. -/
structure Baths where
  si : SI
  nbaths : Nat
  nss : Option Nat
  velph : Dict (Nat × Nat × Nat) ℂ
  vbbp0 : Arr

/-- baths.py:157-164, the labels visited in an array of shape `(nbaths, nsingle1, nsingle2)`. -/
def tripleKeys : List Nat → List (Nat × Nat × Nat)
  | a :: b :: c :: _ => (List.range a).flatMap fun j1 => (List.range b).flatMap fun j2 =>
      (List.range c).map fun j3 => (j1, j2, j3)
  | _ => []

/-- baths.py:132-177 `make_velph_dict`. -/
def makeVelphDict (nss : Option Nat) (velph : Param (Nat × Nat × Nat)) (addZeros : Bool) :
    Dict (Nat × Nat × Nat) ℂ :=
  let fin := fun (d : Dict (Nat × Nat × Nat) ℂ) => match nss with
    | some m => spinDict (fun k => (k.1, k.2.1 + m, k.2.2 + m)) d
    | none => d
  match velph with
  | .dict d => fin d
  | .list rows => fin (rowsDict rows)
  | .array shape val => fin (arrayDict (tripleKeys shape) val addZeros)
  | .other => []

/-- baths.py:208-227 `PhononBaths.__init__`. -/
def Baths.init (si : SI) (nbaths : Nat) (nss : Option Nat) (velph : Param (Nat × Nat × Nat)) :
    Py Baths := do
  let d := makeVelphDict nss velph false
  let vbbp0 ← constructVbbp si nbaths d none
  pure { si, nbaths, nss, velph := d, vbbp0 }

/-- baths.py:229-257 `PhononBaths.add` of `velph` with `updateq=True`. -/
def Baths.add (b : Baths) (velph : Param (Nat × Nat × Nat)) : Py Baths := do
  let d := makeVelphDict b.nss velph false
  let vbbp0 ← constructVbbp b.si b.nbaths d (some b.vbbp0)
  pure { b with velph := dictAdd b.velph d, vbbp0 }

/-- baths.py:259-296 `PhononBaths.change` of `velph`. -/
def Baths.change (b : Baths) (velph : Param (Nat × Nat × Nat)) : Py Baths := do
  let r := dictChange b.velph (makeVelphDict b.nss velph true)
  let vbbp0 ← constructVbbp b.si b.nbaths r.2 (some b.vbbp0)
  pure { b with velph := r.1, vbbp0 }

end

end Verif
