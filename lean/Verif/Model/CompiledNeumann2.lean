import Verif.Model.Neumann2Terms
import Verif.Model.Compiled

/-!
Model of the compiled 2vN approach: `qmeq/approach/base/c_neumann2.pyx`. The class inherits everything else from the Python
class (`Verif.Model.Neumann2`). The loops are not parallel.

The file is compiled with `boundscheck=False`, `wraparound=False` and `cdivision=True` (lines 1-7): an index outside of an array is
an error of the model (`PyErr.index`), see `Verif.Model.Compiled`; so is the conversion of an infinite or undefined number to an
integer (`PyErr.value`).

Simplifications: those of `Verif.Model.Compiled` and `Verif.Model.Neumann2Terms`. The arrays of the attributes are lists or total
functions as in `Verif.Model.Neumann2Terms`; of `VN2.Terms` only the arrays are used, not the indexing object. The increments of
`kern1` and of `kern0` for one element are collected before they are added. The literal for `pi` is the number. An exception within
`phi1k_local` (`np.linalg.inv`) is propagated, as in Cython 3; older versions print it and go on. After a change of the considered
states without `restart` the arrays kept from before have other sizes; this is not modelled, as in the Python version.
-/

namespace Verif

noncomputable section

namespace CVN2

open VN2

/-! ### Interpolation -/

open Classical in
/-- The positions used for the interpolation at `Ek`, `none` outside of the window: c_neumann2.pyx:378-386, 411-421. -/
def window (grid : List ℝ) (Ek : ℝ) : Py (Option (Int × Int)) := do
  let g0 ← cGet grid 0
  let gl ← cGet grid ((grid.length : Int) - 1)
  if Ek < g0 ∨ gl < Ek then pure none
  else do
    let g1 ← cGet grid 1
    if g1 - g0 = 0 then .error .value
    else
      let b := pyInt ((Ek - g0) / (g1 - g0)) + 1
      let b := if b = grid.length then b - 1 else b
      pure (some (b - 1, b))

/-- `Ek/(b-a)*(fb-fa) + 1/(b-a)*(b*fa-a*fb)`: c_neumann2.pyx:390, 429, 437. -/
def line (a b : ℝ) (fa fb : ℂ) (Ek : ℝ) : ℂ := Ek / (b - a) * (fb - fa) + 1 / (b - a) * (b * fa - a * fb)

/-- `func_2vN`: c_neumann2.pyx:368-392. `plus` is `eta == 1`. -/
def fn (s : Terms) (hfk : List (List ℂ)) (Ek : ℝ) (l : Nat) (plus : Bool) : Py ℂ := do
  match ← window s.ext.grid Ek with
  | none => pure 0
  | some (ai, bi) => do
    let b ← cGet s.ext.grid bi
    let a ← cGet s.ext.grid ai
    let h ← cGet hfk (l : Nat)
    let fb ← cGet h bi
    let fa ← cGet h ai
    let rez := line a b fa fb Ek
    pure (if plus then Real.pi * rez else Real.pi * (starRingEnd ℂ) rez)

/-- The increments of `term` made by one call of `get_at_k1`: c_neumann2.pyx:394-440. `plus` is `eta == 1`. -/
def at1 (kh : CKH) (s : Terms) (o : Old) (Ek : ℝ) (l : Nat) (cb : Nat) (cj : Bool) (fct : ℂ) (plus : Bool) : Py (Nat → ℂ) := do
  match ← window s.ext.grid Ek with
  | none => pure fun _ => 0
  | some (ai, bi) => do
    let b ← cGet s.ext.grid bi
    let a ← cGet s.ext.grid ai
    let r ← (List.range kh.ndm0).mapM fun j => do
      let p ← kh.rd o.phi l cb
      let fa ← cGet (p j) ai
      let fb ← cGet (p j) bi
      let u := line a b fa fb Ek
      let u := if cj then (starRingEnd ℂ) u else u
      let p ← kh.rd o.hphi l cb
      let fa ← cGet (p j) ai
      let fb ← cGet (p j) bi
      let hu := line a b fa fb Ek
      let hu := if cj then (starRingEnd ℂ) hu else hu
      pure (Real.pi * fct * (hu + (if plus then 1 else -1) * Complex.I * u))
    pure fun j => r.getD j 0

/-! ### The equations -/

/-- `fk[l, ind]`. -/
def fermi (s : Terms) (l : Nat) (ind : Int) : Py ℂ := do
  let f ← cGet s.fkp (l : Nat)
  cGet f ind

/-- The increments of `kern0` for the element `(c, b)`: c_neumann2.pyx:172-180. -/
def src (kh : CKH) (s : Terms) (l : Nat) (fp fm : ℂ) (charge : Int) (c b : Nat) : Py (List Ent) := do
  let sb ← kh.same charge
  let sc ← kh.upper (charge + 1)
  let cb ← kh.ind1 c b charge
  let x ← collect sb fun b1 => do
    let b1b ← kh.ind0 b1 b charge
    pure [⟨cb, b1b, fp * s.T l c b1⟩]
  let y ← collect sc fun c1 => do
    let cc1 ← kh.ind0 c c1 (charge + 1)
    pure [⟨cb, cc1, -(fm * s.T l c1 b)⟩]
  pure (x ++ y)

/-- The increments of `kern1` for the element `(c, b)`: c_neumann2.pyx:164-171, 182-228. -/
def loc (kh : CKH) (s : Terms) (Ek : ℝ) (charge : Int) (c b : Nat) : Py (List Ent) := do
  let leads := List.range kh.nleads
  let E := s.E
  let T := s.T
  let sa ← kh.lower (charge - 1)
  let sb ← kh.same charge
  let sc ← kh.upper (charge + 1)
  let sd ← kh.upper (charge + 2)
  let cb ← kh.ind1 c b charge
  -- 2nd and 7th terms
  let t27 ← collect sb fun b1 => collect sa fun a1 => do
    let b1a1 ← kh.ind1 b1 a1 (charge - 1)
    collect leads fun l1 => do
      let x ← fn s s.hfkp (Ek - E b1 + E b) l1 true
      let y ← fn s s.hfkp (-(Ek - E c + E a1)) l1 false
      pure [(⟨cb, b1a1, -(T l1 c b1 * T l1 a1 b * (x - y))⟩ : Ent)]
  -- 6th and 8th terms
  let t68 ← collect sb fun b1 => do
    let cb1 ← kh.ind1 c b1 charge
    collect leads fun l1 => do
      let p ← collect sc fun c1 => do
        let x ← fn s s.hfkp (Ek - E c + E c1) l1 true
        pure [(⟨cb, cb1, -(T l1 b1 c1 * T l1 c1 b * x)⟩ : Ent)]
      let q ← collect sa fun a1 => do
        let x ← fn s s.hfkm (-(Ek - E c + E a1)) l1 false
        pure [(⟨cb, cb1, T l1 b1 a1 * T l1 a1 b * x⟩ : Ent)]
      pure (p ++ q)
  -- 1st and 3rd terms
  let t13 ← collect sc fun c1 => do
    let c1b ← kh.ind1 c1 b charge
    collect leads fun l1 => do
      let p ← collect sb fun b1 => do
        let x ← fn s s.hfkm (Ek - E b1 + E b) l1 true
        pure [(⟨cb, c1b, -(T l1 c b1 * T l1 b1 c1 * x)⟩ : Ent)]
      let q ← collect sd fun d1 => do
        let x ← fn s s.hfkp (-(Ek - E d1 + E b)) l1 false
        pure [(⟨cb, c1b, T l1 c d1 * T l1 d1 c1 * x⟩ : Ent)]
      pure (p ++ q)
  -- 4th and 5th terms
  let t45 ← collect sd fun d1 => collect sc fun c1 => do
    let d1c1 ← kh.ind1 d1 c1 (charge + 1)
    collect leads fun l1 => do
      let x ← fn s s.hfkm (Ek - E c + E c1) l1 true
      let y ← fn s s.hfkm (-(Ek - E d1 + E b)) l1 false
      pure [(⟨cb, d1c1, -(T l1 c d1 * T l1 c1 b * (x - y))⟩ : Ent)]
  pure (⟨cb, cb, ((Ek - E c + E b : ℝ) : ℂ)⟩ :: (t27 ++ t68 ++ t13 ++ t45))

/-- `kern[i, j] = kern[i, j] + z`. -/
def cadd (m : CMat) (i j : Int) (z : ℂ) : Py CMat := do
  let r ← cIdx m.rows i
  let c ← cIdx m.cols j
  pure { m with val := fun a b => if a = r ∧ b = c then m.val a b + z else m.val a b }

/-- The increments in turn. -/
def addEnts (m : CMat) (l : List Ent) : Py CMat := l.foldlM (fun m e => cadd m e.i e.j e.x) m

/-- The matrices `kern1`, `kern0` of `phi1k_local` before the inversion: c_neumann2.pyx:143-228. -/
def localKern (kh : CKH) (s : Terms) (k l : Nat) : Py (CMat × CMat) := do
  let ind : Int := (k : Int) + s.ext.left
  let Ek ← cGet s.ext.grid ind
  let fp ← fermi s l ind
  (List.range kh.ndm1).foldlM (fun m (i : Nat) => do
    let (c, b, charge) ← cGet kh.allBa (i : Nat)
    let e1 ← loc kh s Ek (charge : Nat) c b
    let e0 ← src kh s l fp (1 - fp) (charge : Nat) c b
    let kern1 ← addEnts m.1 e1
    let kern0 ← addEnts m.2 e0
    pure (kern1, kern0)) (CMat.zeros kh.ndm1 kh.ndm1, CMat.zeros kh.ndm1 kh.ndm0)

/-- `phi1k_local(k, l)`: c_neumann2.pyx:121-234. The values stored in `phi1k_delta[k, l]` and `kern1k_inv[k, l]`. -/
def phi1kLocal (kh : CKH) (s : Terms) (inv : CMat → Option CMat) (k l : Nat) : Py (CMat × CMat) := do
  let m ← localKern kh s k l
  match inv m.1 with
  | none => .error .value
  | some i => do
    let d ← i.mul m.2
    pure (d, i)

/-- The increments of `term` for the element `(c, b)`: c_neumann2.pyx:279-359. -/
def itr (kh : CKH) (s : Terms) (o : Old) (Ek : ℝ) (l : Nat) (fp fm : ℂ) (charge : Int) (c b : Nat) :
    Py (List (Nat → ℂ)) := do
  let leads := List.range kh.nleads
  let E := s.E
  let T := s.T
  let sa ← kh.lower (charge - 1)
  let sb ← kh.same charge
  let sc ← kh.upper (charge + 1)
  let sd ← kh.upper (charge + 2)
  -- 1st term
  let t1 ← collect sa fun a1 => do
    let ba1 ← kh.ind1 b a1 (charge - 1)
    collect sb fun b1 => collect leads fun l1 => do
      let r ← at1 kh s o (Ek - E b1 + E b) l1 ba1 true (-fp * T l1 c b1 * T l b1 a1) false
      pure [r]
  -- 2nd and 5th terms
  let t25 ← collect sb fun b1 => collect sc fun c1 => do
    let c1b1 ← kh.ind1 c1 b1 charge
    collect leads fun l1 => do
      let r ← at1 kh s o (Ek - E b1 + E b) l1 c1b1 true (-fm * T l1 c b1 * T l c1 b) false
      let r' ← at1 kh s o (Ek - E c + E c1) l1 c1b1 true (-fp * T l c b1 * T l1 c1 b) false
      pure [r, r']
  -- 3rd term
  let t3 ← collect sc fun c1 => do
    let c1b ← kh.ind1 c1 b charge
    collect sd fun d1 => collect leads fun l1 => do
      let r ← at1 kh s o (-(Ek - E d1 + E b)) l1 c1b false (fp * T l1 c d1 * T l d1 c1) true
      pure [r]
  -- 4th term
  let t4 ← collect sd fun d1 => collect sc fun c1 => do
    let d1c1 ← kh.ind1 d1 c1 (charge + 1)
    collect leads fun l1 => do
      let r ← at1 kh s o (-(Ek - E d1 + E b)) l1 d1c1 false (fm * T l1 c d1 * T l c1 b) true
      pure [r]
  -- 6th term
  let t6 ← collect sd fun d1 => do
    let d1c ← kh.ind1 d1 c (charge + 1)
    collect sc fun c1 => collect leads fun l1 => do
      let r ← at1 kh s o (Ek - E c + E c1) l1 d1c true (-fm * T l d1 c1 * T l1 c1 b) false
      pure [r]
  -- 7th term
  let t7 ← collect sb fun b1 => collect sa fun a1 => do
    let b1a1 ← kh.ind1 b1 a1 (charge - 1)
    collect leads fun l1 => do
      let r ← at1 kh s o (-(Ek - E c + E a1)) l1 b1a1 false (fp * T l c b1 * T l1 a1 b) true
      pure [r]
  -- 8th term
  let t8 ← collect sb fun b1 => do
    let cb1 ← kh.ind1 c b1 charge
    collect sa fun a1 => collect leads fun l1 => do
      let r ← at1 kh s o (-(Ek - E c + E a1)) l1 cb1 false (fm * T l b1 a1 * T l1 a1 b) true
      pure [r]
  pure (t1 ++ t25 ++ t3 ++ t4 ++ t6 ++ t7 ++ t8)

/-- `kern0[cb, bbp] = term[bbp]` for all columns: c_neumann2.pyx:361-362. -/
def csetRow (m : CMat) (i : Int) (x : Nat → ℂ) : Py CMat := do
  let r ← cIdx m.rows i
  pure ⟨m.rows, m.cols, fun r' c' => if r' = r then x c' else m.val r' c'⟩

/-- The matrix `kern0` of `phi1k_iterate` before the product: c_neumann2.pyx:259-363. The second component of the state is `term`,
which is set to zero after each element. -/
def iterKern (kh : CKH) (s : Terms) (o : Old) (k l : Nat) : Py CMat := do
  let ind : Int := (k : Int) + s.ext.left
  let Ek ← cGet s.ext.grid ind
  let fp ← fermi s l ind
  let r ← (List.range kh.ndm1).foldlM (fun (x : CMat × (Nat → ℂ)) (i : Nat) => do
    let (c, b, charge) ← cGet kh.allBa (i : Nat)
    let cb ← kh.ind1 c b (charge : Nat)
    let t ← itr kh s o Ek l fp (1 - fp) (charge : Nat) c b
    let term : Nat → ℂ := fun j => x.2 j + (t.map fun f => f j).sum
    let m ← csetRow x.1 (cb : Nat) term
    pure (m, fun _ => (0 : ℂ))) (CMat.zeros kh.ndm1 kh.ndm0, fun _ => 0)
  pure r.1

/-- `phi1k_iterate(k, l)`: c_neumann2.pyx:236-366. The values stored in `phi1k_delta[k, l]`. -/
def phi1kIterate (kh : CKH) (s : Terms) (kern1Inv : CMat) (o : Old) (k l : Nat) : Py CMat := do
  let m ← iterKern kh s o k l
  kern1Inv.mul m

/-- A loop over grid points and leads that stores a matrix for each: c_neumann2.pyx:87-89, 98-100. -/
def table {β : Type} (kh : CKH) (len : Nat) (f : Nat → Nat → Py β) (z : β) : Py (Nat → Nat → β) := do
  let r ← (List.range len).mapM fun k => (List.range kh.nleads).mapM fun l => f k l
  pure fun k l => (r.getD k []).getD l z

/-- `iterate` when `is_zeroth_iteration`: c_neumann2.pyx:85-91. -/
def zeroth (kh : CKH) (s : Terms) (inv : CMat → Option CMat) (len : Nat) : Py (C4 × C4) := do
  let z := CMat.zeros kh.ndm1 kh.ndm0
  let t ← table kh len (phi1kLocal kh s inv) (z, CMat.zeros kh.ndm1 kh.ndm1)
  pure (fun k l => (t k l).1.val, fun k l => (t k l).2.val)

/-- `iterate` otherwise: c_neumann2.pyx:92-100. `get_htransf_phi1k` is the Python function, applied to the array `phi1k_delta`. -/
def next (kh : CKH) (s : Terms) (p : HtPars) (len : Nat) (delta i1 : C4) : Py (C4 × HtPars) := do
  let ((phi, hphi), p) ← getHtransfPhi1k len (s.flat len delta) p
  let o : Old := ⟨s.unflat phi, s.unflat hphi⟩
  let t ← table kh len (fun k l => phi1kIterate kh s ⟨kh.ndm1, kh.ndm1, i1 k l⟩ o k l) (CMat.zeros kh.ndm1 kh.ndm0)
  pure (fun k l => (t k l).val, p)

/-- The numerical routines with the compiled `iterate`; cf. `VN2.Num.of`. -/
def num (kh : CKH) (inv : CMat → Option CMat) (solve lstsq : CMat → CVec → Option CVec) : Num where
  loc y grid ext := do
    let (s, _) ← y.terms grid ext
    zeroth kh s inv grid.length
  itr y grid ext delta i1 := do
    let (s, p) ← y.terms grid ext
    let (d, _) ← next kh s p grid.length delta i1
    pure d
  solve := solve
  lstsq := lstsq

/-! ### Iterations -/

/-- The weight `dx` of a grid point: c_neumann2.pyx:61-67. -/
def dx (grid : List ℝ) (i : Nat) : Py ℝ :=
  if i = 0 then do
    let a ← cGet grid ((i : Int) + 1)
    let b ← cGet grid i
    pure (a - b)
  else if i = grid.length - 1 then do
    let a ← cGet grid i
    let b ← cGet grid ((i : Int) - 1)
    pure (a - b)
  else do
    let a ← cGet grid ((i : Int) + 1)
    let b ← cGet grid ((i : Int) - 1)
    pure (a - b)

/-- `determine_phi1_phi0`: c_neumann2.pyx:49-69. -/
def phi1Phi0 (grid : List ℝ) (phi1k : C4) (PQ : C3 × C3) : Py (C3 × C3) :=
  (List.range grid.length).foldlM (fun PQ i => do
    let w ← dx grid i
    let e ← cGet grid (i : Nat)
    pure (fun l cb j => PQ.1 l cb j + 0.5 * w * phi1k i l cb j,
      fun l cb j => PQ.2 l cb j + 0.5 * w * e * phi1k i l cb j)) PQ

/-- The lines from `phi1k += phi1k_delta` to `niter += 1` (aprclass.py:564-566) with the compiled integration. -/
def integrate (s : St) : Py St := do
  let p ← attr s.phi1k
  let d ← attr s.delta
  let a ← attr s.arrs
  let p' : C4 := fun k l cb j => p k l cb j + d k l cb j
  let r ← phi1Phi0 s.grid p' (a.pp, a.epp)
  pure { s with phi1k := some p', arrs := some { a with pp := r.1, epp := r.2 }, niter := s.niter + 1 }

/-- `prepare_kern` (aprclass.py:140-150) with the compiled handler (c_neumann2.pyx:42-43): in matrix-free mode it has no
`set_dphi0_dt` (aprclass.py:172-174). -/
def prepareKern (s : St) : Py St :=
  if s.prepared && !s.changed then s.cleanArrays
  else if s.opts.mfreeq then .error .attribute
  else do
    let s ← s.prepareArrays
    pure { s with opts := s.opts.prepareSolver, changed := false, prepared := true }

/-- The steps of `iteration`, cf. `VN2.steps`. -/
def steps (kh : CKH) (inv : CMat → Option CMat) (solve lstsq : CMat → CVec → Option CVec) : List (St → Py St) :=
  [fun s => if s.zeroth then s.makeGrid else pure s, fun s => if s.zeroth then s.extend else pure s, prepareKern,
    St.iterate (num kh inv solve lstsq), integrate, St.genKern, St.solveKern (num kh inv solve lstsq), St.genCurrent, St.record]

/-- `iteration`. -/
def iteration (kh : CKH) (inv : CMat → Option CMat) (solve lstsq : CMat → CVec → Option CVec) (r : St × Option PyErr) :
    St × Option PyErr :=
  (steps kh inv solve lstsq).foldl (fun r f => step f r) r

/-- `solve` (aprclass.py:574-612) of the compiled object; `kh` is the handler of the present indexing object. -/
def solve (kh : CKH) (inv : CMat → Option CMat) (lsolve lstsq : CMat → CVec → Option CVec) (restartq : Bool) (niter : Option Nat)
    (s : St) : St × Option PyErr :=
  let s := if restartq then s.restart else s
  match niter with
  | none => (s, some .value)
  | some n => (iteration kh inv lsolve lstsq)^[n] (s, none)

end CVN2

end

end Verif
