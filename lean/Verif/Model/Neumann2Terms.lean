import Verif.Model.Hilbert

/-!
Model of the equations for `Phi[1](k)` of the 2vN approach: `qmeq/approach/base/neumann2.py`, lines 376-631, with
`np.linalg.inv` as a parameter.
-/

namespace Verif

noncomputable section

namespace VN2

/-- The attributes of `TermsCalculator2vN`: neumann2.py:376-393. `fkp`, `hfkp`, `hfkm` have one list over the extended grid
for each lead. -/
structure Terms where
  v : View
  E : Nat → ℝ
  T : Nat → Nat → Nat → ℂ
  ext : Ext
  fkp : List (List ℂ)
  hfkp : List (List ℂ)
  hfkm : List (List ℂ)

/-- `kern[i, j] += z`. -/
def CMat.add (m : CMat) (i j : Int) (z : ℂ) : Py CMat := do
  let r ← pyIdx m.rows i
  let c ← pyIdx m.cols j
  pure { m with val := fun a b => if a = r ∧ b = c then m.val a b + z else m.val a b }

/-- `np.dot(a, b)` for matrices; a `ValueError` if the sizes do not match. -/
def CMat.mul (a b : CMat) : Py CMat :=
  if a.cols = b.rows then pure ⟨a.rows, b.cols, fun i j => ∑ k ∈ Finset.range a.cols, a.val i k * b.val k j⟩
  else .error .value

/-- An increment of an entry of a matrix. -/
structure Ent where
  i : Int
  j : Int
  x : ℂ

/-- The increments in turn. -/
def addEnts (m : CMat) (l : List Ent) : Py CMat := l.foldlM (fun m e => m.add e.i e.j e.x) m

/-- `func_2vN(Ek, l, eta, hfk)`: neumann2.py:633-666. The row of the lead is read before the window is checked. -/
def Terms.fn (s : Terms) (hfk : List (List ℂ)) (Ek : ℝ) (l : Nat) (plus : Bool) : Py ℂ := do
  let h ← pyGet hfk l
  func2vN s.ext.grid h Ek plus

/-- `fk[l, ind]`. -/
def Terms.fermi (s : Terms) (l : Nat) (ind : Int) : Py ℂ := do
  let f ← pyGet s.fkp l
  pyGet f ind

/-- The increments of `kern0` for the element `(c, b)`: neumann2.py:482-488. -/
def Terms.src (s : Terms) (l : Nat) (fp fm : ℂ) (charge : Int) (c b : Nat) : Py (List Ent) := do
  let cb ← s.v.ind1 c b charge
  let sb ← s.v.states charge
  let sc ← s.v.states (charge + 1)
  let x ← collect sb fun b1 => do
    let b1b ← s.v.ind0 b1 b charge
    pure [⟨cb, b1b, s.T l c b1 * fp⟩]
  let y ← collect sc fun c1 => do
    let cc1 ← s.v.ind0 c c1 (charge + 1)
    pure [⟨cb, cc1, -s.T l c1 b * fm⟩]
  pure (x ++ y)

/-- The increments of `kern1` for the element `(c, b)`: neumann2.py:480-481, 489-530. -/
def Terms.loc (s : Terms) (Ek : ℝ) (charge : Int) (c b : Nat) : Py (List Ent) := do
  let leads := List.range s.v.nleads
  let E := s.E
  let T := s.T
  let cb ← s.v.ind1 c b charge
  let sa ← s.v.states (charge - 1)
  let sb ← s.v.states charge
  let sc ← s.v.states (charge + 1)
  let sd ← s.v.states (charge + 2)
  -- 2nd and 7th terms
  let t27 ← collect (prod2 sb sa) fun (b1, a1) => do
    let b1a1 ← s.v.ind1 b1 a1 (charge - 1)
    collect leads fun l1 => do
      let x ← s.fn s.hfkp (Ek - E b1 + E b) l1 true
      let y ← s.fn s.hfkp (-(Ek - E c + E a1)) l1 false
      pure [(⟨cb, b1a1, -(T l1 c b1 * T l1 a1 b * (x - y))⟩ : Ent)]
  -- 6th and 8th terms
  let t68 ← collect sb fun b1 => do
    let cb1 ← s.v.ind1 c b1 charge
    collect leads fun l1 => do
      let p ← collect sc fun c1 => do
        let x ← s.fn s.hfkp (Ek - E c + E c1) l1 true
        pure [(⟨cb, cb1, -(T l1 b1 c1 * T l1 c1 b * x)⟩ : Ent)]
      let q ← collect sa fun a1 => do
        let x ← s.fn s.hfkm (-(Ek - E c + E a1)) l1 false
        pure [(⟨cb, cb1, -(-T l1 b1 a1 * T l1 a1 b * x)⟩ : Ent)]
      pure (p ++ q)
  -- 1st and 3rd terms
  let t13 ← collect sc fun c1 => do
    let c1b ← s.v.ind1 c1 b charge
    collect leads fun l1 => do
      let p ← collect sb fun b1 => do
        let x ← s.fn s.hfkm (Ek - E b1 + E b) l1 true
        pure [(⟨cb, c1b, -(T l1 c b1 * T l1 b1 c1 * x)⟩ : Ent)]
      let q ← collect sd fun d1 => do
        let x ← s.fn s.hfkp (-(Ek - E d1 + E b)) l1 false
        pure [(⟨cb, c1b, -(-T l1 c d1 * T l1 d1 c1 * x)⟩ : Ent)]
      pure (p ++ q)
  -- 5th and 4th terms
  let t54 ← collect (prod2 sd sc) fun (d1, c1) => do
    let d1c1 ← s.v.ind1 d1 c1 (charge + 1)
    collect leads fun l1 => do
      let x ← s.fn s.hfkm (Ek - E c + E c1) l1 true
      let y ← s.fn s.hfkm (-(Ek - E d1 + E b)) l1 false
      pure [(⟨cb, d1c1, -(T l1 c d1 * T l1 c1 b * (x - y))⟩ : Ent)]
  pure (⟨cb, cb, ((Ek - E c + E b : ℝ) : ℂ)⟩ :: (t27 ++ t68 ++ t13 ++ t54))

/-- The loop over the first order elements: neumann2.py:474-479, 581-586. -/
def Terms.elems {β : Type} (s : Terms) (f : Int → Nat → Nat → Py (List β)) : Py (List β) :=
  collect (List.range (s.v.ncharge - 1)) fun (charge : Nat) => do
    let sc ← s.v.states ((charge : Int) + 1)
    let sb ← s.v.states charge
    collect (prod2 sc sb) fun p => f charge p.1 p.2

/-- The matrices `kern1`, `kern0` of `phi1k_local` before the inversion: neumann2.py:456-530. -/
def Terms.localKern (s : Terms) (k l : Nat) : Py (CMat × CMat) := do
  let ind : Int := (k : Int) + s.ext.left
  let Ek ← pyGet s.ext.grid ind
  let fp ← s.fermi l ind
  let e1 ← s.elems fun q c b => s.loc Ek q c b
  let e0 ← s.elems fun q c b => s.src l fp (1 - fp) q c b
  let kern1 ← addEnts (CMat.zeros s.v.ndm1 s.v.ndm1) e1
  let kern0 ← addEnts (CMat.zeros s.v.ndm1 s.v.ndm0) e0
  pure (kern1, kern0)

/-- `phi1k_local(k, l)`: neumann2.py:432-536. The values stored in `phi1k_delta[k, l]` and `kern1k_inv[k, l]`. -/
def Terms.phi1kLocal (s : Terms) (inv : CMat → Option CMat) (k l : Nat) : Py (CMat × CMat) := do
  let m ← s.localKern k l
  match inv m.1 with
  | none => .error .value
  | some i => do
    let d ← i.mul m.2
    pure (d, i)

/-- `phi1k_delta_old`, `hphi1k_delta`: lists over the extended grid for lead, first order element and column. -/
structure Old where
  phi : Nat → Nat → Nat → List ℂ
  hphi : Nat → Nat → Nat → List ℂ

/-- `get_at_k1(Ek, l, cb, conj)`: neumann2.py:668-712. The values of `hu` and `u` in all columns. -/
def Terms.at1 (s : Terms) (o : Old) (Ek : ℝ) (l : Nat) (cb : Nat) (cj : Bool) : Py (Nat → ℂ × ℂ) := do
  let _ ← s.v.rd o.phi l cb
  let r ← (List.range s.v.ndm0).mapM fun j => getAtK1 s.ext.grid (o.phi l cb j) (o.hphi l cb j) Ek cj
  pure fun j => r.getD j (0, 0)

/-- The increments of `term` for the element `(c, b)`: neumann2.py:587-627. -/
def Terms.itr (s : Terms) (o : Old) (Ek : ℝ) (l : Nat) (fp fm : ℂ) (charge : Int) (c b : Nat) :
    Py (List (Nat → ℂ)) := do
  let leads := List.range s.v.nleads
  let E := s.E
  let T := s.T
  let sa ← s.v.states (charge - 1)
  let sb ← s.v.states charge
  let sc ← s.v.states (charge + 1)
  let sd ← s.v.states (charge + 2)
  -- 1st term
  let t1 ← collect sa fun a1 => do
    let ba1 ← s.v.ind1 b a1 (charge - 1)
    collect (prod2 sb leads) fun (b1, l1) => do
      let r ← s.at1 o (Ek - E b1 + E b) l1 ba1 true
      pure [fun j => -T l1 c b1 * T l b1 a1 * fp * ((r j).1 - Complex.I * (r j).2)]
  -- 2nd and 5th terms
  let t25 ← collect (prod2 sb sc) fun (b1, c1) => do
    let c1b1 ← s.v.ind1 c1 b1 charge
    collect leads fun l1 => do
      let r ← s.at1 o (Ek - E b1 + E b) l1 c1b1 true
      let r' ← s.at1 o (Ek - E c + E c1) l1 c1b1 true
      pure [fun j => -T l1 c b1 * ((r j).1 - Complex.I * (r j).2) * fm * T l c1 b,
        fun j => -T l c b1 * fp * ((r' j).1 - Complex.I * (r' j).2) * T l1 c1 b]
  -- 3rd term
  let t3 ← collect sc fun c1 => do
    let c1b ← s.v.ind1 c1 b charge
    collect (prod2 sd leads) fun (d1, l1) => do
      let r ← s.at1 o (-(Ek - E d1 + E b)) l1 c1b false
      pure [fun j => T l1 c d1 * T l d1 c1 * fp * ((r j).1 + Complex.I * (r j).2)]
  -- 4th term
  let t4 ← collect (prod2 sd sc) fun (d1, c1) => do
    let d1c1 ← s.v.ind1 d1 c1 (charge + 1)
    collect leads fun l1 => do
      let r ← s.at1 o (-(Ek - E d1 + E b)) l1 d1c1 false
      pure [fun j => T l1 c d1 * ((r j).1 + Complex.I * (r j).2) * fm * T l c1 b]
  -- 6th term
  let t6 ← collect sd fun d1 => do
    let d1c ← s.v.ind1 d1 c (charge + 1)
    collect (prod2 sc leads) fun (c1, l1) => do
      let r ← s.at1 o (Ek - E c + E c1) l1 d1c true
      pure [fun j => -((r j).1 - Complex.I * (r j).2) * fm * T l d1 c1 * T l1 c1 b]
  -- 7th term
  let t7 ← collect (prod2 sb sa) fun (b1, a1) => do
    let b1a1 ← s.v.ind1 b1 a1 (charge - 1)
    collect leads fun l1 => do
      let r ← s.at1 o (-(Ek - E c + E a1)) l1 b1a1 false
      pure [fun j => T l c b1 * fp * ((r j).1 + Complex.I * (r j).2) * T l1 a1 b]
  -- 8th term
  let t8 ← collect sb fun b1 => do
    let cb1 ← s.v.ind1 c b1 charge
    collect (prod2 sa leads) fun (a1, l1) => do
      let r ← s.at1 o (-(Ek - E c + E a1)) l1 cb1 false
      pure [fun j => ((r j).1 + Complex.I * (r j).2) * fm * T l b1 a1 * T l1 a1 b]
  pure (t1 ++ t25 ++ t3 ++ t4 ++ t6 ++ t7 ++ t8)

/-- The matrix `kern0` of `phi1k_iterate` before the product: neumann2.py:564-628. -/
def Terms.iterKern (s : Terms) (o : Old) (k l : Nat) : Py CMat := do
  let ind : Int := (k : Int) + s.ext.left
  let Ek ← pyGet s.ext.grid ind
  let fp ← s.fermi l ind
  let rows ← s.elems fun q c b => do
    let cb ← s.v.ind1 c b q
    let t ← s.itr o Ek l fp (1 - fp) q c b
    pure [(cb, fun j => (t.map fun f => f j).sum)]
  rows.foldlM (fun (m : CMat) r => m.setRow r.1 r.2) (CMat.zeros s.v.ndm1 s.v.ndm0)

/-- `phi1k_iterate(k, l)`: neumann2.py:538-631. The values stored in `phi1k_delta[k, l]`. -/
def Terms.phi1kIterate (s : Terms) (kern1Inv : CMat) (o : Old) (k l : Nat) : Py CMat := do
  let m ← s.iterKern o k l
  kern1Inv.mul m

/-- A loop over grid points and leads that stores a matrix for each: neumann2.py:416-419, 428-430. -/
def Terms.table {β : Type} (s : Terms) (len : Nat) (f : Nat → Nat → Py β) (z : β) : Py (Nat → Nat → β) := do
  let r ← (List.range len).mapM fun k => (List.range s.v.nleads).mapM fun l => f k l
  pure fun k l => (r.getD k []).getD l z

/-- `iterate` when `is_zeroth_iteration`: neumann2.py:415-421. `len` is the number of points of `Ek_grid`. The arrays
`phi1k_delta`, `kern1k_inv`. -/
def Terms.zeroth (s : Terms) (inv : CMat → Option CMat) (len : Nat) : Py (C4 × C4) := do
  let z := CMat.zeros s.v.ndm1 s.v.ndm0
  let t ← s.table len (s.phi1kLocal inv) (z, CMat.zeros s.v.ndm1 s.v.ndm1)
  pure (fun k l => (t k l).1.val, fun k l => (t k l).2.val)

/-- `phi1k_delta` as one list over the energies for each lead, element and column. -/
def Terms.flat (s : Terms) (len : Nat) (d : C4) : List (List ℂ) :=
  (List.range (s.v.nleads * (s.v.ndm1 * s.v.ndm0))).map fun i =>
    (List.range len).map fun k => d k (i / (s.v.ndm1 * s.v.ndm0)) (i / s.v.ndm0 % s.v.ndm1) (i % s.v.ndm0)

/-- The inverse of `flat`. -/
def Terms.unflat (s : Terms) (r : List (List ℂ)) (l cb j : Nat) : List ℂ := r.getD (l * (s.v.ndm1 * s.v.ndm0) + cb * s.v.ndm0 + j) []

/-- `iterate` otherwise: neumann2.py:422-430. `delta`, `i1` are `phi1k_delta`, `kern1k_inv`; returns `phi1k_delta`. -/
def Terms.next (s : Terms) (p : HtPars) (len : Nat) (delta i1 : C4) : Py (C4 × HtPars) := do
  let ((phi, hphi), p) ← getHtransfPhi1k len (s.flat len delta) p
  let o : Old := ⟨s.unflat phi, s.unflat hphi⟩
  let t ← s.table len (fun k l => s.phi1kIterate ⟨s.v.ndm1, s.v.ndm1, i1 k l⟩ o k l) (CMat.zeros s.v.ndm1 s.v.ndm0)
  pure (fun k l => (t k l).val, p)

/-- The attributes at the zeroth iteration, with the distributions of `prepare_distribution` (neumann2.py:203-232). -/
def Sys.terms (y : Sys) (grid : List ℝ) (ext : Ext) : Py (Terms × HtPars) := do
  let ((a, b), p) ← prepareDistribution grid ((List.range y.v.nleads).map fun l => (y.mu l, y.temp l)) ⟨ext.left, ext.right, none⟩
  pure (⟨y.v, y.E, y.T, ext, a.1, a.2, b.2⟩, p)

/-- The numerical routines of `Num` by the equations above. The distributions and the kernel of the Hilbert transform are made
anew in each iteration, the code keeps those of the zeroth one; they agree as long as the parameters are not changed without
`restart`. -/
def Num.of (inv : CMat → Option CMat) (solve lstsq : CMat → CVec → Option CVec) : Num where
  loc y grid ext := do
    let (s, _) ← y.terms grid ext
    s.zeroth inv grid.length
  itr y grid ext delta i1 := do
    let (s, p) ← y.terms grid ext
    let (d, _) ← s.next p grid.length delta i1
    pure d
  solve := solve
  lstsq := lstsq

end VN2

end

end Verif
