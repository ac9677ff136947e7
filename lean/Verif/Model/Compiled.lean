import Verif.Model.Approach

/-!
Model of the compiled (Cython) first order approaches: `qmeq/approach/c_kernel_handler.pyx`, lines
1-262, `qmeq/approach/c_aprclass.pyx`, lines 175-225, and `qmeq/approach/base/c_pauli.pyx`,
`c_lindblad.pyx`, `c_redfield.pyx`, `c_neumann1.pyx`.

The files are compiled with `boundscheck=False` and `wraparound=False` (lines 1-7 of each): an
index outside of an array is undefined behaviour, and so is a negative index. In the model every
such access is an error (`PyErr.index`), so that a theorem which says that a result is `.ok` says
also that memory is only accessed within the arrays.

Simplifications: integers are unbounded, floating point numbers are real numbers and complex128
numbers are complex numbers. `E`, `Tba`, `tLba` and the first index of the arrays of factors are
total functions of their indices, as in `Verif.Model.Approach`. Where a loop reads
`statesdm[charge, i]` for all `i` below a count, the model reads these numbers before the loop. A
sum accumulated over two consecutive loops is the sum of the two sums. `func_pauli` and `func_1vN`
of `c_specfunc.pyx` are taken to be the functions of `specfunc.py`. The memory views
of the parameters are the parameters. `CKH.build` is also the handler of objects of class
`StateIndexingDMc`: that of `si_elph` (`Verif.Model.CompiledElPh`) and that of 2vN
(`Verif.Model.CompiledNeumann2`).
-/

namespace Verif

noncomputable section

open Complex (I)
open scoped ComplexConjugate

/-! ### Arrays without checks -/

/-- The position `i` in an array of length `len`; everything else is undefined behaviour. -/
def cIdx (len : Nat) (i : Int) : Py Nat :=
  if 0 ≤ i ∧ i < len then .ok i.toNat else .error .index

/-- `l[i]`. -/
def cGet {α : Type} (l : List α) (i : Int) : Py α := do
  let k ← cIdx l.length i
  match l[k]? with
  | some a => .ok a
  | none => .error .index

/-- `l[i] = x`. -/
def cSet {α : Type} (l : List α) (i : Int) (x : α) : Py (List α) := do
  let k ← cIdx l.length i
  pure (l.set k x)

/-- `x[i]`. -/
def Vec.cget (x : Vec) (i : Int) : Py ℝ := do
  let k ← cIdx x.size i
  pure (x.val k)

/-- `x[i] = x[i] + w`. -/
def Vec.cadd (x : Vec) (i : Int) (w : ℝ) : Py Vec := do
  let k ← cIdx x.size i
  pure ⟨x.size, fun j => if j = k then x.val j + w else x.val j⟩

/-- `x[i] = w`. -/
def Vec.cput (x : Vec) (i : Int) (w : ℝ) : Py Vec := do
  let k ← cIdx x.size i
  pure ⟨x.size, fun j => if j = k then w else x.val j⟩

/-- An update `m[row, col] = m[row, col] + val`. -/
structure MWr where
  row : Int
  col : Int
  val : ℝ

/-- An update `x[pos] = x[pos] + val`. -/
structure VWr where
  pos : Int
  val : ℝ

/-- One update of a matrix. -/
def Mat.cadd (m : Mat) (w : MWr) : Py Mat := do
  let r ← cIdx m.rows w.row
  let c ← cIdx m.cols w.col
  pure ⟨m.rows, m.cols,
    fun r' c' => if r' = r ∧ c' = c then m.val r' c' + w.val else m.val r' c'⟩

/-- A sequence of updates of a matrix. -/
def Mat.runWr (m : Mat) (ws : List MWr) : Py Mat := ws.foldlM Mat.cadd m

/-- A sequence of updates of a vector. -/
def Vec.runWr (x : Vec) (ws : List VWr) : Py Vec := ws.foldlM (fun x w => x.cadd w.pos w.val) x

/-! ### The kernel handler -/

/-- A row of `all_bbp` or `all_ba`: two states and a charge. -/
abbrev Trip := Nat × Nat × Nat

/-- The attributes of `KernelHandler`: c_kernel_handler.pyx:25-52. -/
structure CKH where
  ncharge : Nat
  nleads : Nat
  npauli : Nat
  ndm0 : Nat
  ndm1 : Nat
  lenlst : List Nat
  dictdm : List Nat
  shiftlst0 : List Nat
  shiftlst1 : List Nat
  mapdm0 : List Int
  booldm0 : List Bool
  conjdm0 : List Bool
  /-- `statesdm_count` -/
  count : List Nat
  /-- the rows of the rectangular array `statesdm` -/
  statesdm : List (List Nat)
  noCoh : Bool
  /-- `no_conjugates` -/
  noConj : Bool
  nelements : Nat
  allBbp : List Trip
  allBa : List Trip

namespace CKH

/-- `lenlst[bcharge]*dictdm[b] + dictdm[bp] + shiftlst0[bcharge]`. -/
def flat (kh : CKH) (b bp : Nat) (bcharge : Int) : Py Nat := do
  let i ← cGet kh.dictdm (b : Nat)
  let s ← cGet kh.shiftlst0 bcharge
  let len ← cGet kh.lenlst bcharge
  let j ← cGet kh.dictdm (bp : Nat)
  pure (len * i + j + s)

/-- `get_ind_dm0`: c_kernel_handler.pyx:189-190. -/
def ind0 (kh : CKH) (b bp : Nat) (bcharge : Int) : Py Int := do
  let k ← kh.flat b bp bcharge
  cGet kh.mapdm0 (k : Nat)

/-- `get_ind_dm0_conj`: c_kernel_handler.pyx:192-193. -/
def conj0 (kh : CKH) (b bp : Nat) (bcharge : Int) : Py Bool := do
  let k ← kh.flat b bp bcharge
  cGet kh.conjdm0 (k : Nat)

/-- `get_ind_dm0_bool`: c_kernel_handler.pyx:195-196. -/
def bool0 (kh : CKH) (b bp : Nat) (bcharge : Int) : Py Bool := do
  let k ← kh.flat b bp bcharge
  cGet kh.booldm0 (k : Nat)

/-- `get_ind_dm1`: c_kernel_handler.pyx:198-199. -/
def ind1 (kh : CKH) (b a : Nat) (acharge : Int) : Py Nat := do
  let len ← cGet kh.lenlst acharge
  let i ← cGet kh.dictdm (b : Nat)
  let j ← cGet kh.dictdm (a : Nat)
  let s ← cGet kh.shiftlst1 acharge
  pure (len * i + j + s)

/-- `statesdm[charge, i]`. -/
def stateAt (kh : CKH) (charge : Int) (i : Nat) : Py Nat := do
  let r ← cGet kh.statesdm charge
  cGet r (i : Nat)

/-- `statesdm[charge, i]` for `i in range(n)`. -/
def read (kh : CKH) (charge : Int) (n : Nat) : Py (List Nat) :=
  (List.range n).mapM fun i => kh.stateAt charge i

/-- The states of the charge `acharge`; none if `acharge` is negative
(`acount = kh.statesdm_count[acharge] if acharge >= 0 else 0`). -/
def lower (kh : CKH) (acharge : Int) : Py (List Nat) :=
  if 0 ≤ acharge then do
    let n ← cGet kh.count acharge
    kh.read acharge n
  else pure []

/-- The states of the charge `bcharge` (`bcount = kh.statesdm_count[bcharge]`). -/
def same (kh : CKH) (bcharge : Int) : Py (List Nat) := do
  let n ← cGet kh.count bcharge
  kh.read bcharge n

/-- The states of the charge `ccharge`; none if it is greater than `ncharge`
(`ccount = kh.statesdm_count[ccharge] if ccharge <= kh.ncharge else 0`). -/
def upper (kh : CKH) (ccharge : Int) : Py (List Nat) :=
  if ccharge ≤ kh.ncharge then do
    let n ← cGet kh.count ccharge
    kh.read ccharge n
  else pure []

/-- Length of the longest list: c_kernel_handler.pyx:63-64. -/
def maxStates (statesdm : List (List Nat)) : Nat :=
  statesdm.foldl (fun m l => max m l.length) 0

/-- The pairs found by the loops of `set_all_bbp`, in order: c_kernel_handler.pyx:78-92. -/
def bbpPairs (kh : CKH) : Py (List Trip) :=
  collect (List.range kh.ncharge) fun (c : Nat) => do
    let n ← cGet kh.count (c : Nat)
    collect (List.range n) fun i =>
      let jlower := if kh.noConj then i else 0
      collect (List.range' jlower (n - jlower)) fun j =>
        if kh.noCoh = true ∧ i ≠ j then pure [] else do
          let b ← kh.stateAt (c : Nat) i
          let bp ← kh.stateAt (c : Nat) j
          let u ← kh.bool0 b bp (c : Nat)
          pure (if u then [(b, bp, c)] else [])

/-- The pairs found by the loops of `set_all_ba`, in order: c_kernel_handler.pyx:98-108. -/
def baPairs (kh : CKH) : Py (List Trip) :=
  collect (List.range' 1 (kh.ncharge - 1)) fun (bcharge : Nat) => do
    let n ← cGet kh.count (bcharge : Nat)
    collect (List.range n) fun i => do
      let m ← cGet kh.count ((bcharge : Int) - 1)
      collect (List.range m) fun j => do
        let b ← kh.stateAt (bcharge : Nat) i
        let a ← kh.stateAt ((bcharge : Int) - 1) j
        pure [(b, a, bcharge - 1)]

/-- `arr = np.zeros((n, 3))`, then `arr[ind] = row; ind += 1` for each row:
c_kernel_handler.pyx:76, 89-92 and 95, 105-108. -/
def fillRows (n : Nat) (rows : List Trip) : Py (List Trip) :=
  rows.zipIdx.foldlM (fun arr p => cSet arr (p.2 : Nat) p.1) (List.replicate n (0, 0, 0))

/-- `__init__` up to the tables: c_kernel_handler.pyx:25-54, 58-73. -/
def base (d : DM) (nleads : Nat) (noCoh : Bool) : CKH where
  ncharge := d.si.ncharge
  nleads := nleads
  npauli := d.npauli
  ndm0 := d.ndm0
  ndm1 := d.ndm1
  lenlst := d.lenlst
  dictdm := d.dictdm
  shiftlst0 := d.shiftlst0
  shiftlst1 := d.shiftlst1
  mapdm0 := d.mp.map
  booldm0 := d.mp.bool
  conjdm0 := d.mp.conj
  count := d.statesdm.map List.length
  statesdm := d.statesdm.map fun l => l ++ List.replicate (maxStates d.statesdm - l.length) 0
  noCoh := noCoh
  noConj := decide (d.kind ≠ .dmc)
  nelements := if noCoh then d.npauli else d.ndm0
  allBbp := []
  allBa := []

/-- `KernelHandler(si, no_coherences)`: c_kernel_handler.pyx:25-56. -/
def build (d : DM) (nleads : Nat) (noCoh : Bool) : Py CKH := do
  let kh := base d nleads noCoh
  let ps ← kh.bbpPairs
  let t ← fillRows kh.nelements ps
  let kh := { kh with allBbp := t }
  let qs ← kh.baPairs
  let t ← fillRows kh.ndm1 qs
  pure { kh with allBa := t }

/-- `is_included`: c_kernel_handler.pyx:118-123. -/
def isIncluded (kh : CKH) (b bp : Nat) (bcharge : Int) : Py Bool := do
  let bbp ← kh.ind0 b bp bcharge
  pure (if bbp = -1 then false else true)

/-- `bbpi = self.ndm0 + bbp - self.npauli`. -/
def imagPos (kh : CKH) (bbp : Int) : Int := kh.ndm0 + bbp - kh.npauli

/-- The updates made by `set_energy`, `set_matrix_element` and `set_matrix_element_pauli`:
c_kernel_handler.pyx:129-171. -/
def writes (kh : CKH) : KCall → Py (List MWr)
  | .energy e b bp bcharge =>
    if b = bp then pure [] else do
      let bbp ← kh.ind0 b bp bcharge
      let bbpi := kh.imagPos bbp
      pure [⟨bbp, bbpi, e⟩, ⟨bbpi, bbp, -e⟩]
  | .elem f b bp bcharge a ap acharge => do
    let bbp ← kh.ind0 b bp bcharge
    let bbpi := kh.imagPos bbp
    let aap ← kh.ind0 a ap acharge
    let aapi := kh.imagPos aap
    let cj ← kh.conj0 a ap acharge
    let sgn : ℝ := if cj then 1 else -1
    pure ([⟨bbp, aap, f.im⟩] ++
      (if kh.ndm0 ≤ aapi then
        ⟨bbp, aapi, f.re * sgn⟩ :: (if kh.ndm0 ≤ bbpi then [⟨bbpi, aapi, f.im * sgn⟩] else [])
        else []) ++
      (if kh.ndm0 ≤ bbpi then [⟨bbpi, aap, -f.re⟩] else []))
  | .pauli fm fp bb aa => pure [⟨bb, bb, fm⟩, ⟨bb, aa, fp⟩]

/-- `self.phi0[bbpi] if self.get_ind_dm0_conj(b, bp, bcharge) else -self.phi0[bbpi]` when there
is an imaginary part: c_kernel_handler.pyx:180-185. -/
def phi0Imag (kh : CKH) (phi0 : Vec) (b bp : Nat) (bcharge : Int) (bbpi : Int) : Py ℝ :=
  if kh.ndm0 ≤ bbpi then do
    let cj ← kh.conj0 b bp bcharge
    let x ← phi0.cget bbpi
    pure (if cj then x else -x)
  else pure 0

/-- `get_phi0_element`: c_kernel_handler.pyx:173-187. -/
def phi0Element (kh : CKH) (phi0 : Vec) (b bp : Nat) (bcharge : Int) : Py ℂ := do
  let bbp ← kh.ind0 b bp bcharge
  if bbp = -1 then pure 0 else do
    let re ← phi0.cget bbp
    let im ← kh.phi0Imag phi0 b bp bcharge (kh.imagPos bbp)
    pure ⟨re, im⟩

/-- The updates made by the methods of `KernelHandlerMatrixFree`:
c_kernel_handler.pyx:211-248. -/
def writesFree (kh : CKH) (phi0 : Vec) : KCall → Py (List VWr)
  | .energy e b bp bcharge =>
    if b = bp then pure [] else do
      let bbp ← kh.ind0 b bp bcharge
      let p ← kh.phi0Element phi0 b bp bcharge
      let d : ℂ := -I * e * p
      pure [⟨bbp, d.re⟩, ⟨kh.imagPos bbp, -d.im⟩]
  | .elem f b bp bcharge a ap acharge => do
    let bbp ← kh.ind0 b bp bcharge
    let bbpi := kh.imagPos bbp
    let _ ← kh.ind0 a ap acharge
    let p ← kh.phi0Element phi0 a ap acharge
    let d : ℂ := -I * f * p
    pure (⟨bbp, d.re⟩ :: (if kh.ndm0 ≤ bbpi then [⟨bbpi, -d.im⟩] else []))
  | .pauli fm fp bb aa => do
    let pb ← phi0.cget bb
    let pa ← phi0.cget aa
    pure [⟨bb, fm * pb + fp * pa⟩]

/-- `get_phi0_norm`: c_kernel_handler.pyx:250-262. -/
def phi0Norm (kh : CKH) (phi0 : Vec) : Py ℝ :=
  (List.range kh.ncharge).foldlM
    (fun s (c : Nat) => do
      let l ← kh.same (c : Nat)
      l.foldlM (fun s b => do
        let bb ← kh.ind0 b b (c : Nat)
        let x ← phi0.cget bb
        pure (s + x)) s) 0

/-! ### The base class -/

/-- `generate_norm_vec`: c_aprclass.pyx:175-185. -/
def genNormVec (kh : CKH) (x : Vec) : Py Vec :=
  (List.range kh.ncharge).foldlM
    (fun x (c : Nat) => do
      let l ← kh.same (c : Nat)
      l.foldlM (fun x b => do
        let bb ← kh.ind0 b b (c : Nat)
        x.cadd bb 1) x) x

/-- The calls made in the iteration `i` of the parallel loop of `generate_kern`:
c_aprclass.pyx:196-201. -/
def iteration (kh : CKH) (E : Nat → ℝ) (coup : Nat → Nat → Int → Py (List KCall)) (i : Nat) :
    Py (List KCall) := do
  let p ← cGet kh.allBbp (i : Nat)
  let r ← coup p.1 p.2.1 (p.2.2 : Nat)
  pure (.energy (E p.1 - E p.2.1) p.1 p.2.1 (p.2.2 : Nat) :: r)

/-- The updates of the kernel made in the iteration `i`. -/
def iterWrites (kh : CKH) (E : Nat → ℝ) (coup : Nat → Nat → Int → Py (List KCall)) (i : Nat) :
    Py (List MWr) := do
  let cs ← kh.iteration E coup i
  collect cs kh.writes

/-- The updates of `dphi0_dt` made in the iteration `i` when no matrix is stored. -/
def iterWritesFree (kh : CKH) (E : Nat → ℝ) (coup : Nat → Nat → Int → Py (List KCall))
    (phi0 : Vec) (i : Nat) : Py (List VWr) := do
  let cs ← kh.iteration E coup i
  collect cs (kh.writesFree phi0)

end CKH

/-- `fct[l, k]` for an array of shape `(nleads, ndm1, ..)`. -/
def CKH.rd {β : Type} (kh : CKH) (fct : Nat → Nat → β) (l k : Nat) : Py β :=
  if k < kh.ndm1 then pure (fct l k) else .error .index

/-- `fct[l, k] = x`. -/
def CKH.wr {β : Type} (kh : CKH) (fct : Nat → Nat → β) (l k : Nat) (x : β) :
    Py (Nat → Nat → β) :=
  if k < kh.ndm1 then pure (fun l' k' => if l' = l ∧ k' = k then x else fct l' k')
  else .error .index

/-- The loops of `generate_fct`: c_pauli.pyx:70-80, c_neumann1.pyx:74-85. -/
def CKH.fillFct {β : Type} (kh : CKH) (z : β) (f : Nat → Nat → Nat → β) :
    Py (Nat → Nat → β) :=
  (List.range kh.ndm1).foldlM
    (fun fct i => do
      let p ← cGet kh.allBa (i : Nat)
      let cb ← kh.ind1 p.1 p.2.1 (p.2.2 : Nat)
      (List.range kh.nleads).foldlM (fun fct l => kh.wr fct l cb (f l p.1 p.2.1)) fct)
    (fun _ _ => z)

/-! ### Pauli -/

namespace CPauli

/-- The numbers stored in `paulifct[l, cb]`: c_pauli.pyx:75-80. -/
def amp (E : Nat → ℝ) (L : Leads) (l c b : Nat) : ℝ × ℝ :=
  let Ecb := E c - E b
  let xcb := (L.Tba l b c * L.Tba l c b).re
  let rez := funcPauli Ecb (L.mu l) (L.T l) (L.Dm l) (L.Dp l) L.itype
  (xcb * rez.1, xcb * rez.2)

/-- `generate_fct`: c_pauli.pyx:52-80. -/
def genFct (kh : CKH) (E : Nat → ℝ) (L : Leads) : Py (Nat → Nat → ℝ × ℝ) :=
  kh.fillFct (0, 0) (amp E L)

/-- `generate_coupling_terms`: c_pauli.pyx:82-121. The second state is not used. -/
def coup (kh : CKH) (fct : Nat → Nat → ℝ × ℝ) (b _bp : Nat) (bcharge : Int) :
    Py (List KCall) := do
  let bb ← kh.ind0 b b bcharge
  let As ← kh.lower (bcharge - 1)
  let r1 ← collect As fun a => do
    let aa ← kh.ind0 a a (bcharge - 1)
    let ba ← kh.ind1 b a (bcharge - 1)
    let s ← sumM (List.range kh.nleads) fun l => do
      let w ← kh.rd fct l ba
      pure (-w.2, w.1)
    pure [KCall.pauli s.1 s.2 bb aa]
  let Cs ← kh.upper (bcharge + 1)
  let r2 ← collect Cs fun c => do
    let cc ← kh.ind0 c c (bcharge + 1)
    let cb ← kh.ind1 c b bcharge
    let s ← sumM (List.range kh.nleads) fun l => do
      let w ← kh.rd fct l cb
      pure (-w.1, w.2)
    pure [KCall.pauli s.1 s.2 bb cc]
  pure (r1 ++ r2)

/-- `generate_current`: c_pauli.pyx:123-159. -/
def genCurrent (kh : CKH) (E : Nat → ℝ) (fct : Nat → Nat → ℝ × ℝ) (phi0 : Vec) :
    Py (List CEv) :=
  collect (List.range kh.ndm1) fun i => do
    let p ← cGet kh.allBa (i : Nat)
    let bb ← kh.ind0 p.2.1 p.2.1 (p.2.2 : Nat)
    let cc ← kh.ind0 p.1 p.1 ((p.2.2 : Int) + 1)
    let cb ← kh.ind1 p.1 p.2.1 (p.2.2 : Nat)
    collect (List.range kh.nleads) fun l => do
      let pb ← phi0.cget bb
      let w ← kh.rd fct l cb
      let pc ← phi0.cget cc
      let fct1 := pb * w.1
      let fct2 := -pc * w.2
      pure [CEv.mk l (fct1 + fct2) (-((E p.2.1 - E p.1) * (fct1 + fct2)))]

end CPauli

/-! ### The blocks of `generate_coupling_terms` -/

/-- `if kh.is_included(a, ap, acharge): ...; kh.set_matrix_element(f, b, bp, bcharge, a, ap,
acharge)` where `f` is computed inside the block. -/
def CKH.elemIf (kh : CKH) (f : Py ℂ) (b bp : Nat) (bcharge : Int) (a ap : Nat) (acharge : Int) :
    Py (List KCall) := do
  let i ← kh.isIncluded a ap acharge
  if i then do
    let z ← f
    pure [KCall.elem z b bp bcharge a ap acharge]
  else pure []

/-- The loop structure shared by c_lindblad.pyx:80-150, c_redfield.pyx:46-125 and
c_neumann1.pyx:87-166. -/
def CKH.blocks (kh : CKH) (b bp : Nat) (bcharge : Int) (fA : Nat → Nat → Py ℂ)
    (fL fR : Nat → Py ℂ) (fC : Nat → Nat → Py ℂ) : Py (List KCall) := do
  let As ← kh.lower (bcharge - 1)
  let r1 ← collect As fun a => collect As fun ap =>
    kh.elemIf (fA a ap) b bp bcharge a ap (bcharge - 1)
  let Bs ← kh.same bcharge
  let r2 ← collect Bs fun bpp => do
    let x ← kh.elemIf (fL bpp) b bp bcharge bpp bp bcharge
    let y ← kh.elemIf (fR bpp) b bp bcharge b bpp bcharge
    pure (x ++ y)
  let Cs ← kh.upper (bcharge + 1)
  let r3 ← collect Cs fun c => collect Cs fun cp =>
    kh.elemIf (fC c cp) b bp bcharge c cp (bcharge + 1)
  pure (r1 ++ r2 ++ r3)

/-! ### Lindblad -/

namespace CLindblad

/-- `tLba[l, b, a] = x`. -/
def wr3 (t : Nat → Nat → Nat → ℂ) (l b a : Nat) (x : ℂ) : Nat → Nat → Nat → ℂ :=
  fun l' b' a' => if l' = l ∧ b' = b ∧ a' = a then x else t l' b' a'

/-- `generate_fct`: c_lindblad.pyx:51-78. -/
def genFct (kh : CKH) (E : Nat → ℝ) (L : Leads) : Py (Nat → Nat → Nat → ℂ) :=
  (List.range kh.ndm1).foldlM
    (fun t i => do
      let p ← cGet kh.allBa (i : Nat)
      (List.range kh.nleads).foldlM
        (fun t l =>
          let r := funcPauli (E p.1 - E p.2.1) (L.mu l) (L.T l) (L.Dm l) (L.Dp l) L.itype
          let t := wr3 t l p.1 p.2.1 (Real.sqrt r.1 * L.Tba l p.1 p.2.1)
          pure (wr3 t l p.2.1 p.1 (Real.sqrt r.2 * L.Tba l p.2.1 p.1))) t)
    (fun _ _ _ => 0)

/-- `1j*fct_aap` and `1j*fct_ccp`: c_lindblad.pyx:107-110, 147-150. -/
def jump (kh : CKH) (t : Nat → Nat → Nat → ℂ) (b bp a ap : Nat) : Py ℂ := do
  let s ← sumM (List.range kh.nleads) fun l => pure (t l b a * conj (t l bp ap))
  pure (I * s)

/-- `1j*fct_bppbp` (with `x = b`, `y = bpp`) and `1j*fct_bbpp` (with `x = bpp`, `y = bp`):
c_lindblad.pyx:116-125, 129-138. -/
def decay (kh : CKH) (t : Nat → Nat → Nat → ℂ) (bcharge : Int) (x y : Nat) : Py ℂ := do
  let As ← kh.lower (bcharge - 1)
  let s1 ← sumM As fun a => sumM (List.range kh.nleads) fun l =>
    pure (-(1 / 2) * conj (t l a x) * t l a y)
  let Cs ← kh.upper (bcharge + 1)
  let s2 ← sumM Cs fun c => sumM (List.range kh.nleads) fun l =>
    pure (-(1 / 2) * conj (t l c x) * t l c y)
  pure (I * (s1 + s2))

/-- `generate_coupling_terms`: c_lindblad.pyx:80-150. -/
def coup (kh : CKH) (t : Nat → Nat → Nat → ℂ) (b bp : Nat) (bcharge : Int) : Py (List KCall) :=
  kh.blocks b bp bcharge (fun a ap => jump kh t b bp a ap) (fun bpp => decay kh t bcharge b bpp)
    (fun bpp => decay kh t bcharge bpp bp) (fun c cp => jump kh t b bp c cp)

/-- The contribution of one element and one lead to the currents: c_lindblad.pyx:190-204. -/
def curTerm (E : Nat → ℝ) (t : Nat → Nat → Nat → ℂ) (p : ℂ) (As Cs : List Nat) (b bp : Nat)
    (l : Nat) : Py CEv := do
  let sa ← sumM As fun a =>
    let fcta := t l a b * p * conj (t l a bp)
    pure (-fcta, ((E a - 1 / 2 * (E b + E bp) : ℝ) : ℂ) * fcta)
  let sc ← sumM Cs fun c =>
    let fctc := t l c b * p * conj (t l c bp)
    pure (fctc, ((E c - 1 / 2 * (E b + E bp) : ℝ) : ℂ) * fctc)
  pure ⟨l, (sa.1 + sc.1).re, (sa.2 + sc.2).re⟩

/-- `generate_current`: c_lindblad.pyx:153-204. -/
def genCurrent (kh : CKH) (E : Nat → ℝ) (t : Nat → Nat → Nat → ℂ) (phi0 : Vec) :
    Py (List CEv) :=
  collect (List.range kh.ncharge) fun (bcharge : Nat) => do
    let As ← kh.lower ((bcharge : Int) - 1)
    let Bs ← kh.same (bcharge : Nat)
    let Cs ← kh.upper ((bcharge : Int) + 1)
    collect Bs fun b => collect Bs fun bp => do
      let i ← kh.isIncluded b bp (bcharge : Nat)
      if i then do
        let ph ← kh.phi0Element phi0 b bp (bcharge : Nat)
        collect (List.range kh.nleads) fun l => do
          let ev ← curTerm E t ph As Cs b bp l
          pure [ev]
      else pure []

end CLindblad

/-! ### 1vN and Redfield -/

/-- `generate_fct`: c_neumann1.pyx:55-85 (also used by c_redfield.pyx:43-44). -/
def CKH.genFct1vN (kh : CKH) (lib : NumLib) (E : Nat → ℝ) (L : Leads) : Py (Nat → Nat → Amp) :=
  kh.fillFct ⟨0, 0, 0, 0⟩ fun l c b =>
    func1vN lib (E c - E b) (L.mu l) (L.T l) (L.Dm l) (L.Dp l) L.itype L.limit

namespace CVN1

/-- `fct_aap`: c_neumann1.pyx:116-121. -/
def fctA (kh : CKH) (Tba : Nat → Nat → Nat → ℂ) (f : Nat → Nat → Amp) (b bp : Nat) (bcharge : Int)
    (a ap : Nat) : Py ℂ := do
  let bpa ← kh.ind1 bp a (bcharge - 1)
  let bap ← kh.ind1 b ap (bcharge - 1)
  sumM (List.range kh.nleads) fun l => do
    let w ← kh.rd f l bpa
    let w' ← kh.rd f l bap
    pure (Tba l b a * Tba l ap bp * conj w.cur0 - Tba l b a * Tba l ap bp * w'.cur0)

/-- `fct_bppbp`: c_neumann1.pyx:127-137. -/
def fctL (kh : CKH) (Tba : Nat → Nat → Nat → ℂ) (f : Nat → Nat → Amp) (b bp : Nat) (bcharge : Int)
    (bpp : Nat) : Py ℂ := do
  let As ← kh.lower (bcharge - 1)
  let s1 ← sumM As fun a => do
    let bpa ← kh.ind1 bp a (bcharge - 1)
    sumM (List.range kh.nleads) fun l => do
      let w ← kh.rd f l bpa
      pure (Tba l b a * Tba l a bpp * conj w.cur1)
  let Cs ← kh.upper (bcharge + 1)
  let s2 ← sumM Cs fun c => do
    let cbp ← kh.ind1 c bp bcharge
    sumM (List.range kh.nleads) fun l => do
      let w ← kh.rd f l cbp
      pure (Tba l b c * Tba l c bpp * w.cur0)
  pure (s1 + s2)

/-- `fct_bbpp`: c_neumann1.pyx:141-151. -/
def fctR (kh : CKH) (Tba : Nat → Nat → Nat → ℂ) (f : Nat → Nat → Amp) (b bp : Nat) (bcharge : Int)
    (bpp : Nat) : Py ℂ := do
  let As ← kh.lower (bcharge - 1)
  let s1 ← sumM As fun a => do
    let ba ← kh.ind1 b a (bcharge - 1)
    sumM (List.range kh.nleads) fun l => do
      let w ← kh.rd f l ba
      pure (-Tba l bpp a * Tba l a bp * w.cur1)
  let Cs ← kh.upper (bcharge + 1)
  let s2 ← sumM Cs fun c => do
    let cb ← kh.ind1 c b bcharge
    sumM (List.range kh.nleads) fun l => do
      let w ← kh.rd f l cb
      pure (-Tba l bpp c * Tba l c bp * conj w.cur0)
  pure (s1 + s2)

/-- `fct_ccp`: c_neumann1.pyx:160-165. -/
def fctC (kh : CKH) (Tba : Nat → Nat → Nat → ℂ) (f : Nat → Nat → Amp) (b bp : Nat) (bcharge : Int)
    (c cp : Nat) : Py ℂ := do
  let cbp ← kh.ind1 c bp bcharge
  let cpb ← kh.ind1 cp b bcharge
  sumM (List.range kh.nleads) fun l => do
    let w ← kh.rd f l cbp
    let w' ← kh.rd f l cpb
    pure (Tba l b c * Tba l cp bp * w.cur1 - Tba l b c * Tba l cp bp * conj w'.cur1)

/-- `generate_coupling_terms`: c_neumann1.pyx:87-166. -/
def coup (kh : CKH) (Tba : Nat → Nat → Nat → ℂ) (f : Nat → Nat → Amp) (b bp : Nat)
    (bcharge : Int) : Py (List KCall) :=
  kh.blocks b bp bcharge (fctA kh Tba f b bp bcharge) (fctL kh Tba f b bp bcharge)
    (fctR kh Tba f b bp bcharge) (fctC kh Tba f b bp bcharge)

/-- The loop over `bp`: c_neumann1.pyx:212-220. -/
def curB (kh : CKH) (Tba : Nat → Nat → Nat → ℂ) (phi0 : Vec) (w : Amp) (Bs : List Nat) (c b : Nat)
    (bcharge : Int) (l : Nat) : Py (ℂ × ℂ × ℂ) :=
  sumM Bs fun bp => do
    let i ← kh.isIncluded bp b bcharge
    if i then do
      let p ← kh.phi0Element phi0 bp b bcharge
      pure (Tba l c bp * p * w.cur0, Tba l b c * Tba l c bp * p * w.cur0,
        Tba l b c * Tba l c bp * p * w.en0)
    else pure 0

/-- The loop over `cp`: c_neumann1.pyx:222-230. -/
def curC (kh : CKH) (Tba : Nat → Nat → Nat → ℂ) (phi0 : Vec) (w : Amp) (Cs : List Nat) (c b : Nat)
    (ccharge : Int) (l : Nat) : Py (ℂ × ℂ × ℂ) :=
  sumM Cs fun cp => do
    let i ← kh.isIncluded c cp ccharge
    if i then do
      let p ← kh.phi0Element phi0 c cp ccharge
      pure (Tba l cp b * p * w.cur1, Tba l b c * p * Tba l cp b * w.cur1,
        Tba l b c * p * Tba l cp b * w.en1)
    else pure 0

/-- `generate_current`: c_neumann1.pyx:169-234. -/
def genCurrent (kh : CKH) (Tba : Nat → Nat → Nat → ℂ) (f : Nat → Nat → Amp) (phi0 : Vec) :
    Py (List CEv1) :=
  collect (List.range kh.ndm1) fun i => do
    let p ← cGet kh.allBa (i : Nat)
    let Bs ← kh.same (p.2.2 : Nat)
    let Cs ← kh.upper ((p.2.2 : Int) + 1)
    let cb ← kh.ind1 p.1 p.2.1 (p.2.2 : Nat)
    collect (List.range kh.nleads) fun l => do
      let w ← kh.rd f l cb
      let x ← curB kh Tba phi0 w Bs p.1 p.2.1 (p.2.2 : Nat) l
      let y ← curC kh Tba phi0 w Cs p.1 p.2.1 ((p.2.2 : Int) + 1) l
      pure [CEv1.mk ⟨l, -2 * (x.2.1 + y.2.1).im, -2 * (x.2.2 + y.2.2).im⟩ cb (x.1 + y.1)]

end CVN1

namespace CRedfield

/-- `fct_aap`: c_redfield.pyx:75-80. -/
def fctA (kh : CKH) (Tba : Nat → Nat → Nat → ℂ) (f : Nat → Nat → Amp) (b bp : Nat) (bcharge : Int)
    (a ap : Nat) : Py ℂ := do
  let bpap ← kh.ind1 bp ap (bcharge - 1)
  let ba ← kh.ind1 b a (bcharge - 1)
  sumM (List.range kh.nleads) fun l => do
    let w ← kh.rd f l bpap
    let w' ← kh.rd f l ba
    pure (Tba l b a * Tba l ap bp * conj w.cur0 - Tba l b a * Tba l ap bp * w'.cur0)

/-- `fct_bppbp`: c_redfield.pyx:86-96. -/
def fctL (kh : CKH) (Tba : Nat → Nat → Nat → ℂ) (f : Nat → Nat → Amp) (b : Nat) (bcharge : Int)
    (bpp : Nat) : Py ℂ := do
  let As ← kh.lower (bcharge - 1)
  let s1 ← sumM As fun a => do
    let bppa ← kh.ind1 bpp a (bcharge - 1)
    sumM (List.range kh.nleads) fun l => do
      let w ← kh.rd f l bppa
      pure (Tba l b a * Tba l a bpp * conj w.cur1)
  let Cs ← kh.upper (bcharge + 1)
  let s2 ← sumM Cs fun c => do
    let cbpp ← kh.ind1 c bpp bcharge
    sumM (List.range kh.nleads) fun l => do
      let w ← kh.rd f l cbpp
      pure (Tba l b c * Tba l c bpp * w.cur0)
  pure (s1 + s2)

/-- `fct_bbpp`: c_redfield.pyx:100-110. -/
def fctR (kh : CKH) (Tba : Nat → Nat → Nat → ℂ) (f : Nat → Nat → Amp) (bp : Nat) (bcharge : Int)
    (bpp : Nat) : Py ℂ := do
  let As ← kh.lower (bcharge - 1)
  let s1 ← sumM As fun a => do
    let bppa ← kh.ind1 bpp a (bcharge - 1)
    sumM (List.range kh.nleads) fun l => do
      let w ← kh.rd f l bppa
      pure (-Tba l bpp a * Tba l a bp * w.cur1)
  let Cs ← kh.upper (bcharge + 1)
  let s2 ← sumM Cs fun c => do
    let cbpp ← kh.ind1 c bpp bcharge
    sumM (List.range kh.nleads) fun l => do
      let w ← kh.rd f l cbpp
      pure (-Tba l bpp c * Tba l c bp * conj w.cur0)
  pure (s1 + s2)

/-- `fct_ccp`: c_redfield.pyx:119-124. -/
def fctC (kh : CKH) (Tba : Nat → Nat → Nat → ℂ) (f : Nat → Nat → Amp) (b bp : Nat) (bcharge : Int)
    (c cp : Nat) : Py ℂ := do
  let cpbp ← kh.ind1 cp bp bcharge
  let cb ← kh.ind1 c b bcharge
  sumM (List.range kh.nleads) fun l => do
    let w ← kh.rd f l cpbp
    let w' ← kh.rd f l cb
    pure (Tba l b c * Tba l cp bp * w.cur1 - Tba l b c * Tba l cp bp * conj w'.cur1)

/-- `generate_coupling_terms`: c_redfield.pyx:46-125. -/
def coup (kh : CKH) (Tba : Nat → Nat → Nat → ℂ) (f : Nat → Nat → Amp) (b bp : Nat)
    (bcharge : Int) : Py (List KCall) :=
  kh.blocks b bp bcharge (fctA kh Tba f b bp bcharge) (fctL kh Tba f b bcharge)
    (fctR kh Tba f bp bcharge) (fctC kh Tba f b bp bcharge)

/-- The loop over `bp`: c_redfield.pyx:166-178. -/
def curB (kh : CKH) (Tba : Nat → Nat → Nat → ℂ) (f : Nat → Nat → Amp) (phi0 : Vec) (Bs : List Nat)
    (c b : Nat) (bcharge : Int) (l : Nat) : Py (ℂ × ℂ × ℂ) :=
  sumM Bs fun bp => do
    let i ← kh.isIncluded bp b bcharge
    if i then do
      let p ← kh.phi0Element phi0 bp b bcharge
      let cbp ← kh.ind1 c bp bcharge
      let w ← kh.rd f l cbp
      pure (Tba l c bp * p * w.cur0, Tba l b c * Tba l c bp * p * w.cur0,
        Tba l b c * Tba l c bp * p * w.en0)
    else pure 0

/-- The loop over `cp`: c_redfield.pyx:180-192. -/
def curC (kh : CKH) (Tba : Nat → Nat → Nat → ℂ) (f : Nat → Nat → Amp) (phi0 : Vec) (Cs : List Nat)
    (c b : Nat) (bcharge ccharge : Int) (l : Nat) : Py (ℂ × ℂ × ℂ) :=
  sumM Cs fun cp => do
    let i ← kh.isIncluded c cp ccharge
    if i then do
      let p ← kh.phi0Element phi0 c cp ccharge
      let cpb ← kh.ind1 cp b bcharge
      let w ← kh.rd f l cpb
      pure (Tba l cp b * p * w.cur1, Tba l b c * p * Tba l cp b * w.cur1,
        Tba l b c * p * Tba l cp b * w.en1)
    else pure 0

/-- `generate_current`: c_redfield.pyx:128-196. -/
def genCurrent (kh : CKH) (Tba : Nat → Nat → Nat → ℂ) (f : Nat → Nat → Amp) (phi0 : Vec) :
    Py (List CEv1) :=
  collect (List.range kh.ndm1) fun i => do
    let p ← cGet kh.allBa (i : Nat)
    let Bs ← kh.same (p.2.2 : Nat)
    let Cs ← kh.upper ((p.2.2 : Int) + 1)
    let cb ← kh.ind1 p.1 p.2.1 (p.2.2 : Nat)
    collect (List.range kh.nleads) fun l => do
      let x ← curB kh Tba f phi0 Bs p.1 p.2.1 (p.2.2 : Nat) l
      let y ← curC kh Tba f phi0 Cs p.1 p.2.1 (p.2.2 : Nat) ((p.2.2 : Int) + 1) l
      pure [CEv1.mk ⟨l, -2 * (x.2.1 + y.2.1).im, -2 * (x.2.2 + y.2.2).im⟩ cb (x.1 + y.1)]

end CRedfield

end

end Verif
