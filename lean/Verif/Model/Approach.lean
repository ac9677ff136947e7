import Verif.Model.Kernel
import Verif.Model.Specfunc

/-!
Model of the first order approaches `qmeq/approach/base/pauli.py`, `lindblad.py`,
`redfield.py` and `neumann1.py`: the factors, the calls made on the kernel handler, and the
currents.

Simplifications: arrays of factors of shape `(nleads, ndm1, 2)` are functions of the lead and
of the position, with the second index checked against `ndm1` and two (or four) numbers kept
at each place. `phi1fct` and `phi1fct_energy` are one such array. A sum accumulated over two
consecutive loops is the sum of the two sums. The current arrays are given by the list of
increments made to them.
-/

namespace Verif

noncomputable section

open Complex (I)
open scoped ComplexConjugate

/-- The attributes of `LeadsTunneling` and of `funcp` the first order approaches use:
`mulst`, `tlst`, `dlst[l, 0]`, `dlst[l, 1]`, `Tba`, `itype`, `dqawc_limit`. -/
structure Leads where
  mu : Nat → ℝ
  T : Nat → ℝ
  Dm : Nat → ℝ
  Dp : Nat → ℝ
  Tba : Nat → Nat → Nat → ℂ
  itype : Int
  limit : Int

/-- `fct[l, k]` for an array of shape `(nleads, ndm1, ..)`. -/
def View.rd {β : Type} (v : View) (fct : Nat → Nat → β) (l k : Nat) : Py β :=
  if k < v.ndm1 then pure (fct l k) else .error .index

/-- `fct[l, k] = x`. -/
def View.wr {β : Type} (v : View) (fct : Nat → Nat → β) (l k : Nat) (x : β) :
    Py (Nat → Nat → β) :=
  if k < v.ndm1 then pure (fun l' k' => if l' = l ∧ k' = k then x else fct l' k')
  else .error .index

/-- The loops of `generate_fct` shared by pauli.py:45-56 and neumann1.py:51-62: the value
`f l c b` is stored for every lead and every pair of neighbouring states. -/
def View.fillFct {β : Type} (v : View) (z : β) (f : Nat → Nat → Nat → β) :
    Py (Nat → Nat → β) :=
  (List.range (v.ncharge - 1)).foldlM
    (fun fct (charge : Nat) => do
      let Cs ← v.states (charge + 1)
      let Bs ← v.states charge
      (prod2 Cs Bs).foldlM
        (fun fct p => do
          let cb ← v.ind1 p.1 p.2 charge
          (List.range v.nleads).foldlM (fun fct l => v.wr fct l cb (f l p.1 p.2)) fct) fct)
    (fun _ _ => z)

/-- An increment `current[l] += i; energy_current[l] += e`. -/
structure CEv where
  l : Nat
  i : ℝ
  e : ℝ

/-- `current[l]` after the increments. -/
def current (evs : List CEv) (l : Nat) : ℝ :=
  evs.foldl (fun s ev => if ev.l = l then s + ev.i else s) 0

/-- `energy_current[l]` after the increments. -/
def energyCurrent (evs : List CEv) (l : Nat) : ℝ :=
  evs.foldl (fun s ev => if ev.l = l then s + ev.e else s) 0

/-- `heat_current = energy_current - current*mulst`: pauli.py:135, lindblad.py:144,
redfield.py:135, neumann1.py:182. -/
def heatCurrent (L : Leads) (evs : List CEv) (l : Nat) : ℝ :=
  energyCurrent evs l - current evs l * L.mu l

/-- The kernel assembled by `generate_kern` on the zeros made by `prepare_arrays` or
`clean_arrays` (aprclass.py:152-153, 174-176): `n` columns, and `n` rows or one more when the
system of equations is not square. -/
def View.assemble (v : View) (n : Nat) (symq : Bool) (calls : Py (List KCall)) : Py Mat := do
  let cs ← calls
  v.runKern (Mat.zeros (if symq then n else n + 1) n) cs

/-! ### Pauli -/

namespace Pauli

/-- The numbers stored in `paulifct[l, cb]`: pauli.py:52-56. -/
def amp (E : Nat → ℝ) (L : Leads) (l c b : Nat) : ℝ × ℝ :=
  let xcb := (L.Tba l b c * L.Tba l c b).re
  let rez := funcPauli (E c - E b) (L.mu l) (L.T l) (L.Dm l) (L.Dp l) L.itype
  (xcb * rez.1, xcb * rez.2)

/-- `generate_fct`: pauli.py:31-56. -/
def genFct (v : View) (E : Nat → ℝ) (L : Leads) : Py (Nat → Nat → ℝ × ℝ) :=
  v.fillFct (0, 0) (amp E L)

/-- `generate_coupling_terms`: pauli.py:76-100. -/
def coup (v : View) (fct : Nat → Nat → ℝ × ℝ) (b : Nat) (bcharge : Int) : Py (List KCall) := do
  let bb ← v.ind0 b b bcharge
  let As ← v.states (bcharge - 1)
  let r1 ← collect As fun a => do
    let aa ← v.ind0 a a (bcharge - 1)
    let ba ← v.ind1 b a (bcharge - 1)
    let s ← sumM (List.range v.nleads) fun l => do
      let w ← v.rd fct l ba
      pure (-w.2, w.1)
    pure [KCall.pauli s.1 s.2 bb aa]
  let Cs ← v.states (bcharge + 1)
  let r2 ← collect Cs fun c => do
    let cc ← v.ind0 c c (bcharge + 1)
    let cb ← v.ind1 c b bcharge
    let s ← sumM (List.range v.nleads) fun l => do
      let w ← v.rd fct l cb
      pure (-w.1, w.2)
    pure [KCall.pauli s.1 s.2 bb cc]
  pure (r1 ++ r2)

/-- `generate_kern`: pauli.py:58-74. -/
def genKern (v : View) (fct : Nat → Nat → ℝ × ℝ) : Py (List KCall) :=
  collect (List.range v.ncharge) fun (c : Nat) => do
    let l ← v.states c
    collect l fun b => do
      let u ← v.isUnique b b c
      if u then coup v fct b c else pure []

/-- The kernel for a given array of factors. -/
def kernel (v : View) (symq : Bool) (fct : Nat → Nat → ℝ × ℝ) : Py Mat :=
  v.assemble v.npauli symq (genKern v fct)

/-- `generate_current`: pauli.py:102-135. -/
def genCurrent (v : View) (E : Nat → ℝ) (fct : Nat → Nat → ℝ × ℝ) (phi0 : Vec) :
    Py (List CEv) :=
  collect (List.range (v.ncharge - 1)) fun (charge : Nat) => do
    let Cs ← v.states (charge + 1)
    collect Cs fun c => do
      let cc ← v.ind0 c c (charge + 1)
      let Bs ← v.states charge
      collect Bs fun b => do
        let bb ← v.ind0 b b charge
        let cb ← v.ind1 c b charge
        collect (List.range v.nleads) fun l => do
          let pb ← phi0.get bb
          let pc ← phi0.get cc
          let w ← v.rd fct l cb
          let fct1 := pb * w.1
          let fct2 := -pc * w.2
          pure [CEv.mk l (fct1 + fct2) (-(E b - E c) * (fct1 + fct2))]

end Pauli

/-! ### The blocks of `generate_coupling_terms` -/

/-- `if kh.is_included(a, ap, acharge): kh.set_matrix_element(f, b, bp, bcharge, a, ap, acharge)`
where `f` is computed inside the block. -/
def View.elemIf (v : View) (f : Py ℂ) (b bp : Nat) (bcharge : Int) (a ap : Nat) (acharge : Int) :
    Py (List KCall) := do
  let i ← v.isIncluded a ap acharge
  if i then do
    let z ← f
    pure [KCall.elem z b bp bcharge a ap acharge]
  else pure []

/-- The loop structure shared by lindblad.py:54-96, redfield.py:30-83 and neumann1.py:64-117:
the elements `(a, ap)` of the lower charge state, then for each `bpp` the elements
`(bpp, bp)` and `(b, bpp)`, then the elements `(c, cp)` of the higher charge state. -/
def View.blocks (v : View) (b bp : Nat) (bcharge : Int) (fA : Nat → Nat → Py ℂ)
    (fL fR : Nat → Py ℂ) (fC : Nat → Nat → Py ℂ) : Py (List KCall) := do
  let As ← v.states (bcharge - 1)
  let r1 ← collect (prod2 As As) fun p =>
    v.elemIf (fA p.1 p.2) b bp bcharge p.1 p.2 (bcharge - 1)
  let Bs ← v.states bcharge
  let r2 ← collect Bs fun bpp => do
    let x ← v.elemIf (fL bpp) b bp bcharge bpp bp bcharge
    let y ← v.elemIf (fR bpp) b bp bcharge b bpp bcharge
    pure (x ++ y)
  let Cs ← v.states (bcharge + 1)
  let r3 ← collect (prod2 Cs Cs) fun p =>
    v.elemIf (fC p.1 p.2) b bp bcharge p.1 p.2 (bcharge + 1)
  pure (r1 ++ r2 ++ r3)

/-! ### Lindblad -/

namespace Lindblad

/-- `tLba[l, b, a] = x`. -/
def wr3 (t : Nat → Nat → Nat → ℂ) (l b a : Nat) (x : ℂ) : Nat → Nat → Nat → ℂ :=
  fun l' b' a' => if l' = l ∧ b' = b ∧ a' = a then x else t l' b' a'

/-- `generate_fct`: lindblad.py:29-52. -/
def genFct (v : View) (E : Nat → ℝ) (L : Leads) : Py (Nat → Nat → Nat → ℂ) :=
  (List.range (v.ncharge - 1)).foldlM
    (fun t (charge : Nat) => do
      let Bs ← v.states (charge + 1)
      let As ← v.states charge
      (prod2 Bs As).foldlM
        (fun t p =>
          (List.range v.nleads).foldlM
            (fun t l =>
              let r := funcPauli (E p.1 - E p.2) (L.mu l) (L.T l) (L.Dm l) (L.Dp l) L.itype
              let t := wr3 t l p.1 p.2 (Real.sqrt r.1 * L.Tba l p.1 p.2)
              pure (wr3 t l p.2 p.1 (Real.sqrt r.2 * L.Tba l p.2 p.1))) t) t)
    (fun _ _ _ => 0)

/-- `fct_aap` and `fct_ccp` times `1j`: lindblad.py:64-67, 92-95. -/
def jump (v : View) (t : Nat → Nat → Nat → ℂ) (b bp a ap : Nat) : Py ℂ := do
  let s ← sumM (List.range v.nleads) fun l => pure (t l b a * conj (t l bp ap))
  pure (I * s)

/-- `fct_bppbp` (with `x = b`, `y = bpp`) and `fct_bbpp` (with `x = bpp`, `y = bp`) times `1j`:
lindblad.py:71-78, 81-88. -/
def decay (v : View) (t : Nat → Nat → Nat → ℂ) (bcharge : Int) (x y : Nat) : Py ℂ := do
  let As ← v.states (bcharge - 1)
  let s1 ← sumM As fun a => sumM (List.range v.nleads) fun l =>
    pure (-(1 / 2) * conj (t l a x) * t l a y)
  let Cs ← v.states (bcharge + 1)
  let s2 ← sumM Cs fun c => sumM (List.range v.nleads) fun l =>
    pure (-(1 / 2) * conj (t l c x) * t l c y)
  pure (I * (s1 + s2))

/-- `generate_coupling_terms`: lindblad.py:54-96. -/
def coup (v : View) (t : Nat → Nat → Nat → ℂ) (b bp : Nat) (bcharge : Int) : Py (List KCall) :=
  v.blocks b bp bcharge (fun a ap => jump v t b bp a ap) (fun bpp => decay v t bcharge b bpp)
    (fun bpp => decay v t bcharge bpp bp) (fun c cp => jump v t b bp c cp)

/-- The kernel for given jump matrices. -/
def kernel (v : View) (symq : Bool) (E : Nat → ℝ) (t : Nat → Nat → Nat → ℂ) : Py Mat :=
  v.assemble v.ndm0r symq (v.genKern E (coup v t))

/-- The contribution of one element and one lead to the currents: lindblad.py:130-141. -/
def curTerm (v : View) (E : Nat → ℝ) (t : Nat → Nat → Nat → ℂ) (p : ℂ) (b bp : Nat)
    (bcharge : Int) (l : Nat) : Py CEv := do
  let As ← v.states (bcharge - 1)
  let sa ← sumM As fun a =>
    let fcta := t l a b * p * conj (t l a bp)
    pure (-fcta, ((E a - 1 / 2 * (E b + E bp) : ℝ) : ℂ) * fcta)
  let Cs ← v.states (bcharge + 1)
  let sc ← sumM Cs fun c =>
    let fctc := t l c b * p * conj (t l c bp)
    pure (fctc, ((E c - 1 / 2 * (E b + E bp) : ℝ) : ℂ) * fctc)
  pure ⟨l, (sa.1 + sc.1).re, (sa.2 + sc.2).re⟩

/-- `generate_current`: lindblad.py:98-144. -/
def genCurrent (v : View) (E : Nat → ℝ) (t : Nat → Nat → Nat → ℂ) (phi0 : Vec) :
    Py (List CEv) :=
  collect (List.range v.ncharge) fun (charge : Nat) => do
    let Bs ← v.states charge
    collect (prod2 Bs Bs) fun p => do
      let i ← v.isIncluded p.1 p.2 charge
      if i then do
        let ph ← v.phi0Element phi0 p.1 p.2 charge
        collect (List.range v.nleads) fun l => do
          let ev ← curTerm v E t ph p.1 p.2 charge l
          pure [ev]
      else pure []

end Lindblad

/-! ### 1vN and Redfield -/

/-- The factors stored for a lead and a pair of neighbouring states: neumann1.py:56-62. -/
def amp1vN (lib : NumLib) (E : Nat → ℝ) (L : Leads) (l c b : Nat) : Amp :=
  func1vN lib (E c - E b) (L.mu l) (L.T l) (L.Dm l) (L.Dp l) L.itype L.limit

/-- `generate_fct`: neumann1.py:33-62 (also used by redfield.py:27-28). -/
def genFct1vN (v : View) (lib : NumLib) (E : Nat → ℝ) (L : Leads) : Py (Nat → Nat → Amp) :=
  v.fillFct ⟨0, 0, 0, 0⟩ (amp1vN lib E L)

/-- The contribution of one pair `c, b` and one lead to the currents, and the increment of
`phi1[l, cb]`. -/
structure CEv1 where
  ev : CEv
  cb : Nat
  phi1 : ℂ

namespace VN1

/-- `fct_aap`: neumann1.py:75-80. -/
def fctA (v : View) (Tba : Nat → Nat → Nat → ℂ) (f : Nat → Nat → Amp) (b bp : Nat) (bcharge : Int)
    (a ap : Nat) : Py ℂ := do
  let bpa ← v.ind1 bp a (bcharge - 1)
  let bap ← v.ind1 b ap (bcharge - 1)
  sumM (List.range v.nleads) fun l => do
    let w ← v.rd f l bpa
    let w' ← v.rd f l bap
    pure (Tba l b a * Tba l ap bp * conj w.cur0 - Tba l b a * Tba l ap bp * w'.cur0)

/-- `fct_bppbp`: neumann1.py:85-93. -/
def fctL (v : View) (Tba : Nat → Nat → Nat → ℂ) (f : Nat → Nat → Amp) (b bp : Nat) (bcharge : Int)
    (bpp : Nat) : Py ℂ := do
  let As ← v.states (bcharge - 1)
  let s1 ← sumM As fun a => do
    let bpa ← v.ind1 bp a (bcharge - 1)
    sumM (List.range v.nleads) fun l => do
      let w ← v.rd f l bpa
      pure (Tba l b a * Tba l a bpp * conj w.cur1)
  let Cs ← v.states (bcharge + 1)
  let s2 ← sumM Cs fun c => do
    let cbp ← v.ind1 c bp bcharge
    sumM (List.range v.nleads) fun l => do
      let w ← v.rd f l cbp
      pure (Tba l b c * Tba l c bpp * w.cur0)
  pure (s1 + s2)

/-- `fct_bbpp`: neumann1.py:97-105. -/
def fctR (v : View) (Tba : Nat → Nat → Nat → ℂ) (f : Nat → Nat → Amp) (b bp : Nat) (bcharge : Int)
    (bpp : Nat) : Py ℂ := do
  let As ← v.states (bcharge - 1)
  let s1 ← sumM As fun a => do
    let ba ← v.ind1 b a (bcharge - 1)
    sumM (List.range v.nleads) fun l => do
      let w ← v.rd f l ba
      pure (-Tba l bpp a * Tba l a bp * w.cur1)
  let Cs ← v.states (bcharge + 1)
  let s2 ← sumM Cs fun c => do
    let cb ← v.ind1 c b bcharge
    sumM (List.range v.nleads) fun l => do
      let w ← v.rd f l cb
      pure (-Tba l bpp c * Tba l c bp * conj w.cur0)
  pure (s1 + s2)

/-- `fct_ccp`: neumann1.py:110-115. -/
def fctC (v : View) (Tba : Nat → Nat → Nat → ℂ) (f : Nat → Nat → Amp) (b bp : Nat) (bcharge : Int)
    (c cp : Nat) : Py ℂ := do
  let cbp ← v.ind1 c bp bcharge
  let cpb ← v.ind1 cp b bcharge
  sumM (List.range v.nleads) fun l => do
    let w ← v.rd f l cbp
    let w' ← v.rd f l cpb
    pure (Tba l b c * Tba l cp bp * w.cur1 - Tba l b c * Tba l cp bp * conj w'.cur1)

/-- `generate_coupling_terms`: neumann1.py:64-117. -/
def coup (v : View) (Tba : Nat → Nat → Nat → ℂ) (f : Nat → Nat → Amp) (b bp : Nat)
    (bcharge : Int) : Py (List KCall) :=
  v.blocks b bp bcharge (fctA v Tba f b bp bcharge) (fctL v Tba f b bp bcharge)
    (fctR v Tba f b bp bcharge) (fctC v Tba f b bp bcharge)

/-- The kernel for a given array of factors. -/
def kernel (v : View) (symq : Bool) (E : Nat → ℝ) (Tba : Nat → Nat → Nat → ℂ)
    (f : Nat → Nat → Amp) : Py Mat :=
  v.assemble v.ndm0r symq (v.genKern E (coup v Tba f))

/-- The loop over `bp`: neumann1.py:161-168. The three sums are `phi1_l`, `current_l`,
`energy_current_l`. -/
def curB (v : View) (Tba : Nat → Nat → Nat → ℂ) (phi0 : Vec) (w : Amp) (c b : Nat)
    (bcharge : Int) (l : Nat) : Py (ℂ × ℂ × ℂ) := do
  let Bs ← v.states bcharge
  sumM Bs fun bp => do
    let i ← v.isIncluded bp b bcharge
    if i then do
      let p ← v.phi0Element phi0 bp b bcharge
      pure (Tba l c bp * p * w.cur0, Tba l b c * Tba l c bp * p * w.cur0,
        Tba l b c * Tba l c bp * p * w.en0)
    else pure 0

/-- The loop over `cp`: neumann1.py:170-177. -/
def curC (v : View) (Tba : Nat → Nat → Nat → ℂ) (phi0 : Vec) (w : Amp) (c b : Nat)
    (ccharge : Int) (l : Nat) : Py (ℂ × ℂ × ℂ) := do
  let Cs ← v.states ccharge
  sumM Cs fun cp => do
    let i ← v.isIncluded c cp ccharge
    if i then do
      let p ← v.phi0Element phi0 c cp ccharge
      pure (Tba l cp b * p * w.cur1, Tba l b c * p * Tba l cp b * w.cur1,
        Tba l b c * p * Tba l cp b * w.en1)
    else pure 0

/-- `generate_current`: neumann1.py:119-182. -/
def genCurrent (v : View) (Tba : Nat → Nat → Nat → ℂ) (f : Nat → Nat → Amp) (phi0 : Vec) :
    Py (List CEv1) :=
  collect (List.range (v.ncharge - 1)) fun (charge : Nat) => do
    let Cs ← v.states (charge + 1)
    let Bs ← v.states charge
    collect (prod2 Cs Bs) fun p => do
      let cb ← v.ind1 p.1 p.2 charge
      collect (List.range v.nleads) fun l => do
        let w ← v.rd f l cb
        let x ← curB v Tba phi0 w p.1 p.2 charge l
        let y ← curC v Tba phi0 w p.1 p.2 (charge + 1) l
        pure [CEv1.mk ⟨l, -2 * (x.2.1 + y.2.1).im, -2 * (x.2.2 + y.2.2).im⟩ cb (x.1 + y.1)]

end VN1

namespace Redfield

/-- `fct_aap`: redfield.py:41-46. -/
def fctA (v : View) (Tba : Nat → Nat → Nat → ℂ) (f : Nat → Nat → Amp) (b bp : Nat) (bcharge : Int)
    (a ap : Nat) : Py ℂ := do
  let bpap ← v.ind1 bp ap (bcharge - 1)
  let ba ← v.ind1 b a (bcharge - 1)
  sumM (List.range v.nleads) fun l => do
    let w ← v.rd f l bpap
    let w' ← v.rd f l ba
    pure (Tba l b a * Tba l ap bp * conj w.cur0 - Tba l b a * Tba l ap bp * w'.cur0)

/-- `fct_bppbp`: redfield.py:51-59. -/
def fctL (v : View) (Tba : Nat → Nat → Nat → ℂ) (f : Nat → Nat → Amp) (b : Nat) (bcharge : Int)
    (bpp : Nat) : Py ℂ := do
  let As ← v.states (bcharge - 1)
  let s1 ← sumM As fun a => do
    let bppa ← v.ind1 bpp a (bcharge - 1)
    sumM (List.range v.nleads) fun l => do
      let w ← v.rd f l bppa
      pure (Tba l b a * Tba l a bpp * conj w.cur1)
  let Cs ← v.states (bcharge + 1)
  let s2 ← sumM Cs fun c => do
    let cbpp ← v.ind1 c bpp bcharge
    sumM (List.range v.nleads) fun l => do
      let w ← v.rd f l cbpp
      pure (Tba l b c * Tba l c bpp * w.cur0)
  pure (s1 + s2)

/-- `fct_bbpp`: redfield.py:63-71. -/
def fctR (v : View) (Tba : Nat → Nat → Nat → ℂ) (f : Nat → Nat → Amp) (bp : Nat) (bcharge : Int)
    (bpp : Nat) : Py ℂ := do
  let As ← v.states (bcharge - 1)
  let s1 ← sumM As fun a => do
    let bppa ← v.ind1 bpp a (bcharge - 1)
    sumM (List.range v.nleads) fun l => do
      let w ← v.rd f l bppa
      pure (-Tba l bpp a * Tba l a bp * w.cur1)
  let Cs ← v.states (bcharge + 1)
  let s2 ← sumM Cs fun c => do
    let cbpp ← v.ind1 c bpp bcharge
    sumM (List.range v.nleads) fun l => do
      let w ← v.rd f l cbpp
      pure (-Tba l bpp c * Tba l c bp * conj w.cur0)
  pure (s1 + s2)

/-- `fct_ccp`: redfield.py:76-81. -/
def fctC (v : View) (Tba : Nat → Nat → Nat → ℂ) (f : Nat → Nat → Amp) (b bp : Nat) (bcharge : Int)
    (c cp : Nat) : Py ℂ := do
  let cpbp ← v.ind1 cp bp bcharge
  let cb ← v.ind1 c b bcharge
  sumM (List.range v.nleads) fun l => do
    let w ← v.rd f l cpbp
    let w' ← v.rd f l cb
    pure (Tba l b c * Tba l cp bp * w.cur1 - Tba l b c * Tba l cp bp * conj w'.cur1)

/-- `generate_coupling_terms`: redfield.py:30-83. -/
def coup (v : View) (Tba : Nat → Nat → Nat → ℂ) (f : Nat → Nat → Amp) (b bp : Nat)
    (bcharge : Int) : Py (List KCall) :=
  v.blocks b bp bcharge (fctA v Tba f b bp bcharge) (fctL v Tba f b bcharge)
    (fctR v Tba f bp bcharge) (fctC v Tba f b bp bcharge)

/-- The kernel for a given array of factors. -/
def kernel (v : View) (symq : Bool) (E : Nat → ℝ) (Tba : Nat → Nat → Nat → ℂ)
    (f : Nat → Nat → Amp) : Py Mat :=
  v.assemble v.ndm0r symq (v.genKern E (coup v Tba f))

/-- The loop over `bp`: redfield.py:107-118. -/
def curB (v : View) (Tba : Nat → Nat → Nat → ℂ) (f : Nat → Nat → Amp) (phi0 : Vec) (c b : Nat)
    (bcharge : Int) (l : Nat) : Py (ℂ × ℂ × ℂ) := do
  let Bs ← v.states bcharge
  sumM Bs fun bp => do
    let i ← v.isIncluded bp b bcharge
    if i then do
      let p ← v.phi0Element phi0 bp b bcharge
      let cbp ← v.ind1 c bp bcharge
      let w ← v.rd f l cbp
      pure (Tba l c bp * p * w.cur0, Tba l b c * Tba l c bp * p * w.cur0,
        Tba l b c * Tba l c bp * p * w.en0)
    else pure 0

/-- The loop over `cp`: redfield.py:120-131. -/
def curC (v : View) (Tba : Nat → Nat → Nat → ℂ) (f : Nat → Nat → Amp) (phi0 : Vec) (c b : Nat)
    (bcharge ccharge : Int) (l : Nat) : Py (ℂ × ℂ × ℂ) := do
  let Cs ← v.states ccharge
  sumM Cs fun cp => do
    let i ← v.isIncluded c cp ccharge
    if i then do
      let p ← v.phi0Element phi0 c cp ccharge
      let cpb ← v.ind1 cp b bcharge
      let w ← v.rd f l cpb
      pure (Tba l cp b * p * w.cur1, Tba l b c * p * Tba l cp b * w.cur1,
        Tba l b c * p * Tba l cp b * w.en1)
    else pure 0

/-- `generate_current`: redfield.py:85-135. -/
def genCurrent (v : View) (Tba : Nat → Nat → Nat → ℂ) (f : Nat → Nat → Amp) (phi0 : Vec) :
    Py (List CEv1) :=
  collect (List.range (v.ncharge - 1)) fun (charge : Nat) => do
    let Cs ← v.states (charge + 1)
    let Bs ← v.states charge
    collect (prod2 Cs Bs) fun p => do
      let cb ← v.ind1 p.1 p.2 charge
      collect (List.range v.nleads) fun l => do
        let x ← curB v Tba f phi0 p.1 p.2 charge l
        let y ← curC v Tba f phi0 p.1 p.2 charge (charge + 1) l
        pure [CEv1.mk ⟨l, -2 * (x.2.1 + y.2.1).im, -2 * (x.2.2 + y.2.2).im⟩ cb (x.1 + y.1)]

end Redfield

end

end Verif
