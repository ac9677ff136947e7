import Verif.Model.Approach

/-!
Model of the electron-phonon approaches `qmeq/approach/elph/pauli.py`, `lindblad.py`,
`redfield.py` and `neumann1.py`, and of `FuncPauliElPh` in `qmeq/specfunc/specfunc_elph.py`.

The approaches read two indexing objects: `si` (`v` below) and `si_elph` (`e`), the latter of
class `StateIndexingDMc`. `nb` is the number of baths (`si.nbaths`, copied to `si_elph.nbaths`
when `si_elph` is made, builder_elph.py:121).

Simplifications: as in `Verif.Model.Approach`. Arrays of shape `(nbaths, ndm0, ..)` are
functions of the bath and of the position, with the second index treated as Python does for an
array of length `si_elph.ndm0`. `Vbbp` and the values of `Func1vNElPh` (integrals) are
arbitrary functions. `tLbbp[l, b, bp, 0]` and `tLbbp[l, b, bp, 1]` are the two components of a
pair.
-/

namespace Verif

noncomputable section

open Complex (I)
open scoped ComplexConjugate

/-- `fct[l, k]` for an array of shape `(nbaths, si_elph.ndm0, ..)`. -/
def View.rd0 {β : Type} (e : View) (fct : Nat → Nat → β) (l : Nat) (k : Int) : Py β := do
  let i ← pyIdx e.ndm0 k
  pure (fct l i)

/-- `fct[l, k] = x`. -/
def View.wr0 {β : Type} (e : View) (fct : Nat → Nat → β) (l : Nat) (k : Int) (x : β) :
    Py (Nat → Nat → β) := do
  let i ← pyIdx e.ndm0 k
  pure fun l' k' => if l' = l ∧ k' = i then x else fct l' k'

/-- The attributes of `PhononBaths` and of `funcp` that `FuncPauliElPh` uses: `tlst_ph`,
`dlst_ph[l, 0]`, `dlst_ph[l, 1]`, the density of states `bath_func[l].eval` (constant one when
there is no `bath_func`), `eps_elph`, and the coupling matrices `Vbbp`. -/
structure PhBaths where
  T : Nat → ℝ
  omm : Nat → ℝ
  omp : Nat → ℝ
  dos : Nat → ℝ → ℝ
  eps : ℝ
  V : Nat → Nat → Nat → ℂ

/-- `FuncBose.eval`: specfunc_elph.py:18-21. -/
def bose (x : ℝ) : ℝ := 1 / (Real.exp x - 1)

/-- `alpha`: specfunc_elph.py:42. -/
def PhBaths.alpha (B : PhBaths) (E : ℝ) (l : Nat) : ℝ :=
  max |E / B.T l| B.eps * (if 0 ≤ E then 1 else -1)

open Classical in
/-- `FuncPauliElPh.eval`: specfunc_elph.py:39-53. -/
def PhBaths.rate (B : PhBaths) (E : ℝ) (l : Nat) : ℝ :=
  let alpha := B.alpha E l
  let Rm := max (B.omm l / B.T l) (0.9 * B.eps)
  let Rp := B.omp l / B.T l
  if Rm < alpha ∧ alpha < Rp then
    2 * Real.pi * bose alpha * B.dos l (B.T l * alpha)
  else if Rm < -alpha ∧ -alpha < Rp then
    2 * Real.pi * (1 + bose (-alpha)) * B.dos l (-B.T l * alpha)
  else 0

open Classical in
/-- `Func1vNElPh.eval`: specfunc_elph.py:62-95. `quad f a b x` stands for the principal value
integral of `f` from `a` to `b` with pole at `x`, as computed by `scipy.integrate.quad` (its
error estimate is dropped). For other values of `itype` the attributes keep their initial
value. -/
def PhBaths.func1vN (B : PhBaths) (quad : (ℝ → ℝ) → ℝ → ℝ → ℝ → ℝ) (itype : Int) (E : ℝ) (l : Nat) :
    ℂ × ℂ :=
  let alpha := B.alpha E l
  let Rm := max (B.omm l / B.T l) (0.9 * B.eps)
  let Rp := B.omp l / B.T l
  let iplus : ℝ → ℝ := fun x => B.dos l (B.T l * x) * bose x
  let iminus : ℝ → ℝ := fun x => -(B.dos l (B.T l * x)) * (1 + bose x)
  let r0 : ℂ := if Rm < alpha ∧ alpha < Rp then -I * Real.pi * iplus alpha else 0
  let r1 : ℂ := if Rm < alpha ∧ alpha < Rp then -I * Real.pi * iminus alpha else 0
  if itype = 0 then (quad iplus Rm Rp alpha + r0, quad iminus Rm Rp alpha + r1)
  else if itype = 2 then (r0, r1)
  else (0, 0)

/-! ### Pauli -/

namespace PauliPh

/-- `xbbp*func_pauli.val`: elph/pauli.py:53-56. -/
def amp (E : Nat → ℝ) (B : PhBaths) (l b bp : Nat) : ℝ :=
  (0.5 * (B.V l b bp * conj (B.V l b bp) + conj (B.V l bp b) * B.V l bp b)).re
    * B.rate (E b - E bp) l

/-- One pair of `generate_fct`: elph/pauli.py:47-56. -/
def fctStep (e : View) (nb : Nat) (E : Nat → ℝ) (B : PhBaths) (charge : Nat)
    (fct : Nat → Nat → ℝ) (p : Nat × Nat) : Py (Nat → Nat → ℝ) := do
  let u ← e.bool0 p.1 p.2 charge
  if u then do
    let bbp ← e.ind0 p.1 p.2 charge
    (List.range nb).foldlM (fun fct l => e.wr0 fct l bbp (amp E B l p.1 p.2)) fct
  else pure fct

/-- The part of `generate_fct` after the call of the base class: elph/pauli.py:36-56. -/
def genFct (e : View) (nb : Nat) (E : Nat → ℝ) (B : PhBaths) : Py (Nat → Nat → ℝ) :=
  (List.range e.ncharge).foldlM
    (fun fct (charge : Nat) => do
      let l ← e.states charge
      (perms2 l).foldlM (fctStep e nb E B charge) fct)
    (fun _ _ => 0)

/-- The loop body of `generate_coupling_terms`: elph/pauli.py:72-82. -/
def coupStep (v e : View) (nb : Nat) (fct : Nat → Nat → ℝ) (b : Nat) (bcharge bb : Int) (a : Nat) :
    Py (List KCall) := do
  let aa ← v.ind0 a a bcharge
  let ab ← e.ind0 a b bcharge
  let ba ← e.ind0 b a bcharge
  if aa = -1 ∨ ba = -1 then pure [] else do
    let s ← sumM (List.range nb) fun l => do
      let wm ← e.rd0 fct l ab
      let wp ← e.rd0 fct l ba
      pure (-wm, wp)
    pure [KCall.pauli s.1 s.2 bb aa]

/-- The part of `generate_coupling_terms` after the call of the base class:
elph/pauli.py:64-82. -/
def extra (v e : View) (nb : Nat) (fct : Nat → Nat → ℝ) (b : Nat) (bcharge : Int) :
    Py (List KCall) := do
  let bb ← v.ind0 b b bcharge
  let As ← v.states bcharge
  collect As (coupStep v e nb fct b bcharge bb)

/-- `generate_coupling_terms`: elph/pauli.py:61-82. -/
def coup (v e : View) (nb : Nat) (fe : Nat → Nat → ℝ × ℝ) (fp : Nat → Nat → ℝ) (b : Nat)
    (bcharge : Int) : Py (List KCall) := do
  let r ← Pauli.coup v fe b bcharge
  let x ← extra v e nb fp b bcharge
  pure (r ++ x)

/-- `generate_kern`: elph/pauli.py:58-59 and base/pauli.py:58-74, which calls
`self.generate_coupling_terms`. -/
def genKern (v e : View) (nb : Nat) (fe : Nat → Nat → ℝ × ℝ) (fp : Nat → Nat → ℝ) :
    Py (List KCall) :=
  collect (List.range v.ncharge) fun (c : Nat) => do
    let l ← v.states c
    collect l fun b => do
      let u ← v.isUnique b b c
      if u then coup v e nb fe fp b c else pure []

/-- The kernel for given arrays of factors. -/
def kernel (v e : View) (nb : Nat) (symq : Bool) (fe : Nat → Nat → ℝ × ℝ) (fp : Nat → Nat → ℝ) :
    Py Mat :=
  v.assemble v.npauli symq (genKern v e nb fe fp)

end PauliPh

/-! ### The loops of the other approaches -/

/-- `if kh.is_included(a, ap, acharge): ... kh.set_matrix_element(f, b, bp, bcharge, a, ap,
acharge)`, where the computation of `f` may end in `continue` (`none`). -/
def View.elemSkip (v : View) (f : Py (Option ℂ)) (b bp : Nat) (bcharge : Int) (a ap : Nat) :
    Py (List KCall) := do
  let i ← v.isIncluded a ap bcharge
  if i then do
    let z ← f
    match z with
    | some z => pure [KCall.elem z b bp bcharge a ap bcharge]
    | none => pure []
  else pure []

/-- The loop over pairs `a, ap` of the charge of `b`: elph/lindblad.py:71-76,
elph/redfield.py:40-51, 94-105, elph/neumann1.py:76-87, 130-141. -/
def View.pairs (v : View) (b bp : Nat) (bcharge : Int) (f : Nat → Nat → Py (Option ℂ)) :
    Py (List KCall) := do
  let l ← v.states bcharge
  collect (prod2 l l) fun p => v.elemSkip (f p.1 p.2) b bp bcharge p.1 p.2

/-- The loop over `bpp`: elph/lindblad.py:78-91, elph/redfield.py:53-92,
elph/neumann1.py:89-128. -/
def View.sides (v : View) (b bp : Nat) (bcharge : Int) (fL fR : Nat → Py ℂ) :
    Py (List KCall) := do
  let l ← v.states bcharge
  collect l fun bpp => do
    let x ← v.elemIf (fL bpp) b bp bcharge bpp bp bcharge
    let y ← v.elemIf (fR bpp) b bp bcharge b bpp bcharge
    pure (x ++ y)

/-! ### Lindblad -/

namespace LindbladPh

/-- `tLbbp[l, b, bp, :]` for given values of `func_pauli`, which is evaluated at zero for
`b = bp`: elph/lindblad.py:41-57. Simplification: the array is filled only for considered
states of equal charge, but other entries are never read. -/
def jumpAmp (E : Nat → ℝ) (B : PhBaths) (l b bp : Nat) : ℂ × ℂ :=
  if b = bp then
    (Real.sqrt (0.5 * B.rate 0 l) * B.V l b b, conj (Real.sqrt (0.5 * B.rate 0 l) * B.V l b b))
  else
    (Real.sqrt (0.5 * B.rate (E b - E bp) l) * B.V l b bp,
      Real.sqrt (0.5 * B.rate (E b - E bp) l) * conj (B.V l bp b))

/-- `fct_aap` times `1j`: elph/lindblad.py:73-76. -/
def jump (nb : Nat) (t : Nat → Nat → Nat → ℂ × ℂ) (b bp a ap : Nat) : Py (Option ℂ) := do
  let s ← sumM (List.range nb) fun l =>
    pure ((t l b a).1 * conj (t l bp ap).1 + (t l b a).2 * conj (t l bp ap).2)
  pure (some (I * s))

/-- `fct_bppbp` (with `x = b`, `y = bpp`) and `fct_bbpp` (with `x = bpp`, `y = bp`) times `1j`:
elph/lindblad.py:80-91. -/
def decay (v : View) (nb : Nat) (t : Nat → Nat → Nat → ℂ × ℂ) (bcharge : Int) (x y : Nat) :
    Py ℂ := do
  let As ← v.states bcharge
  let s ← sumM As fun a => sumM (List.range nb) fun l =>
    pure (-0.5 * conj (t l a x).1 * (t l a y).1 + -0.5 * conj (t l a x).2 * (t l a y).2)
  pure (I * s)

/-- The part of `generate_coupling_terms` after the call of the base class:
elph/lindblad.py:62-91. -/
def extra (v : View) (nb : Nat) (t : Nat → Nat → Nat → ℂ × ℂ) (b bp : Nat) (bcharge : Int) :
    Py (List KCall) := do
  let r1 ← v.pairs b bp bcharge fun a ap => jump nb t b bp a ap
  let r2 ← v.sides b bp bcharge (fun bpp => decay v nb t bcharge b bpp)
    (fun bpp => decay v nb t bcharge bpp bp)
  pure (r1 ++ r2)

/-- `generate_coupling_terms`: elph/lindblad.py:59-91. -/
def coup (v : View) (nb : Nat) (te : Nat → Nat → Nat → ℂ) (t : Nat → Nat → Nat → ℂ × ℂ)
    (b bp : Nat) (bcharge : Int) : Py (List KCall) := do
  let r ← Lindblad.coup v te b bp bcharge
  let x ← extra v nb t b bp bcharge
  pure (r ++ x)

/-- The kernel for given jump matrices. -/
def kernel (v : View) (nb : Nat) (symq : Bool) (E : Nat → ℝ) (te : Nat → Nat → Nat → ℂ)
    (t : Nat → Nat → Nat → ℂ × ℂ) : Py Mat :=
  v.assemble v.ndm0r symq (v.genKern E (coup v nb te t))

end LindbladPh

/-! ### 1vN and Redfield -/

namespace CohPh

/-- `gamma_ba_bpap`, `gamma_ba_bppa`, `gamma_bc_bppc`, `gamma_bc_bpcp`: elph/neumann1.py:84-85,
97-98, 105-106, 138-139, elph/redfield.py:48-49, 61-62, 69-70, 102-103. -/
def gam (V : Nat → Nat → Nat → ℂ) (l b a bp ap : Nat) : ℂ :=
  0.5 * (V l b a * conj (V l bp ap) + conj (V l a b) * V l ap bp)

/-- `gamma_abpp_abp`, `gamma_cbpp_cbp`: elph/neumann1.py:117-118, 125-126,
elph/redfield.py:81-82, 89-90. -/
def gam' (V : Nat → Nat → Nat → ℂ) (l a bpp bp : Nat) : ℂ :=
  0.5 * (conj (V l a bpp) * V l a bp + V l bpp a * conj (V l bp a))

/-- `fct_aap`, given the two labels: elph/neumann1.py:80-87, elph/redfield.py:44-51. -/
def pairA (e : View) (nb : Nat) (V : Nat → Nat → Nat → ℂ) (w : Nat → Nat → ℂ × ℂ)
    (b bp a ap : Nat) (i j : Int) : Py (Option ℂ) :=
  if i = -1 ∨ j = -1 then pure none else do
    let s ← sumM (List.range nb) fun l => do
      let x ← e.rd0 w l i
      let y ← e.rd0 w l j
      pure (gam V l b a bp ap * (conj x.1 - y.1))
    pure (some s)

/-- `fct_ccp`, given the two labels: elph/neumann1.py:134-141, elph/redfield.py:98-105. -/
def pairC (e : View) (nb : Nat) (V : Nat → Nat → Nat → ℂ) (w : Nat → Nat → ℂ × ℂ)
    (b bp c cp : Nat) (i j : Int) : Py (Option ℂ) :=
  if i = -1 ∨ j = -1 then pure none else do
    let s ← sumM (List.range nb) fun l => do
      let x ← e.rd0 w l i
      let y ← e.rd0 w l j
      pure (gam V l b c bp cp * (x.2 - conj y.2))
    pure (some s)

/-- The term added for one state, nothing when its label is `-1` (`continue`). -/
def skipSum (e : View) (nb : Nat) (w : Nat → Nat → ℂ × ℂ) (i : Int) (g : Nat → ℂ × ℂ → ℂ) :
    Py ℂ :=
  if i = -1 then pure 0 else
    sumM (List.range nb) fun l => do
      let x ← e.rd0 w l i
      pure (g l x)

/-- `fct_bppbp`, where `s` is the state whose labels are looked up (`bp` in 1vN, `bpp` in
Redfield): elph/neumann1.py:91-107, elph/redfield.py:55-71. -/
def fctL (v e : View) (nb : Nat) (V : Nat → Nat → Nat → ℂ) (w : Nat → Nat → ℂ × ℂ) (b : Nat)
    (bcharge : Int) (bpp s : Nat) : Py ℂ := do
  let l ← v.states bcharge
  let s1 ← sumM l fun a => do
    let i ← e.ind0 s a bcharge
    skipSum e nb w i fun l x => gam V l b a bpp a * conj x.2
  let s2 ← sumM l fun c => do
    let i ← e.ind0 c s bcharge
    skipSum e nb w i fun l x => gam V l b c bpp c * x.1
  pure (s1 + s2)

/-- `fct_bbpp`, where `s` is the state whose labels are looked up (`b` in 1vN, `bpp` in
Redfield): elph/neumann1.py:111-127, elph/redfield.py:75-91. -/
def fctR (v e : View) (nb : Nat) (V : Nat → Nat → Nat → ℂ) (w : Nat → Nat → ℂ × ℂ) (bp : Nat)
    (bcharge : Int) (bpp s : Nat) : Py ℂ := do
  let l ← v.states bcharge
  let s1 ← sumM l fun a => do
    let i ← e.ind0 s a bcharge
    skipSum e nb w i fun l x => -gam' V l a bpp bp * x.2
  let s2 ← sumM l fun c => do
    let i ← e.ind0 c s bcharge
    skipSum e nb w i fun l x => -gam' V l c bpp bp * conj x.1
  pure (s1 + s2)

/-- The four blocks. -/
def blocks (v : View) (b bp : Nat) (bcharge : Int) (fA : Nat → Nat → Py (Option ℂ))
    (fL fR : Nat → Py ℂ) (fC : Nat → Nat → Py (Option ℂ)) : Py (List KCall) := do
  let r1 ← v.pairs b bp bcharge fA
  let r2 ← v.sides b bp bcharge fL fR
  let r3 ← v.pairs b bp bcharge fC
  pure (r1 ++ r2 ++ r3)

end CohPh

namespace VN1Ph

open CohPh

/-- `func_1vN_elph.val0 - 0.5j*func_1vN_elph.val0.imag` and the same for `val1`:
elph/neumann1.py:51-52. -/
def diagAmp (z : ℂ × ℂ) : ℂ × ℂ := (z.1 - 0.5 * I * z.1.im, z.2 - 0.5 * I * z.2.im)

/-- One element of the arrays: elph/neumann1.py:48-52 and 56-63. The test for `-1` and the flag are
the same in both loops. -/
def fctStep (e : View) (charge : Nat) (b bp : Nat) (ls : List Nat) (x : Nat → ℂ × ℂ)
    (w : Nat → Nat → ℂ × ℂ) : Py (Nat → Nat → ℂ × ℂ) := do
  let bbp ← e.ind0 b bp charge
  let u ← e.bool0 b bp charge
  if bbp ≠ -1 ∧ u = true then
    ls.foldlM (fun w l => e.wr0 w l bbp (x l)) w
  else pure w

/-- The part of `generate_fct` after the call of the base class: elph/neumann1.py:34-63. -/
def genFct (e : View) (nb : Nat) (E : Nat → ℝ) (B : PhBaths)
    (quad : (ℝ → ℝ) → ℝ → ℝ → ℝ → ℝ) (itype : Int) : Py (Nat → Nat → ℂ × ℂ) := do
  let w ← (List.range nb).foldlM
    (fun w l => (List.range e.ncharge).foldlM
      (fun w (charge : Nat) => do
        let bs ← e.states charge
        bs.foldlM (fun w b => fctStep e charge b b [l]
          (fun l => diagAmp (B.func1vN quad itype 0 l)) w) w) w)
    (fun _ _ => (0, 0))
  (List.range e.ncharge).foldlM
    (fun w (charge : Nat) => do
      let bs ← e.states charge
      (perms2 bs).foldlM (fun w p => fctStep e charge p.1 p.2 (List.range nb)
        (fun l => B.func1vN quad itype (E p.1 - E p.2) l) w) w) w

/-- The part of `generate_coupling_terms` after the call of the base class:
elph/neumann1.py:68-141. -/
def extra (v e : View) (nb : Nat) (V : Nat → Nat → Nat → ℂ) (w : Nat → Nat → ℂ × ℂ) (b bp : Nat)
    (bcharge : Int) : Py (List KCall) :=
  blocks v b bp bcharge
    (fun a ap => do
      let bpa ← e.ind0 bp a bcharge
      let bap ← e.ind0 b ap bcharge
      pairA e nb V w b bp a ap bpa bap)
    (fun bpp => fctL v e nb V w b bcharge bpp bp)
    (fun bpp => fctR v e nb V w bp bcharge bpp b)
    (fun c cp => do
      let cbp ← e.ind0 c bp bcharge
      let cpb ← e.ind0 cp b bcharge
      pairC e nb V w b bp c cp cbp cpb)

/-- `generate_coupling_terms`: elph/neumann1.py:65-141. -/
def coup (v e : View) (nb : Nat) (T : Nat → Nat → Nat → ℂ) (f : Nat → Nat → Amp)
    (V : Nat → Nat → Nat → ℂ) (w : Nat → Nat → ℂ × ℂ) (b bp : Nat) (bcharge : Int) :
    Py (List KCall) := do
  let r ← VN1.coup v T f b bp bcharge
  let x ← extra v e nb V w b bp bcharge
  pure (r ++ x)

/-- The kernel for given arrays of factors. -/
def kernel (v e : View) (nb : Nat) (symq : Bool) (E : Nat → ℝ) (T : Nat → Nat → Nat → ℂ)
    (f : Nat → Nat → Amp) (V : Nat → Nat → Nat → ℂ) (w : Nat → Nat → ℂ × ℂ) : Py Mat :=
  v.assemble v.ndm0r symq (v.genKern E (coup v e nb T f V w))

end VN1Ph

namespace RedfieldPh

open CohPh

/-- The part of `generate_coupling_terms` after the call of the base class:
elph/redfield.py:32-105. -/
def extra (v e : View) (nb : Nat) (V : Nat → Nat → Nat → ℂ) (w : Nat → Nat → ℂ × ℂ) (b bp : Nat)
    (bcharge : Int) : Py (List KCall) :=
  blocks v b bp bcharge
    (fun a ap => do
      let bpap ← e.ind0 bp ap bcharge
      let ba ← e.ind0 b a bcharge
      pairA e nb V w b bp a ap bpap ba)
    (fun bpp => fctL v e nb V w b bcharge bpp bpp)
    (fun bpp => fctR v e nb V w bp bcharge bpp bpp)
    (fun c cp => do
      let cpbp ← e.ind0 cp bp bcharge
      let cb ← e.ind0 c b bcharge
      pairC e nb V w b bp c cp cpbp cb)

/-- `generate_coupling_terms`: elph/redfield.py:29-105. -/
def coup (v e : View) (nb : Nat) (T : Nat → Nat → Nat → ℂ) (f : Nat → Nat → Amp)
    (V : Nat → Nat → Nat → ℂ) (w : Nat → Nat → ℂ × ℂ) (b bp : Nat) (bcharge : Int) :
    Py (List KCall) := do
  let r ← Redfield.coup v T f b bp bcharge
  let x ← extra v e nb V w b bp bcharge
  pure (r ++ x)

/-- The kernel for given arrays of factors. -/
def kernel (v e : View) (nb : Nat) (symq : Bool) (E : Nat → ℝ) (T : Nat → Nat → Nat → ℂ)
    (f : Nat → Nat → Amp) (V : Nat → Nat → Nat → ℂ) (w : Nat → Nat → ℂ × ℂ) : Py Mat :=
  v.assemble v.ndm0r symq (v.genKern E (coup v e nb T f V w))

end RedfieldPh

end

end Verif
