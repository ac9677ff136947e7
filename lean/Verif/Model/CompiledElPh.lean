import Verif.Model.Compiled
import Verif.Model.ElPh

/-!
Model of the compiled (Cython) electron-phonon approaches `qmeq/approach/elph/c_pauli.pyx`,
`c_lindblad.pyx`, `c_redfield.pyx` and `c_neumann1.pyx`.

`kh` is the handler of `si` and `ke` the handler of `si_elph` (`kh.elph`,
c_aprclass.pyx:279-286), which is made by the same constructor; its object is of class
`StateIndexingDMc`. Only its labels and its table `all_bbp` are used.

Simplifications: those of `Verif.Model.Compiled` and `Verif.Model.ElPh`. `kh.nbaths` is the argument
`nb`. `FuncPauliElPh` and `Func1vNElPh` of `c_specfunc_elph.pyx` are taken to be the classes of
`specfunc_elph.py`. `generate_current` only calls the method of the base class.
-/

namespace Verif

noncomputable section

open Complex (I)
open scoped ComplexConjugate

/-- `fct[l, k]` for an array of shape `(nbaths, ndm0, ..)`. -/
def CKH.rd0 {β : Type} (ke : CKH) (fct : Nat → Nat → β) (l : Nat) (k : Int) : Py β := do
  let i ← cIdx ke.ndm0 k
  pure (fct l i)

/-- `fct[l, k] = x`. -/
def CKH.wr0 {β : Type} (ke : CKH) (fct : Nat → Nat → β) (l : Nat) (k : Int) (x : β) :
    Py (Nat → Nat → β) := do
  let i ← cIdx ke.ndm0 k
  pure fun l' k' => if l' = l ∧ k' = i then x else fct l' k'

/-! ### Pauli -/

namespace CPauliPh

/-- `xbbp*func_pauli.val`: elph/c_pauli.pyx:84-89. -/
def amp (E : Nat → ℝ) (B : PhBaths) (l b bp : Nat) : ℝ :=
  0.5 * (B.V l b bp * conj (B.V l b bp) + conj (B.V l bp b) * B.V l bp b).re
    * B.rate (E b - E bp) l

/-- The part of `generate_fct` after the call of the base class: elph/c_pauli.pyx:60-89. -/
def genFct (ke : CKH) (nb : Nat) (E : Nat → ℝ) (B : PhBaths) : Py (Nat → Nat → ℝ) :=
  (List.range ke.ndm0).foldlM
    (fun fct i => do
      let p ← cGet ke.allBbp (i : Nat)
      if p.1 = p.2.1 then pure fct else do
        let bbp ← ke.ind0 p.1 p.2.1 (p.2.2 : Nat)
        (List.range nb).foldlM (fun fct l => ke.wr0 fct l bbp (amp E B l p.1 p.2.1)) fct)
    (fun _ _ => 0)

/-- The loop body of `generate_coupling_terms`: elph/c_pauli.pyx:110-125. -/
def coupStep (kh ke : CKH) (nb : Nat) (fct : Nat → Nat → ℝ) (b : Nat) (bcharge bb : Int) (a : Nat) :
    Py (List KCall) := do
  let aa ← kh.ind0 a a bcharge
  if aa = -1 then pure [] else do
    let ab ← ke.ind0 a b bcharge
    if ab = -1 then pure [] else do
      let ba ← ke.ind0 b a bcharge
      let s ← sumM (List.range nb) fun l => do
        let wm ← ke.rd0 fct l ab
        let wp ← ke.rd0 fct l ba
        pure (-wm, wp)
      pure [KCall.pauli s.1 s.2 bb aa]

/-- The part of `generate_coupling_terms` after the call of the base class:
elph/c_pauli.pyx:97-125. -/
def extra (kh ke : CKH) (nb : Nat) (fct : Nat → Nat → ℝ) (b : Nat) (bcharge : Int) :
    Py (List KCall) := do
  let bb ← kh.ind0 b b bcharge
  let Bs ← kh.same bcharge
  collect Bs (coupStep kh ke nb fct b bcharge bb)

/-- `generate_coupling_terms`: elph/c_pauli.pyx:91-125. -/
def coup (kh ke : CKH) (nb : Nat) (fe : Nat → Nat → ℝ × ℝ) (fp : Nat → Nat → ℝ) (b bp : Nat)
    (bcharge : Int) : Py (List KCall) := do
  let r ← CPauli.coup kh fe b bp bcharge
  let x ← extra kh ke nb fp b bcharge
  pure (r ++ x)

end CPauliPh

/-! ### The loops of the other approaches -/

/-- `if not kh.is_included(a, ap, acharge): continue; ...; kh.set_matrix_element(f, b, bp, bcharge,
a, ap, acharge)`, where the computation of `f` may end in `continue` (`none`). -/
def CKH.elemSkip (kh : CKH) (f : Py (Option ℂ)) (b bp : Nat) (bcharge : Int) (a ap : Nat) :
    Py (List KCall) := do
  let i ← kh.isIncluded a ap bcharge
  if i then do
    let z ← f
    match z with
    | some z => pure [KCall.elem z b bp bcharge a ap bcharge]
    | none => pure []
  else pure []

/-- The loops over `i, j`: elph/c_lindblad.pyx:120-130, elph/c_redfield.pyx:77-92, 140-155,
elph/c_neumann1.pyx:125-140, 188-203. -/
def CKH.pairs (kh : CKH) (b bp : Nat) (bcharge : Int) (f : Nat → Nat → Py (Option ℂ)) :
    Py (List KCall) := do
  let l ← kh.same bcharge
  collect l fun a => collect l fun ap => kh.elemSkip (f a ap) b bp bcharge a ap

/-- The loop over `bpp`: elph/c_lindblad.pyx:132-150, elph/c_redfield.pyx:94-138,
elph/c_neumann1.pyx:142-186. -/
def CKH.sides (kh : CKH) (b bp : Nat) (bcharge : Int) (fL fR : Nat → Py ℂ) :
    Py (List KCall) := do
  let l ← kh.same bcharge
  collect l fun bpp => do
    let x ← kh.elemIf (fL bpp) b bp bcharge bpp bp bcharge
    let y ← kh.elemIf (fR bpp) b bp bcharge b bpp bcharge
    pure (x ++ y)

/-! ### Lindblad -/

namespace CLindbladPh

/-- `tLbbp[l, b, bp, :] = x`. -/
def wr (t : Nat → Nat → Nat → ℂ × ℂ) (l b bp : Nat) (x : ℂ × ℂ) : Nat → Nat → Nat → ℂ × ℂ :=
  fun l' b' bp' => if l' = l ∧ b' = b ∧ bp' = bp then x else t l' b' bp'

/-- The part of `generate_fct` after the call of the base class: elph/c_lindblad.pyx:62-97. -/
def genFct (ke : CKH) (nb : Nat) (E : Nat → ℝ) (B : PhBaths) : Py (Nat → Nat → Nat → ℂ × ℂ) :=
  (List.range ke.ndm0).foldlM
    (fun t i => do
      let p ← cGet ke.allBbp (i : Nat)
      let b := p.1
      let bp := p.2.1
      pure ((List.range nb).foldl (fun t l =>
        if b = bp then
          let x : ℂ := Real.sqrt (0.5 * B.rate 0 l) * B.V l b b
          wr t l b b (x, conj x)
        else
          wr t l b bp (Real.sqrt (0.5 * B.rate (E b - E bp) l) * B.V l b bp,
            Real.sqrt (0.5 * B.rate (E b - E bp) l) * conj (B.V l bp b))) t))
    (fun _ _ _ => (0, 0))

/-- `fct_aap` times `1j`: elph/c_lindblad.pyx:126-130. The second factor is
`tLbbp[l, bp, a, q].conjugate()` (line 129), whereas elph/lindblad.py:75 has
`tLbbp[l, bp, ap, q].conjugate()`: the state `ap` is not used. -/
def jump (nb : Nat) (t : Nat → Nat → Nat → ℂ × ℂ) (b bp a _ap : Nat) : Py (Option ℂ) := do
  let s ← sumM (List.range nb) fun l =>
    pure ((t l b a).1 * conj (t l bp a).1 + (t l b a).2 * conj (t l bp a).2)
  pure (some (I * s))

/-- `fct_bppbp` (with `x = b`, `y = bpp`) and `fct_bbpp` (with `x = bpp`, `y = bp`) times `1j`:
elph/c_lindblad.pyx:135-141, 144-150. -/
def decay (kh : CKH) (nb : Nat) (t : Nat → Nat → Nat → ℂ × ℂ) (bcharge : Int) (x y : Nat) :
    Py ℂ := do
  let As ← kh.same bcharge
  let s ← sumM As fun a => sumM (List.range nb) fun l =>
    pure (-0.5 * conj (t l a x).1 * (t l a y).1 + -0.5 * conj (t l a x).2 * (t l a y).2)
  pure (I * s)

/-- The part of `generate_coupling_terms` after the call of the base class:
elph/c_lindblad.pyx:105-150. -/
def extra (kh : CKH) (nb : Nat) (t : Nat → Nat → Nat → ℂ × ℂ) (b bp : Nat) (bcharge : Int) :
    Py (List KCall) := do
  let r1 ← kh.pairs b bp bcharge fun a ap => jump nb t b bp a ap
  let r2 ← kh.sides b bp bcharge (fun bpp => decay kh nb t bcharge b bpp)
    (fun bpp => decay kh nb t bcharge bpp bp)
  pure (r1 ++ r2)

/-- `generate_coupling_terms`: elph/c_lindblad.pyx:99-150. -/
def coup (kh : CKH) (nb : Nat) (te : Nat → Nat → Nat → ℂ) (t : Nat → Nat → Nat → ℂ × ℂ)
    (b bp : Nat) (bcharge : Int) : Py (List KCall) := do
  let r ← CLindblad.coup kh te b bp bcharge
  let x ← extra kh nb t b bp bcharge
  pure (r ++ x)

end CLindbladPh

/-! ### 1vN and Redfield -/

namespace CCohPh

/-- `gamma_ba_bpap`, `gamma_ba_bppa`, `gamma_bc_bppc`, `gamma_bc_bpcp`:
elph/c_neumann1.pyx:137-138, 152-153, 161-162, 200-201, elph/c_redfield.pyx:89-90, 104-105,
113-114, 152-153. -/
def gam (V : Nat → Nat → Nat → ℂ) (l b a bp ap : Nat) : ℂ :=
  0.5 * (V l b a * conj (V l bp ap) + conj (V l a b) * V l ap bp)

/-- `gamma_abpp_abp`, `gamma_cbpp_cbp`: elph/c_neumann1.pyx:174-175, 183-184,
elph/c_redfield.pyx:126-127, 135-136. -/
def gam' (V : Nat → Nat → Nat → ℂ) (l a bpp bp : Nat) : ℂ :=
  0.5 * (conj (V l a bpp) * V l a bp + V l bpp a * conj (V l bp a))

/-- `fct_aap`, given the two labels: elph/c_neumann1.pyx:133-140, elph/c_redfield.pyx:85-92. -/
def pairA (ke : CKH) (nb : Nat) (V : Nat → Nat → Nat → ℂ) (w : Nat → Nat → ℂ × ℂ)
    (b bp a ap : Nat) (i j : Int) : Py (Option ℂ) :=
  if i = -1 ∨ j = -1 then pure none else do
    let s ← sumM (List.range nb) fun l => do
      let x ← ke.rd0 w l i
      let y ← ke.rd0 w l j
      pure (gam V l b a bp ap * (conj x.1 - y.1))
    pure (some s)

/-- `fct_ccp`, given the two labels: elph/c_neumann1.pyx:196-203, elph/c_redfield.pyx:148-155. -/
def pairC (ke : CKH) (nb : Nat) (V : Nat → Nat → Nat → ℂ) (w : Nat → Nat → ℂ × ℂ)
    (b bp c cp : Nat) (i j : Int) : Py (Option ℂ) :=
  if i = -1 ∨ j = -1 then pure none else do
    let s ← sumM (List.range nb) fun l => do
      let x ← ke.rd0 w l i
      let y ← ke.rd0 w l j
      pure (gam V l b c bp cp * (x.2 - conj y.2))
    pure (some s)

/-- The term added for one state, nothing when its label is `-1` (`continue`). -/
def skipSum (ke : CKH) (nb : Nat) (w : Nat → Nat → ℂ × ℂ) (i : Int) (g : Nat → ℂ × ℂ → ℂ) :
    Py ℂ :=
  if i = -1 then pure 0 else
    sumM (List.range nb) fun l => do
      let x ← ke.rd0 w l i
      pure (g l x)

/-- `fct_bppbp`, where `s` is the state whose labels are looked up (`bp` in 1vN, `bpp` in
Redfield): elph/c_neumann1.pyx:145-163, elph/c_redfield.pyx:97-115. -/
def fctL (kh ke : CKH) (nb : Nat) (V : Nat → Nat → Nat → ℂ) (w : Nat → Nat → ℂ × ℂ) (b : Nat)
    (bcharge : Int) (bpp s : Nat) : Py ℂ := do
  let l ← kh.same bcharge
  let s1 ← sumM l fun a => do
    let i ← ke.ind0 s a bcharge
    skipSum ke nb w i fun l x => gam V l b a bpp a * conj x.2
  let s2 ← sumM l fun c => do
    let i ← ke.ind0 c s bcharge
    skipSum ke nb w i fun l x => gam V l b c bpp c * x.1
  pure (s1 + s2)

/-- `fct_bbpp`, where `s` is the state whose labels are looked up (`b` in 1vN, `bpp` in
Redfield): elph/c_neumann1.pyx:167-185, elph/c_redfield.pyx:119-137. -/
def fctR (kh ke : CKH) (nb : Nat) (V : Nat → Nat → Nat → ℂ) (w : Nat → Nat → ℂ × ℂ) (bp : Nat)
    (bcharge : Int) (bpp s : Nat) : Py ℂ := do
  let l ← kh.same bcharge
  let s1 ← sumM l fun a => do
    let i ← ke.ind0 s a bcharge
    skipSum ke nb w i fun l x => -gam' V l a bpp bp * x.2
  let s2 ← sumM l fun c => do
    let i ← ke.ind0 c s bcharge
    skipSum ke nb w i fun l x => -gam' V l c bpp bp * conj x.1
  pure (s1 + s2)

/-- The four blocks. -/
def blocks (kh : CKH) (b bp : Nat) (bcharge : Int) (fA : Nat → Nat → Py (Option ℂ))
    (fL fR : Nat → Py ℂ) (fC : Nat → Nat → Py (Option ℂ)) : Py (List KCall) := do
  let r1 ← kh.pairs b bp bcharge fA
  let r2 ← kh.sides b bp bcharge fL fR
  let r3 ← kh.pairs b bp bcharge fC
  pure (r1 ++ r2 ++ r3)

end CCohPh

namespace CVN1Ph

open CCohPh

/-- The values written for one element: elph/c_neumann1.pyx:75-78, 86-95. -/
def value (E : Nat → ℝ) (B : PhBaths) (quad : (ℝ → ℝ) → ℝ → ℝ → ℝ → ℝ) (itype : Int)
    (l b bp : Nat) : ℂ × ℂ :=
  if b = bp then
    let z := B.func1vN quad itype 0 l
    (z.1 - 0.5 * I * z.1.im, z.2 - 0.5 * I * z.2.im)
  else B.func1vN quad itype (E b - E bp) l

/-- The part of `generate_fct` after the call of the base class: elph/c_neumann1.pyx:59-95. -/
def genFct (ke : CKH) (nb : Nat) (E : Nat → ℝ) (B : PhBaths)
    (quad : (ℝ → ℝ) → ℝ → ℝ → ℝ → ℝ) (itype : Int) : Py (Nat → Nat → ℂ × ℂ) :=
  (List.range ke.ndm0).foldlM
    (fun w i => do
      let p ← cGet ke.allBbp (i : Nat)
      let bbp ← ke.ind0 p.1 p.2.1 (p.2.2 : Nat)
      (List.range nb).foldlM
        (fun w l => ke.wr0 w l bbp (value E B quad itype l p.1 p.2.1)) w)
    (fun _ _ => (0, 0))

/-- The part of `generate_coupling_terms` after the call of the base class:
elph/c_neumann1.pyx:103-203. -/
def extra (kh ke : CKH) (nb : Nat) (V : Nat → Nat → Nat → ℂ) (w : Nat → Nat → ℂ × ℂ) (b bp : Nat)
    (bcharge : Int) : Py (List KCall) :=
  blocks kh b bp bcharge
    (fun a ap => do
      let bpa ← ke.ind0 bp a bcharge
      let bap ← ke.ind0 b ap bcharge
      pairA ke nb V w b bp a ap bpa bap)
    (fun bpp => fctL kh ke nb V w b bcharge bpp bp)
    (fun bpp => fctR kh ke nb V w bp bcharge bpp b)
    (fun c cp => do
      let cbp ← ke.ind0 c bp bcharge
      let cpb ← ke.ind0 cp b bcharge
      pairC ke nb V w b bp c cp cbp cpb)

/-- `generate_coupling_terms`: elph/c_neumann1.pyx:97-203. -/
def coup (kh ke : CKH) (nb : Nat) (T : Nat → Nat → Nat → ℂ) (f : Nat → Nat → Amp)
    (V : Nat → Nat → Nat → ℂ) (w : Nat → Nat → ℂ × ℂ) (b bp : Nat) (bcharge : Int) :
    Py (List KCall) := do
  let r ← CVN1.coup kh T f b bp bcharge
  let x ← extra kh ke nb V w b bp bcharge
  pure (r ++ x)

end CVN1Ph

namespace CRedfieldPh

open CCohPh

/-- The part of `generate_coupling_terms` after the call of the base class:
elph/c_redfield.pyx:56-155. -/
def extra (kh ke : CKH) (nb : Nat) (V : Nat → Nat → Nat → ℂ) (w : Nat → Nat → ℂ × ℂ) (b bp : Nat)
    (bcharge : Int) : Py (List KCall) :=
  blocks kh b bp bcharge
    (fun a ap => do
      let bpap ← ke.ind0 bp ap bcharge
      let ba ← ke.ind0 b a bcharge
      pairA ke nb V w b bp a ap bpap ba)
    (fun bpp => fctL kh ke nb V w b bcharge bpp bpp)
    (fun bpp => fctR kh ke nb V w bp bcharge bpp bpp)
    (fun c cp => do
      let cpbp ← ke.ind0 cp bp bcharge
      let cb ← ke.ind0 c b bcharge
      pairC ke nb V w b bp c cp cpbp cb)

/-- `generate_coupling_terms`: elph/c_redfield.pyx:50-155. -/
def coup (kh ke : CKH) (nb : Nat) (T : Nat → Nat → Nat → ℂ) (f : Nat → Nat → Amp)
    (V : Nat → Nat → Nat → ℂ) (w : Nat → Nat → ℂ × ℂ) (b bp : Nat) (bcharge : Int) :
    Py (List KCall) := do
  let r ← CRedfield.coup kh T f b bp bcharge
  let x ← extra kh ke nb V w b bp bcharge
  pure (r ++ x)

end CRedfieldPh

end

end Verif
