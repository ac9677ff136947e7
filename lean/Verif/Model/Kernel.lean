import Mathlib.Data.Complex.Basic
import Verif.Model.DM

/-!
Model of `qmeq/approach/kernel_handler.py`, lines 1-253, and of the kernel assembly in
`qmeq/approach/aprclass.py`, lines 217-292.

Simplifications: floating point numbers are real numbers and complex128 numbers are complex
numbers. `qd.Ea` and `leads.Tba` are total functions of their indices (their shapes are not
modelled). A generator method is modelled as the list of calls it makes on the kernel
handler, in order; the calls are then executed by one of the two handlers. This is possible
because no method of the handlers that is used during the generation reads the matrix or
vector it is filling.
-/

namespace Verif

noncomputable section

/-- A numpy vector of doubles. -/
structure Vec where
  size : Nat
  val : Nat → ℝ

/-- A numpy matrix of doubles. -/
structure Mat where
  rows : Nat
  cols : Nat
  val : Nat → Nat → ℝ

/-- `np.zeros((rows, cols))`. -/
def Mat.zeros (rows cols : Nat) : Mat := ⟨rows, cols, fun _ _ => 0⟩

/-- `np.zeros(size)`. -/
def Vec.zeros (size : Nat) : Vec := ⟨size, fun _ => 0⟩

/-- `x[i]`. -/
def Vec.get (x : Vec) (i : Int) : Py ℝ := do
  let k ← pyIdx x.size i
  pure (x.val k)

/-- `x[i] += v`. -/
def Vec.add (x : Vec) (i : Int) (v : ℝ) : Py Vec := do
  let k ← pyIdx x.size i
  pure ⟨x.size, fun j => if j = k then x.val j + v else x.val j⟩

/-- `x[i] = v`. -/
def Vec.put (x : Vec) (i : Int) (v : ℝ) : Py Vec := do
  let k ← pyIdx x.size i
  pure ⟨x.size, fun j => if j = k then v else x.val j⟩

/-- `m[i, j] += v`. -/
def Mat.add (m : Mat) (i j : Int) (v : ℝ) : Py Mat := do
  let r ← pyIdx m.rows i
  let c ← pyIdx m.cols j
  pure ⟨m.rows, m.cols, fun r' c' => if r' = r ∧ c' = c then m.val r' c' + v else m.val r' c'⟩

/-- What the approaches read from `StateIndexingDM`: the considered states, the sizes and the
four look-up functions (`get_ind_dm0` with `maptype` 1, 2, 3 and `get_ind_dm1`). -/
structure View where
  ncharge : Nat
  nleads : Nat
  statesdm : List (List Nat)
  npauli : Nat
  ndm0 : Nat
  ndm0r : Nat
  ndm1 : Nat
  ind0 : Nat → Nat → Int → Py Int
  bool0 : Nat → Nat → Int → Py Bool
  conj0 : Nat → Nat → Int → Py Bool
  ind1 : Nat → Nat → Int → Py Nat

/-- The view of an indexing object, with `nleads` leads attached. -/
def DM.view (d : DM) (nleads : Nat) : View where
  ncharge := d.si.ncharge
  nleads := nleads
  statesdm := d.statesdm
  npauli := d.npauli
  ndm0 := d.ndm0
  ndm0r := d.ndm0r
  ndm1 := d.ndm1
  ind0 := d.getIndDm0
  bool0 := d.getBoolDm0
  conj0 := d.getConjDm0
  ind1 := d.getIndDm1

/-- `statesdm[charge]`. -/
def View.states (v : View) (charge : Int) : Py (List Nat) := pyGet v.statesdm charge

/-! ### Queries of the kernel handler -/

/-- `is_included`: kernel_handler.py:20-41. -/
def View.isIncluded (v : View) (b bp : Nat) (charge : Int) : Py Bool := do
  let bbp ← v.ind0 b bp charge
  pure (decide (bbp ≠ -1))

/-- `is_unique`: kernel_handler.py:43-61. -/
def View.isUnique (v : View) (b bp : Nat) (charge : Int) : Py Bool := v.bool0 b bp charge

/-- `bbpi = self.ndm0 + bbp - self.npauli`: position of the imaginary part. -/
def View.imagPos (v : View) (bbp : Int) : Int := v.ndm0 + bbp - v.npauli

/-- `self.phi0[bbpi] if bbp_conj else -self.phi0[bbpi]` when there is an imaginary part:
kernel_handler.py:158-162. -/
def View.phi0Imag (v : View) (phi0 : Vec) (b bp : Nat) (charge : Int) (bbpi : Int) : Py ℝ :=
  if v.ndm0 ≤ bbpi then do
    let cj ← v.conj0 b bp charge
    let x ← phi0.get bbpi
    pure (if cj then x else -x)
  else pure 0

/-- `get_phi0_element`: kernel_handler.py:134-164. -/
def View.phi0Element (v : View) (phi0 : Vec) (b bp : Nat) (charge : Int) : Py ℂ := do
  let bbp ← v.ind0 b bp charge
  if bbp = -1 then pure 0 else do
    let re ← phi0.get bbp
    let im ← v.phi0Imag phi0 b bp charge (v.imagPos bbp)
    pure ⟨re, im⟩

/-! ### Calls on the kernel handler -/

/-- A call made on the kernel handler by a generator method. -/
inductive KCall where
  /-- `set_energy(energy, b, bp, bcharge)` -/
  | energy (e : ℝ) (b bp : Nat) (bcharge : Int)
  /-- `set_matrix_element(fct, b, bp, bcharge, a, ap, acharge)` -/
  | elem (f : ℂ) (b bp : Nat) (bcharge : Int) (a ap : Nat) (acharge : Int)
  /-- `set_matrix_element_pauli(fctm, fctp, bb, aa)` -/
  | pauli (fm fp : ℝ) (bb aa : Int)

/-- The updates of `set_energy`: kernel_handler.py:68-70. -/
def View.putEnergy (v : View) (k : Mat) (e : ℝ) (bbp bbpi : Int) : Py Mat :=
  if v.ndm0 ≤ bbpi then do
    let k ← k.add bbp bbpi e
    k.add bbpi bbp (-e)
  else pure k

/-- `if bbpi_bool: self.kern[bbpi, j] += x`. -/
def View.addImagRow (v : View) (k : Mat) (bbpi j : Int) (x : ℝ) : Py Mat :=
  if v.ndm0 ≤ bbpi then k.add bbpi j x else pure k

/-- The block `if aapi >= self.ndm0`: kernel_handler.py:106-109. -/
def View.putImagCol (v : View) (k : Mat) (f : ℂ) (sgn : ℝ) (bbp bbpi aapi : Int) : Py Mat :=
  if v.ndm0 ≤ aapi then do
    let k ← k.add bbp aapi (f.re * sgn)
    v.addImagRow k bbpi aapi (f.im * sgn)
  else pure k

/-- One call on `KernelHandler`: kernel_handler.py:63-132. -/
def View.callKern (v : View) (k : Mat) : KCall → Py Mat
  | .energy e b bp bcharge => do
    let bbp ← v.ind0 b bp bcharge
    v.putEnergy k e bbp (v.imagPos bbp)
  | .elem f b bp bcharge a ap acharge => do
    let bbp ← v.ind0 b bp bcharge
    let aap ← v.ind0 a ap acharge
    let cj ← v.conj0 a ap acharge
    let k ← k.add bbp aap f.im
    let k ← v.putImagCol k f (if cj then 1 else -1) bbp (v.imagPos bbp) (v.imagPos aap)
    v.addImagRow k (v.imagPos bbp) aap (-f.re)
  | .pauli fm fp bb aa => do
    let k ← k.add bb bb fm
    k.add bb aa fp

/-- The updates of `set_energy` and `set_matrix_element` in the matrix-free handler, given
the complex derivative. -/
def View.subImag (v : View) (x : Vec) (bbpi : Int) (d : ℂ) : Py Vec :=
  if v.ndm0 ≤ bbpi then x.add bbpi (-d.im) else pure x

/-- One call on `KernelHandlerMatrixFree`: kernel_handler.py:177-242. -/
def View.callFree (v : View) (phi0 : Vec) (x : Vec) : KCall → Py Vec
  | .energy e b bp bcharge =>
    if b = bp then pure x else do
      let bbp ← v.ind0 b bp bcharge
      let p ← v.phi0Element phi0 b bp bcharge
      let d : ℂ := -Complex.I * e * p
      let x ← x.add bbp d.re
      x.add (v.imagPos bbp) (-d.im)
  | .elem f b bp bcharge a ap acharge => do
    let bbp ← v.ind0 b bp bcharge
    let _ ← v.ind0 a ap acharge
    let p ← v.phi0Element phi0 a ap acharge
    let d : ℂ := -Complex.I * f * p
    let x ← x.add bbp d.re
    v.subImag x (v.imagPos bbp) d
  | .pauli fm fp bb aa => do
    let pb ← phi0.get bb
    let pa ← phi0.get aa
    x.add bb (fm * pb + fp * pa)

/-- The calls executed by `KernelHandler`. -/
def View.runKern (v : View) (k : Mat) (calls : List KCall) : Py Mat :=
  calls.foldlM v.callKern k

/-- The calls executed by `KernelHandlerMatrixFree`. -/
def View.runFree (v : View) (phi0 x : Vec) (calls : List KCall) : Py Vec :=
  calls.foldlM (v.callFree phi0) x

/-- `get_phi0_norm`: kernel_handler.py:244-253. -/
def View.phi0Norm (v : View) (phi0 : Vec) : Py ℝ :=
  (List.range v.ncharge).foldlM
    (fun s (c : Nat) => do
      let l ← v.states c
      l.foldlM (fun s b => do
        let bb ← v.ind0 b b c
        let x ← phi0.get bb
        pure (s + x)) s) 0

/-! ### Assembly in the base class -/

/-- `itertools.combinations_with_replacement(l, 2)`. -/
def combsR2 : List Nat → List (Nat × Nat)
  | [] => []
  | b :: l => (b :: l).map (fun bp => (b, bp)) ++ combsR2 l

/-- `itertools.product(l, l')`. -/
def prod2 (l l' : List Nat) : List (Nat × Nat) := l.flatMap fun a => l'.map fun b => (a, b)

/-- A loop collecting the calls made by its body. -/
def collect {α β : Type} (l : List α) (f : α → Py (List β)) : Py (List β) :=
  l.foldlM (fun acc x => do
    let r ← f x
    pure (acc ++ r)) []

/-- A loop accumulating a sum, starting from zero. -/
def sumM {α β : Type} [Zero β] [Add β] (l : List α) (f : α → Py β) : Py β :=
  l.foldlM (fun s x => do
    let r ← f x
    pure (s + r)) 0

/-- `kh.is_included(b, bp, bcharge) and kh.is_unique(b, bp, bcharge)`, with Python's short
circuit. -/
def View.inclUnique (v : View) (b bp : Nat) (c : Int) : Py Bool := do
  let i ← v.isIncluded b bp c
  if i then v.isUnique b bp c else pure false

/-- `Approach.generate_kern`: aprclass.py:236-254, for the `generate_coupling_terms` method
`coup`. -/
def View.genKern (v : View) (E : Nat → ℝ) (coup : Nat → Nat → Int → Py (List KCall)) :
    Py (List KCall) :=
  collect (List.range v.ncharge) fun (c : Nat) => do
    let l ← v.states c
    collect (combsR2 l) fun p => do
      let ok ← v.inclUnique p.1 p.2 c
      if ok then do
        let r ← coup p.1 p.2 c
        pure (.energy (E p.1 - E p.2) p.1 p.2 c :: r)
      else pure []

/-- `generate_norm_vec`: aprclass.py:217-231, starting from the array `x`. -/
def View.genNormVec (v : View) (x : Vec) : Py Vec :=
  (List.range v.ncharge).foldlM
    (fun x (c : Nat) => do
      let l ← v.states c
      l.foldlM (fun x b => do
        let bb ← v.ind0 b b c
        x.add bb 1) x) x

/-- `generate_vec`: aprclass.py:262-292, for a list of handler calls made by
`generate_kern`. -/
def View.genVec (v : View) (size : Nat) (normRow : Int) (calls : Py (List KCall)) (phi0 : Vec) :
    Py Vec := do
  let norm ← v.phi0Norm phi0
  let cs ← calls
  let x ← v.runFree phi0 (Vec.zeros size) cs
  x.put normRow (norm - 1)

end

end Verif
