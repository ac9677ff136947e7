import Verif.Model.Approach

/-!
Model of the RTD approach: `qmeq/approach/base/RTD.py`, the class `KernelHandlerRTD` in
`qmeq/approach/kernel_handler.py`, lines 255-398, and the functions `phi`, `delta_phi`, `integralD`,
`integralX` in `qmeq/specfunc/specfunc.py`, lines 246-268, 313-336, 459-554.

Simplifications: as in `Verif.Model.Kernel` and `Verif.Model.Specfunc` (real and complex numbers, total
functions for `Ea`, `Tba`, `tleads_array`, calls on the kernel handler collected in a list and executed
afterwards). The numerical evaluation of the integrals and the poles of the Ozaki expansion are parameters
(`Lib`). Printed warnings are left out. Writing `nan` into the energy and heat currents is modelled by
`none`.
-/

namespace Verif

noncomputable section

open Complex (I)
open scoped ComplexConjugate

/-- A numpy array of doubles with three axes: lead, row, column. -/
structure Ten where
  leads : Nat
  rows : Nat
  cols : Nat
  val : Nat → Nat → Nat → ℝ

/-- `np.zeros((leads, rows, cols))`. -/
def Ten.zeros (leads rows cols : Nat) : Ten := ⟨leads, rows, cols, fun _ _ _ => 0⟩

/-- `m[l, i, j] += x`. -/
def Ten.add (m : Ten) (l : Nat) (i j : Int) (x : ℝ) : Py Ten := do
  let k ← pyIdx m.leads l
  let r ← pyIdx m.rows i
  let c ← pyIdx m.cols j
  pure { m with val := fun k' r' c' => if k' = k ∧ r' = r ∧ c' = c then m.val k' r' c' + x else m.val k' r' c' }

/-- `np.sum(m, 0)`. -/
def Ten.sumLeads (m : Ten) : Mat :=
  ⟨m.rows, m.cols, fun i j => ∑ l ∈ Finset.range m.leads, m.val l i j⟩

/-- `m[l, :, :]`. -/
def Ten.lead (m : Ten) (l : Nat) : Mat := ⟨m.rows, m.cols, m.val l⟩

/-- `np.matmul(a, b)`. -/
def Mat.mul (a b : Mat) : Py Mat :=
  if a.cols = b.rows then
    pure ⟨a.rows, b.cols, fun i j => ∑ k ∈ Finset.range a.cols, a.val i k * b.val k j⟩
  else .error .value

/-- `np.dot(a, x)` for a matrix and a vector. -/
def Mat.dot (a : Mat) (x : Vec) : Py Vec :=
  if a.cols = x.size then pure ⟨a.rows, fun i => ∑ k ∈ Finset.range a.cols, a.val i k * x.val k⟩
  else .error .value

/-- `np.dot(x, y)` for vectors. -/
def Vec.dot (x y : Vec) : Py ℝ :=
  if x.size = y.size then pure (∑ k ∈ Finset.range x.size, x.val k * y.val k) else .error .value

/-- `np.sum(x)`. -/
def Vec.sum (x : Vec) : ℝ := ∑ k ∈ Finset.range x.size, x.val k

namespace RTD

/-! ### Numerical functions -/

/-- The numerical routines the approach relies on: the digamma function (in `base`), the Ozaki expansion for
a bandwidth, the two integrals for equal temperatures (`_D_integral_equal_T`, `_X_integral_equal_T` with
`p2 = 1` and both bandwidths the same) and the two integrals that use the Ozaki expansion (`_D_integral`,
`_X_integral` with `p1 = 1` and both bandwidths the same). -/
structure Lib where
  base : NumLib
  Poles : Type
  ozaki : ℝ → Poles
  dEq : Int → ℝ → ℝ → ℝ → ℝ → ℝ
  xEq : Int → ℝ → ℝ → ℝ → ℝ → ℝ
  dOz : Poles → Int → ℝ → ℝ → ℝ → ℝ → ℝ → ℝ → ℝ → ℝ → ℂ
  xOz : Poles → Int → ℝ → ℝ → ℝ → ℝ → ℝ → ℝ → ℝ → ℝ → ℂ

/-- `phi`: specfunc.py:246-268. -/
def phi (lib : Lib) (x Dp Dm sign : ℝ) : ℝ :=
  sign * (-lib.base.digammaRe (x / (2 * Real.pi)) + Real.log (0.5 * (|Dp| + |Dm|) / (2 * Real.pi)))

/-- `delta_phi`: specfunc.py:313-336. -/
def deltaPhi (lib : Lib) (x1 x2 Dp Dm sign : ℝ) : ℝ := phi lib x1 Dp Dm sign - phi lib x2 Dp Dm sign

/-- `integralD`: specfunc.py:459-505. Iterating over the poles when there are none raises `TypeError`. -/
def integralD (lib : Lib) (poles : Option lib.Poles) (p1 eta1 : Int) (E1 E2 E3 T1 T2 mu1 mu2 D : ℝ)
    (imGamma : Bool) : Py ℂ :=
  if |T2 - T1| < 1e-5 ∧ imGamma = false then
    pure ((lib.dEq p1 ((E3 - mu1) / T1) ((E2 - mu1 - eta1 * mu2) / T1) ((E1 - mu1) / T1) (D / 2 / T1) *
      Real.pi / T1 : ℝ) : ℂ)
  else match poles with
    | none => .error .type
    | some b => pure (-I * lib.dOz b p1 (-E1) (-E2) (-E3) T1 T2 mu1 (eta1 * mu2) (D / 2))

/-- `integralX`: specfunc.py:507-554. The temperatures are compared with another tolerance. -/
def integralX (lib : Lib) (poles : Option lib.Poles) (p1 eta1 : Int) (E1 E2 E3 T1 T2 mu1 mu2 D : ℝ)
    (imGamma : Bool) : Py ℂ :=
  if |T2 - T1| < 1e-10 ∧ imGamma = false then
    pure ((lib.xEq p1 ((E3 - eta1 * mu2) / T1) ((E2 - mu1 - eta1 * mu2) / T1) ((E1 - mu1) / T1) (D / 2 / T1) *
      Real.pi / T1 : ℝ) : ℂ)
  else match poles with
    | none => .error .type
    | some b => pure (-I * lib.xOz b p1 (-E1) (-E2) (-E3) T1 T2 mu1 (eta1 * mu2) (D / 2))

/-! ### Calls on the kernel handler -/

/-- The matrices with three axes: `Wdd`, `WE1`, `WE2`, `ReWdn`, `ImWdn`, `ReWnd`, `ImWnd` are the entries 0 to
6 of the list `mats`. -/
inductive Name where
  | Wdd | WE1 | WE2 | ReWdn | ImWdn | ReWnd | ImWnd
  deriving DecidableEq

/-- The matrices of the kernel handler. -/
structure Mats where
  ten : Name → Ten
  Lnn : Mat

/-- A call made on the kernel handler by a generator method; `imGamma` stands for `self.ImGamma = True`. -/
inductive Call where
  /-- `set_matrix_element_dd(l, fctm, fctp, bb, aa, mi)` -/
  | dd (l : Nat) (fm fp : ℝ) (bb aa : Int) (mi : Name)
  /-- `add_element_2nd_order(r, fct, indx0, indx1, a3, charge3, a4, charge4)` -/
  | two (r : Nat) (fct : ℝ) (indx0 indx1 : Int) (a3 : Nat) (charge3 : Int) (a4 : Nat) (charge4 : Int)
  /-- `add_matrix_element(fct, l, b, bp, bcharge, a, ap, acharge, mi)` -/
  | elem (fct : ℝ) (l b bp : Nat) (bcharge : Int) (a ap : Nat) (acharge : Int) (mi : Name)
  /-- `add_element_Lnn(a1, b1, charge, fct)` -/
  | lnn (a1 b1 : Nat) (charge : Int) (fct : ℝ)
  /-- `self.ImGamma = True` -/
  | imGamma

/-- The position of an element of the density matrix in the matrices for off-diagonal elements:
kernel_handler.py:294-303, and the same in 394-397. -/
def offPos (v : View) (b bp : Nat) (charge : Int) : Py Int := do
  let i ← v.ind0 b bp charge
  pure (if b ≠ bp then
    (if b > bp then i - v.npauli + (v.ndm0 - v.npauli : Int) else i - v.npauli) else i)

/-- `mats[mi][l, i, j] += x`. -/
def Mats.add (m : Mats) (mi : Name) (l : Nat) (i j : Int) (x : ℝ) : Py Mats := do
  let t ← (m.ten mi).add l i j x
  pure { m with ten := fun n => if n = mi then t else m.ten n }

/-- The matrices and the flag `ImGamma`. -/
structure Acc where
  mats : Mats
  im : Bool

/-- One call on `KernelHandlerRTD`: kernel_handler.py:261-398. -/
def call (v : View) (s : Acc) : Call → Py Acc
  | .dd l fm fp bb aa mi => do
    let m ← s.mats.add mi l bb bb fm
    let m ← m.add mi l bb aa fp
    pure { s with mats := m }
  | .two r fct indx0 indx1 a3 charge3 a4 charge4 => do
    let indx3 ← v.ind0 a3 a3 charge3
    let indx4 ← v.ind0 a4 a4 charge4
    let m ← s.mats.add .Wdd r indx4 indx0 (2 * fct)
    let m ← m.add .Wdd r indx3 indx0 (-(2 * fct))
    let m ← m.add .Wdd r indx4 indx1 (2 * fct)
    let m ← m.add .Wdd r indx3 indx1 (-(2 * fct))
    pure { s with mats := m }
  | .elem fct l b bp bcharge a ap acharge mi => do
    let i ← offPos v b bp bcharge
    let j ← offPos v a ap acharge
    let m ← s.mats.add mi l i j fct
    pure { s with mats := m }
  | .lnn a1 b1 charge fct => do
    let i ← v.ind0 a1 b1 charge
    let k : Int := if a1 > b1 then i - v.npauli + (v.ndm0 - v.npauli : Int) else i - v.npauli
    let t ← s.mats.Lnn.add k k fct
    pure { s with mats := { s.mats with Lnn := t } }
  | .imGamma => pure { s with im := true }

/-- The calls executed one after the other. -/
def run (v : View) (s : Acc) (calls : List Call) : Py Acc := calls.foldlM (call v) s

/-! ### Generators -/

/-- What the generators read: the indexing object, `qd.Ea` and its length, the leads, `tleads_array`,
`si.nsingle`, the numerical routines and `Ozaki_poles_and_residues`. -/
structure In where
  v : View
  E : Nat → ℝ
  nmany : Nat
  L : Leads
  tl : Nat → Nat → ℂ
  nsingle : Nat
  lib : Lib
  poles : Option lib.Poles

/-- `max(tlst)` for a list that is not empty. -/
def In.maxT (s : In) : ℝ := (List.range s.v.nleads).foldl (fun m l => max m (s.L.T l)) (s.L.T 0)

/-- `generate_row_1st_order_kernel`: RTD.py:274-310. -/
def row1 (v : View) (fct : Nat → Nat → ℝ × ℝ) (b : Nat) (bcharge : Int) : Py (List Call) := do
  let bb ← v.ind0 b b bcharge
  let As ← v.states (bcharge - 1)
  let r1 ← collect As fun a => do
    let aa ← v.ind0 a a (bcharge - 1)
    let ba ← v.ind1 b a (bcharge - 1)
    collect (List.range v.nleads) fun l => do
      let w ← v.rd fct l ba
      pure [Call.dd l (-w.2) w.1 bb aa .Wdd]
  let Cs ← v.states (bcharge + 1)
  let r2 ← collect Cs fun c => do
    let cc ← v.ind0 c c (bcharge + 1)
    let cb ← v.ind1 c b bcharge
    collect (List.range v.nleads) fun l => do
      let w ← v.rd fct l cb
      pure [Call.dd l (-w.1) w.2 bb cc .Wdd]
  pure (r1 ++ r2)

/-- `sum over n1 of Tba[l, a, b] * Tba[lp, a, b].conj() * tleads[l, n1] * tleads[lp, n1].conj()`:
RTD.py:347-348 and the like. -/
def In.gamma (s : In) (a b l lp : Nat) : ℂ :=
  ∑ n1 ∈ Finset.range s.nsingle, s.L.Tba l a b * conj (s.L.Tba lp a b) * s.tl l n1 * conj (s.tl lp n1)

/-- `phi((dE - mu)/T, ..) + phi(-(dE - mu)/T, ..)` with the parameters of lead `l`. -/
def In.phi2 (s : In) (l : Nat) (dE : ℝ) : ℝ :=
  phi s.lib ((dE - s.L.mu l) / s.L.T l) (s.L.Dm l / s.L.T l) (s.L.Dp l / s.L.T l) 1 +
    phi s.lib (-(dE - s.L.mu l) / s.L.T l) (s.L.Dm l / s.L.T l) (s.L.Dp l / s.L.T l) 1

/-- `t_cutoff = 1e-15 * maxTemp ** 2`: RTD.py:336-337, 402-403. -/
def In.cutE (s : In) : ℝ := 1e-15 * s.maxT ^ 2

/-- The body of the loop over the leads in `generate_row_1st_energy_kernel`, for the transition between `a` and
`b` of one charge more: RTD.py:343-357, 362-376. -/
def energy1 (s : In) (a b : Nat) (bb aa : Int) (l : Nat) : List Call :=
  let gamma : ℂ := ∑ lp ∈ Finset.range s.v.nleads, if lp = l then 0 else s.gamma a b l lp
  let temp := (gamma.re * s.phi2 l (s.E b - s.E a)) * Real.pi
  (if |gamma.im| > s.cutE then [Call.imGamma] else []) ++ [Call.dd l temp temp bb aa .WE1]

/-- `generate_row_1st_energy_kernel`: RTD.py:312-376. The row is that of `b`; the transition is between `a` and
`b` or between `b` and `c`. -/
def rowE1 (s : In) (b : Nat) (bcharge : Int) : Py (List Call) := do
  let bb ← s.v.ind0 b b bcharge
  let As ← s.v.states (bcharge - 1)
  let r1 ← collect As fun a => do
    let aa ← s.v.ind0 a a (bcharge - 1)
    pure ((List.range s.v.nleads).flatMap fun l => energy1 s a b bb aa l)
  let Cs ← s.v.states (bcharge + 1)
  let r2 ← collect Cs fun c => do
    let cc ← s.v.ind0 c c (bcharge + 1)
    pure ((List.range s.v.nleads).flatMap fun l => energy1 s b c bb cc l)
  pure (r1 ++ r2)

/-- The body of the loop over the leads in `generate_row_2nd_energy_kernel`: RTD.py:409-425, 430-444. -/
def energy2 (s : In) (a b : Nat) (bb aa : Int) (l : Nat) : List Call :=
  let temp := (∑ lp ∈ Finset.range s.v.nleads,
    if lp = l then 0 else (s.gamma a b l lp).re * s.phi2 lp (s.E b - s.E a)) * Real.pi
  ((List.range s.v.nleads).flatMap fun lp =>
    if lp ≠ l ∧ |(s.gamma a b l lp).im| > s.cutE then [Call.imGamma] else []) ++
    [Call.dd l temp temp bb aa .WE2]

/-- `generate_row_2nd_energy_kernel`: RTD.py:378-444. -/
def rowE2 (s : In) (b : Nat) (bcharge : Int) : Py (List Call) := do
  let bb ← s.v.ind0 b b bcharge
  let As ← s.v.states (bcharge - 1)
  let r1 ← collect As fun a => do
    let aa ← s.v.ind0 a a (bcharge - 1)
    pure ((List.range s.v.nleads).flatMap fun l => energy2 s a b bb aa l)
  let Cs ← s.v.states (bcharge + 1)
  let r2 ← collect Cs fun c => do
    let cc ← s.v.ind0 c c (bcharge + 1)
    pure ((List.range s.v.nleads).flatMap fun l => energy2 s b c bb cc l)
  pure (r1 ++ r2)

/-! ### Second order -/

/-- `t_cutoff2`: RTD.py:494. -/
def In.cut2 (s : In) : ℝ := 1e-10 * s.maxT

/-- `t_cutoff3`: RTD.py:495. -/
def In.cut3 (s : In) : ℝ := 1e-20 * s.maxT ^ 2

/-- What is fixed inside the loops over `r0`, `r1`, `a1p`: the leads, the positions of the initial and of the
first intermediate state, and `E1`. -/
structure Vert where
  r0 : Nat
  r1 : Nat
  indx0 : Int
  indx1 : Int
  E1 : ℝ

/-- `D`: RTD.py:500. -/
def In.bw (s : In) (x : Vert) : ℝ := |s.L.Dp x.r0| + |s.L.Dm x.r0|

/-- `if abs(t2D) > t_cutoff3: tempD = ...; kh.add_element_2nd_order(r0, ...)`: RTD.py:523-525 and the like. -/
def addD (s : In) (x : Vert) (t2 : ℂ) (p1 eta1 : Int) (E2 E3 : ℝ) (a3 : Nat) (charge3 : Int) (a4 : Nat)
    (charge4 : Int) : Py (List Call) :=
  if ‖t2‖ > s.cut3 then do
    let i ← integralD s.lib s.poles p1 eta1 x.E1 E2 E3 (s.L.T x.r0) (s.L.T x.r1) (s.L.mu x.r0) (s.L.mu x.r1)
      (s.bw x) (decide (|t2.im| > s.cut3))
    pure [.two x.r0 (t2 * i).re x.indx0 x.indx1 a3 charge3 a4 charge4]
  else pure []

/-- `if abs(t2X) > t_cutoff3: tempX = ...; kh.add_element_2nd_order(r1, ...)`: RTD.py:526-528 and the like. -/
def addX (s : In) (x : Vert) (t2 : ℂ) (p1 eta1 : Int) (E2 E3 : ℝ) (a3 : Nat) (charge3 : Int) (a4 : Nat)
    (charge4 : Int) : Py (List Call) :=
  if ‖t2‖ > s.cut3 then do
    let i ← integralX s.lib s.poles p1 eta1 x.E1 E2 E3 (s.L.T x.r0) (s.L.T x.r1) (s.L.mu x.r0) (s.L.mu x.r1)
      (s.bw x) (decide (|t2.im| > s.cut3))
    pure [.two x.r1 (-t2 * i).re x.indx0 x.indx1 a3 charge3 a4 charge4]
  else pure []

/-- Two groups of calls one after the other. -/
def both {β : Type} (p q : Py (List β)) : Py (List β) := do
  let a ← p
  let b ← q
  pure (a ++ b)

/-- The loop `for a2p in statesdm[charge+2]`: RTD.py:511-541. -/
def blockUp (s : In) (x : Vert) (t : ℂ) (a0 a1p : Nat) (charge : Int) : Py (List Call) := do
  let l2 ← s.v.states (charge + 2)
  collect l2 fun a2p =>
    let t1 := t * s.L.Tba x.r1 a2p a1p
    if ‖t1‖ < s.cut2 then pure [] else
    let E2 := s.E a2p - s.E a0
    both
      (do
        let l3 ← s.v.states (charge + 1)
        collect l3 fun a3p =>
          let t2D := t1 * conj (s.L.Tba x.r1 a2p a3p) * conj (s.L.Tba x.r0 a3p a0)
          let t2X := t1 * conj (s.L.Tba x.r0 a2p a3p) * conj (s.L.Tba x.r1 a3p a0)
          let E3 := s.E a3p - s.E a0
          both (addD s x t2D 1 1 E2 E3 a3p (charge + 1) a0 charge)
            (addX s x t2X 1 1 E2 E3 a3p (charge + 1) a0 charge))
      (do
        let l3 ← s.v.states (charge + 1)
        collect l3 fun a3m =>
          let t2D := t1 * conj (s.L.Tba x.r1 a3m a0) * conj (s.L.Tba x.r0 a2p a3m)
          let t2X := t1 * conj (s.L.Tba x.r0 a3m a0) * conj (s.L.Tba x.r1 a2p a3m)
          let E3 := s.E a2p - s.E a3m
          both (addD s x t2D 1 1 E2 E3 a2p (charge + 2) a3m (charge + 1))
            (addX s x t2X 1 1 E2 E3 a2p (charge + 2) a3m (charge + 1)))

/-- The loop `for a2m in statesdm[charge-1]`: RTD.py:544-574. -/
def blockDown (s : In) (x : Vert) (t : ℂ) (a0 a1p : Nat) (charge : Int) : Py (List Call) := do
  let l2 ← s.v.states (charge - 1)
  collect l2 fun a2m =>
    let t1 := t * s.L.Tba x.r1 a0 a2m
    if ‖t1‖ < s.cut2 then pure [] else
    let E2 := s.E a1p - s.E a2m
    both
      (do
        let l3 ← s.v.states charge
        collect l3 fun a3p =>
          let t2D := t1 * conj (s.L.Tba x.r1 a1p a3p) * conj (s.L.Tba x.r0 a3p a2m)
          let t2X := t1 * conj (s.L.Tba x.r0 a1p a3p) * conj (s.L.Tba x.r1 a3p a2m)
          let E3 := s.E a3p - s.E a2m
          both (addD s x t2D (-1) 1 E2 E3 a3p charge a2m (charge - 1))
            (addX s x t2X (-1) 1 E2 E3 a3p charge a2m (charge - 1)))
      (do
        let l3 ← s.v.states charge
        collect l3 fun a3m =>
          let t2D := t1 * conj (s.L.Tba x.r1 a3m a2m) * conj (s.L.Tba x.r0 a1p a3m)
          let t2X := t1 * conj (s.L.Tba x.r0 a3m a2m) * conj (s.L.Tba x.r1 a1p a3m)
          let E3 := s.E a1p - s.E a3m
          both (addD s x t2D (-1) 1 E2 E3 a1p (charge + 1) a3m charge)
            (addX s x t2X (-1) 1 E2 E3 a1p (charge + 1) a3m charge))

/-- The loop `for a2p in statesdm[charge]`: RTD.py:578-616. -/
def blockSame (s : In) (x : Vert) (t : ℂ) (a0 a1p : Nat) (charge : Int) : Py (List Call) := do
  let l2 ← s.v.states charge
  collect l2 fun a2p =>
    let E2 := s.E a2p - s.E a0
    let t1 := t * conj (s.L.Tba x.r1 a1p a2p)
    if ‖t1‖ < s.cut2 then pure [] else
    both
      (both
        (do
          let l3 ← s.v.states (charge + 1)
          collect l3 fun a3p =>
            addD s x (t1 * s.L.Tba x.r1 a3p a2p * conj (s.L.Tba x.r0 a3p a0)) 1 (-1) E2 (s.E a3p - s.E a0)
              a3p (charge + 1) a0 charge)
        (do
          let l3 ← s.v.states (charge - 1)
          collect l3 fun a3p =>
            addX s x (t1 * conj (s.L.Tba x.r0 a2p a3p) * s.L.Tba x.r1 a0 a3p) 1 (-1) E2 (s.E a3p - s.E a0)
              a3p (charge - 1) a0 charge))
      (both
        (do
          let l3 ← s.v.states (charge - 1)
          collect l3 fun a3m =>
            addD s x (t1 * s.L.Tba x.r1 a0 a3m * conj (s.L.Tba x.r0 a2p a3m)) 1 (-1) E2 (s.E a2p - s.E a3m)
              a2p charge a3m (charge - 1))
        (do
          let l3 ← s.v.states (charge + 1)
          collect l3 fun a3m =>
            addX s x (t1 * conj (s.L.Tba x.r0 a3m a0) * s.L.Tba x.r1 a3m a2p) 1 (-1) E2 (s.E a2p - s.E a3m)
              a2p charge a3m (charge + 1)))

/-- The loop `for a2m in statesdm[charge+1]`: RTD.py:619-655. There is no cut-off for `t1` here. -/
def blockNext (s : In) (x : Vert) (t : ℂ) (a0 a1p : Nat) (charge : Int) : Py (List Call) := do
  let l2 ← s.v.states (charge + 1)
  collect l2 fun a2m =>
    let E2 := s.E a1p - s.E a2m
    let t1 := t * conj (s.L.Tba x.r1 a2m a0)
    both
      (both
        (do
          let l3 ← s.v.states (charge + 2)
          collect l3 fun a3p =>
            addD s x (t1 * s.L.Tba x.r1 a3p a1p * conj (s.L.Tba x.r0 a3p a2m)) (-1) (-1) E2 (s.E a3p - s.E a2m)
              a3p (charge + 2) a2m (charge + 1))
        (do
          let l3 ← s.v.states charge
          collect l3 fun a3p =>
            addX s x (t1 * conj (s.L.Tba x.r0 a1p a3p) * s.L.Tba x.r1 a2m a3p) (-1) (-1) E2 (s.E a3p - s.E a2m)
              a3p charge a2m (charge + 1)))
      (both
        (do
          let l3 ← s.v.states charge
          collect l3 fun a3m =>
            addD s x (t1 * s.L.Tba x.r1 a2m a3m * conj (s.L.Tba x.r0 a1p a3m)) (-1) (-1) E2 (s.E a1p - s.E a3m)
              a1p (charge + 1) a3m charge)
        (do
          let l3 ← s.v.states (charge + 2)
          collect l3 fun a3m =>
            addX s x (t1 * conj (s.L.Tba x.r0 a3m a2m) * s.L.Tba x.r1 a3m a1p) (-1) (-1) E2 (s.E a1p - s.E a3m)
              a1p (charge + 1) a3m (charge + 2)))

/-- The body of the loop over `a1p`: RTD.py:503-655. -/
def vertex (s : In) (indx0 : Int) (a0 : Nat) (charge : Int) (r0 r1 a1p : Nat) : Py (List Call) :=
  let t := s.L.Tba r0 a1p a0
  if ‖t‖ = 0 then pure [] else do
    let indx1 ← s.v.ind0 a1p a1p (charge + 1)
    let x : Vert := ⟨r0, r1, indx0, indx1, s.E a1p - s.E a0⟩
    both (both (blockUp s x t a0 a1p charge) (blockDown s x t a0 a1p charge))
      (both (blockSame s x t a0 a1p charge) (blockNext s x t a0 a1p charge))

/-- `generate_col_diag_kern_2nd_order`: RTD.py:446-655. -/
def col2 (s : In) (a0 : Nat) (charge : Int) : Py (List Call) := do
  let indx0 ← s.v.ind0 a0 a0 charge
  collect (prod2 (List.range s.v.nleads) (List.range s.v.nleads)) fun r => do
    let l1 ← s.v.states (charge + 1)
    collect l1 fun a1p => vertex s indx0 a0 charge r.1 r.2 a1p

/-! ### First order, off-diagonal -/

/-- `(E - mulst[l]) / tlst[l]`. -/
def In.alpha (s : In) (l : Nat) (E : ℝ) : ℝ := (E - s.L.mu l) / s.L.T l

/-- The two calls for the real and imaginary parts `temp1`, `temp2`. -/
def pair (temp1 temp2 : ℝ) (l b bp : Nat) (bcharge : Int) (a ap : Nat) (acharge : Int) (re im : Name) : List Call :=
  [.elem temp1 l b bp bcharge a ap acharge re, .elem temp2 l b bp bcharge a ap acharge im]

/-- Contribution of a transition that adds (`sign = 1`) or removes (`sign = -1`) an electron on both propagators:
RTD.py:695-699, 710-715, 809-813, 826-830. -/
def trans (s : In) (t2 : ℂ) (E1 E2 : ℝ) (sign : ℝ) (l : Nat) : ℝ × ℝ :=
  let f := fermiFunc (sign * s.alpha l E1) + fermiFunc (sign * s.alpha l E2)
  let phi0 := deltaPhi s.lib (s.alpha l E1) (s.alpha l E2) (s.L.Dm l / s.L.T l) (s.L.Dp l / s.L.T l) sign
  (Real.pi * t2.re * f - t2.im * phi0, t2.re * phi0 + Real.pi * t2.im * f)

/-- Contribution with both vertices on one propagator, the intermediate state having one electron more (`sign = 1`)
or less (`sign = -1`). `up = 1` for the terms `- t2.imag * phi0` in `temp1`, `up = -1` for `+ t2.imag * phi0`:
RTD.py:726-731, 737-742, 751-756, 762-767 and 845-849, 855-859, 868-872, 878-882. -/
def stay (s : In) (t2 : ℂ) (E1 : ℝ) (sign up : ℝ) (l : Nat) : ℝ × ℝ :=
  let f := fermiFunc (sign * s.alpha l E1)
  let phi0 := phi s.lib (s.alpha l E1) (s.L.Dm l / s.L.T l) (s.L.Dp l / s.L.T l) sign
  (-Real.pi * t2.re * f - up * (t2.im * phi0), -Real.pi * t2.im * f + up * (t2.re * phi0))

/-- `if charge != ncharge-1: ... statesdm[charge+1] ...`: RTD.py:689, 720 and 800, 839. -/
def upper (v : View) (charge : Int) (f : List Nat → List Call) : Py (List Call) :=
  if charge ≠ (v.ncharge : Int) - 1 then do
    let l ← v.states (charge + 1)
    pure (f l)
  else pure []

/-- `if charge != 0: ... statesdm[charge-1] ...`: RTD.py:704, 745 and 817, 862. -/
def lower (v : View) (charge : Int) (f : List Nat → List Call) : Py (List Call) :=
  if charge ≠ 0 then do
    let l ← v.states (charge - 1)
    pure (f l)
  else pure []

/-- `generate_col_nondiag_kern_1st_order_dn`: RTD.py:657-769. -/
def colDn (s : In) (a1 b1 : Nat) (charge : Int) : Py (List Call) :=
  let T := s.L.Tba
  let put := fun (w : ℝ × ℝ) (l a2 : Nat) (q : Int) => pair w.1 w.2 l a2 a2 q a1 b1 charge .ReWdn .ImWdn
  let leads := List.range s.v.nleads
  both
    (both
      (upper s.v charge fun l2 => l2.flatMap fun a2 => leads.flatMap fun l =>
        put (trans s (T l a2 a1 * conj (T l a2 b1)) (s.E a2 - s.E a1) (s.E a2 - s.E b1) 1 l) l a2 (charge + 1))
      (lower s.v charge fun l2 => l2.flatMap fun a2 => leads.flatMap fun l =>
        put (trans s (T l b1 a2 * conj (T l a1 a2)) (s.E b1 - s.E a2) (s.E a1 - s.E a2) (-1) l) l a2 (charge - 1)))
    (do
      let l2 ← s.v.states charge
      collect l2 fun a2 => both
        (upper s.v charge fun l3 => l3.flatMap fun c =>
          (if b1 = a2 then leads.flatMap fun l =>
            put (stay s (T l c a1 * conj (T l c a2)) (s.E c - s.E a2) 1 1 l) l a2 charge else []) ++
          (if a1 = a2 then leads.flatMap fun l =>
            put (stay s (T l c a2 * conj (T l c b1)) (s.E c - s.E a2) 1 (-1) l) l a2 charge else []))
        (lower s.v charge fun l3 => l3.flatMap fun c =>
          (if b1 = a2 then leads.flatMap fun l =>
            put (stay s (T l a2 c * conj (T l a1 c)) (s.E a2 - s.E c) (-1) (-1) l) l a2 charge else []) ++
          (if a1 = a2 then leads.flatMap fun l =>
            put (stay s (T l b1 c * conj (T l a2 c)) (s.E a2 - s.E c) (-1) 1 l) l a2 charge else [])))

/-- `generate_col_nondiag_kern_1st_order_nd`: RTD.py:771-884. -/
def colNd (s : In) (a1 : Nat) (charge : Int) : Py (List Call) :=
  let T := s.L.Tba
  let put := fun (w : ℝ × ℝ) (l a2 b2 : Nat) (q : Int) => pair w.1 w.2 l a2 b2 q a1 a1 charge .ReWnd .ImWnd
  let leads := List.range s.v.nleads
  both
    (both
      (upper s.v charge fun l2 => l2.flatMap fun a2 => l2.flatMap fun b2 =>
        if a2 = b2 then [] else leads.flatMap fun l =>
        put (trans s (T l a2 a1 * conj (T l b2 a1)) (s.E b2 - s.E a1) (s.E a2 - s.E a1) 1 l) l a2 b2 (charge + 1))
      (lower s.v charge fun l2 => l2.flatMap fun a2 => l2.flatMap fun b2 =>
        if b2 = a2 then [] else leads.flatMap fun l =>
        put (trans s (T l a1 b2 * conj (T l a1 a2)) (s.E a1 - s.E a2) (s.E a1 - s.E b2) (-1) l) l a2 b2 (charge - 1)))
    (do
      let l2 ← s.v.states charge
      collect l2 fun a2 => collect l2 fun b2 => if a2 = b2 then pure [] else both
        (upper s.v charge fun l3 => l3.flatMap fun c =>
          (if a1 = b2 then leads.flatMap fun l =>
            put (stay s (T l c a1 * conj (T l c a2)) (s.E c - s.E b2) 1 1 l) l a2 b2 charge else []) ++
          (if a1 = a2 then leads.flatMap fun l =>
            put (stay s (T l c b2 * conj (T l c a1)) (s.E c - s.E a2) 1 (-1) l) l a2 b2 charge else []))
        (lower s.v charge fun l3 => l3.flatMap fun c =>
          (if a1 = b2 then leads.flatMap fun l =>
            put (stay s (T l a2 c * conj (T l a1 c)) (s.E b2 - s.E c) (-1) (-1) l) l a2 b2 charge else []) ++
          (if a1 = a2 then leads.flatMap fun l =>
            put (stay s (T l a1 c * conj (T l b2 c)) (s.E a2 - s.E c) (-1) 1 l) l a2 b2 charge else [])))

/-- The energy difference used in `generate_row_inverse_Liouvillian`: RTD.py:908-913. -/
def gap (x : ℝ) : ℝ := if 1e-10 > x ∧ x ≥ 0 then 1e-10 else if -1e-10 < x ∧ x ≤ 0 then -1e-10 else x

/-- `generate_row_inverse_Liouvillian`: RTD.py:886-915. -/
def rowL (s : In) (a1 b1 : Nat) (charge : Int) : List Call := [.lnn a1 b1 charge (1 / gap (s.E a1 - s.E b1))]

/-! ### The kernel -/

/-- `if self.off_diag_corrections: ...`: RTD.py:137-138. -/
def nd (s : In) (offDiag : Bool) (b : Nat) (charge : Int) : Py (List Call) :=
  if offDiag then colNd s b charge else pure []

/-- The first loop of `generate_kern`: RTD.py:128-138. -/
def calls1 (s : In) (fct : Nat → Nat → ℝ × ℝ) (offDiag : Bool) : Py (List Call) :=
  collect (List.range s.v.ncharge) fun (c : Nat) => do
    let l ← s.v.states c
    collect l fun b => do
      let u ← s.v.isUnique b b c
      if u then do
        let k1 ← row1 s.v fct b c
        let k2 ← col2 s b c
        let k3 ← rowE1 s b c
        let k4 ← rowE2 s b c
        let k5 ← nd s offDiag b c
        pure (k1 ++ k2 ++ k3 ++ k4 ++ k5)
      else pure []

/-- The second loop of `generate_kern`: RTD.py:144-150. -/
def calls2 (s : In) : Py (List Call) :=
  collect (List.range s.v.ncharge) fun (c : Nat) => do
    let l ← s.v.states c
    collect l fun b => collect l fun bp =>
      if b = bp then pure [] else do
        let k1 ← colDn s b bp c
        pure (k1 ++ rowL s b bp c)

/-- `a + b` for arrays of one shape. -/
def addMat (a b : Mat) : Mat := ⟨a.rows, a.cols, fun i j => a.val i j + b.val i j⟩

/-- The correction for one lead: RTD.py:168-173. -/
def corr (m : Mats) (l : Nat) : Py Mat := do
  let x ← ((m.ten .ReWdn).lead l).mul m.Lnn
  let x ← x.mul (m.ten .ImWnd).sumLeads
  let y ← ((m.ten .ImWdn).lead l).mul m.Lnn
  let y ← y.mul (m.ten .ReWnd).sumLeads
  pure (addMat x y)

/-- `Wcorr` for all leads. -/
def corrs (m : Mats) (nleads : Nat) : Py (Nat → Mat) :=
  (List.range nleads).foldlM (fun w l => do
    let x ← corr m l
    pure (fun k => if k = l then x else w k)) (fun _ => Mat.zeros 0 0)

/-- `self.kern[:n, :n] += m`. -/
def addBlock (k : Mat) (n : Nat) (m : Mat) : Mat :=
  ⟨k.rows, k.cols, fun i j => if i < n ∧ j < n then k.val i j + m.val i j else k.val i j⟩

/-- What `generate_kern` works on. -/
structure St where
  kern : Mat
  acc : Acc

/-- `add_off_diag_corrections`: RTD.py:153-176. -/
def addCorr (v : View) (s : St) : Py St := do
  let w ← corrs s.acc.mats v.nleads
  let W := s.acc.mats.ten .Wdd
  let W' : Ten := { W with val := fun l i j => if l < v.nleads then W.val l i j + (w l).val i j else W.val l i j }
  pure ⟨addBlock s.kern v.npauli
      ⟨v.npauli, v.npauli, fun i j => ∑ l ∈ Finset.range v.nleads, (w l).val i j⟩,
    { s.acc with mats := { s.acc.mats with ten := fun n => if n = .Wdd then W' else s.acc.mats.ten n } }⟩

/-- `generate_kern` from the loops on: RTD.py:128-151. -/
def genKern (s : In) (fct : Nat → Nat → ℝ × ℝ) (offDiag : Bool) (st : St) : Py St := do
  let k1 ← calls1 s fct offDiag
  let a ← run s.v st.acc k1
  let kern := addBlock st.kern s.v.npauli (a.mats.ten .Wdd).sumLeads
  if offDiag then do
    let k2 ← calls2 s
    let a ← run s.v a k2
    addCorr s.v ⟨kern, a⟩
  else pure ⟨kern, a⟩

/-- The arrays made by `prepare_arrays` (RTD.py:50-86, aprclass.py:148-170): zeros of the right shapes. -/
def fresh (v : View) (symq : Bool) : St :=
  let n := v.npauli
  let k := 2 * v.ndm0 - 2 * v.npauli
  ⟨Mat.zeros (if symq then n else n + 1) n,
    ⟨⟨fun m => match m with
      | .Wdd | .WE1 | .WE2 => Ten.zeros v.nleads n n
      | .ReWdn | .ImWdn => Ten.zeros v.nleads n k
      | .ReWnd | .ImWnd => Ten.zeros v.nleads k n, Mat.zeros k k⟩, false⟩⟩

/-! ### Currents -/

/-- `generate_LN`: RTD.py:178-192. -/
def genLN (v : View) : Py (List ℝ) :=
  collect (List.range v.ncharge) fun (c : Nat) => do
    let l ← v.states c
    collect l fun a => do
      let u ← v.bool0 a a c
      pure (if u then [2 * (c : ℝ)] else [])

/-- A list as an array. -/
def vecOf (l : List ℝ) : Vec := ⟨l.length, fun i => l.getD i 0⟩

/-- The currents of one lead: RTD.py:221-225. -/
def leadCurrent (s : In) (LN : Vec) (m : Mats) (phi0 : Vec) (l : Nat) : Py (ℝ × ℝ) := do
  let LE : Vec := ⟨s.nmany, fun i => 2 * s.E i⟩
  let w ← ((m.ten .Wdd).lead l).dot phi0
  let x ← LN.dot w
  let y ← LE.dot w
  let e1 ← ((m.ten .WE1).lead l).dot phi0
  let e2 ← ((m.ten .WE2).lead l).dot phi0
  pure (0.5 * x, 0.5 * y + -0.5 * e1.sum + 0.5 * e2.sum)

/-- The currents. `energy` and `heat` are `none` where the code writes `nan`. -/
structure Currents where
  current : Nat → ℝ
  energy : Nat → Option ℝ
  heat : Nat → Option ℝ

/-- `generate_current`: RTD.py:194-245. -/
def genCurrent (s : In) (LN : Vec) (a : Acc) (phi0 : Vec) : Py Currents := do
  let w ← (List.range s.v.nleads).foldlM (fun w l => do
    let x ← leadCurrent s LN a.mats phi0 l
    pure (fun k => if k = l then x else w k)) (fun _ : Nat => ((0, 0) : ℝ × ℝ))
  pure ⟨fun l => (w l).1, fun l => if a.im then none else some (w l).2,
    fun l => if a.im then none else some ((w l).2 - (w l).1 * s.L.mu l)⟩

end RTD

end

end Verif
