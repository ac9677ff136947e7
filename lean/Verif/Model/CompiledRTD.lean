import Verif.Model.RTD
import Verif.Model.Compiled
import Verif.Model.Parallel

/-!
Model of the compiled RTD approach: `qmeq/approach/base/c_RTD.pyx`, the class `KernelHandlerRTD` in
`qmeq/approach/c_kernel_handler.pyx`, lines 265-322, and the functions `integralD`, `integralX` and
`diag_matrix_multiply` of `qmeq/specfunc/c_specfunc.pyx`, lines 320-351, 506-516.

As in `Verif.Model.Compiled` every access outside of an array is an error. As in `Verif.Model.RTD` a
generator method is the list of the calls it makes on the handler, and the numerical evaluation of the
integrals is a parameter. In contrast to the Python version the arrays `ReWnd` and `ImWnd` have no axis
for the leads, `Lnn` is a vector, and the second order is collected in one copy of `Wdd` for each thread.

Simplifications: the lists of states of the neighbouring charges are read before the loops, as in
`Verif.Model.Compiled`. `phi`, `delta_phi`, `fermi_func` and `func_pauli` of `c_specfunc.pyx` are taken
to be those of `specfunc.py`. The `tleads_array` and `Tba` memory views are the parameters.
`generate_fct`, c_RTD.pyx:289-320, has the loop of the Pauli approach, `CPauli.genFct`.
-/

namespace Verif

noncomputable section

open Complex (I)
open scoped ComplexConjugate

namespace CRTD

open RTD (Name Call In Vert both pair)

/-- `integralD`: c_specfunc.pyx:320-333. There are always poles, zeros before `set_Ozaki_params`. -/
def integralD (lib : RTD.Lib) (poles : lib.Poles) (p1 eta1 : Int) (E1 E2 E3 T1 T2 mu1 mu2 D : ℝ)
    (imGamma : Bool) : ℂ :=
  if |T2 - T1| < 1e-5 ∧ imGamma = false then
    ((lib.dEq p1 ((E3 - mu1) / T1) ((E2 - mu1 - eta1 * mu2) / T1) ((E1 - mu1) / T1) (D / 2 / T1) *
      Real.pi / T1 : ℝ) : ℂ)
  else -I * lib.dOz poles p1 (-E1) (-E2) (-E3) T1 T2 mu1 (eta1 * mu2) (D / 2)

/-- `integralX`: c_specfunc.pyx:336-350. The tolerance is that of `integralD`, not 1e-10. -/
def integralX (lib : RTD.Lib) (poles : lib.Poles) (p1 eta1 : Int) (E1 E2 E3 T1 T2 mu1 mu2 D : ℝ)
    (imGamma : Bool) : ℂ :=
  if |T2 - T1| < 1e-5 ∧ imGamma = false then
    ((lib.xEq p1 ((E3 - eta1 * mu2) / T1) ((E2 - mu1 - eta1 * mu2) / T1) ((E1 - mu1) / T1) (D / 2 / T1) *
      Real.pi / T1 : ℝ) : ℂ)
  else -I * lib.xOz poles p1 (-E1) (-E2) (-E3) T1 T2 mu1 (eta1 * mu2) (D / 2)

/-! ### The generators -/

/-- `maxTemp`: c_RTD.pyx:380-383, 453-456, 525-528. -/
def maxT (kh : CKH) (s : In) : ℝ :=
  (List.range kh.nleads).foldl (fun m l => if s.L.T l > m then s.L.T l else m) 0

/-- `t_cutoff`: c_RTD.pyx:384, 457. -/
def cutE (kh : CKH) (s : In) : ℝ := 1e-15 * maxT kh s * maxT kh s

/-- `t_cutoff2`: c_RTD.pyx:531. -/
def cut2 (kh : CKH) (s : In) : ℝ := 1e-10 * maxT kh s

/-- `t_cutoff3`: c_RTD.pyx:532. -/
def cut3 (kh : CKH) (s : In) : ℝ := 1e-20 * maxT kh s * maxT kh s

/-- `generate_row_1st_order_kernel`: c_RTD.pyx:322-356. -/
def row1 (kh : CKH) (fct : Nat → Nat → ℝ × ℝ) (b : Nat) (bcharge : Int) : Py (List Call) := do
  let bb ← kh.ind0 b b bcharge
  let As ← kh.lower (bcharge - 1)
  let r1 ← collect As fun a => do
    let aa ← kh.ind0 a a (bcharge - 1)
    let ba ← kh.ind1 b a (bcharge - 1)
    collect (List.range kh.nleads) fun l => do
      let w ← kh.rd fct l ba
      pure [Call.dd l (-w.2) w.1 bb aa .Wdd]
  let Cs ← kh.upper (bcharge + 1)
  let r2 ← collect Cs fun c => do
    let cc ← kh.ind0 c c (bcharge + 1)
    let cb ← kh.ind1 c b bcharge
    collect (List.range kh.nleads) fun l => do
      let w ← kh.rd fct l cb
      pure [Call.dd l (-w.1) w.2 bb cc .Wdd]
  pure (r1 ++ r2)

/-- The sum `gamma` over the single particle states for two leads: c_RTD.pyx:400-401 and the like. -/
def gamma (s : In) (a b l lp : Nat) : ℂ :=
  ∑ n1 ∈ Finset.range s.nsingle, s.L.Tba l a b * conj (s.L.Tba lp a b) * s.tl l n1 * conj (s.tl lp n1)

/-- The body of the loop over the leads in `generate_row_1st_energy_kernel`: c_RTD.pyx:395-409, 414-428. -/
def energy1 (kh : CKH) (s : In) (a b : Nat) (bb aa : Int) (l : Nat) : List Call :=
  let gam : ℂ := ∑ lp ∈ Finset.range kh.nleads, if lp = l then 0 else gamma s a b l lp
  let temp := (gam.re * s.phi2 l (s.E b - s.E a)) * Real.pi
  (if |gam.im| > cutE kh s then [Call.imGamma] else []) ++ [Call.dd l temp temp bb aa .WE1]

/-- The body of the loop over the leads in `generate_row_2nd_energy_kernel`: c_RTD.pyx:468-481, 486-500. -/
def energy2 (kh : CKH) (s : In) (a b : Nat) (bb aa : Int) (l : Nat) : List Call :=
  let temp := (∑ lp ∈ Finset.range kh.nleads,
    if lp = l then 0 else (gamma s a b l lp).re * s.phi2 lp (s.E b - s.E a)) * Real.pi
  ((List.range kh.nleads).flatMap fun lp =>
    if lp ≠ l ∧ |(gamma s a b l lp).im| > cutE kh s then [Call.imGamma] else []) ++
    [Call.dd l temp temp bb aa .WE2]

/-- The loops of `generate_row_1st_energy_kernel` and `generate_row_2nd_energy_kernel`:
c_RTD.pyx:386-428, 459-500. -/
def rowE (kh : CKH) (e : Nat → Nat → Int → Int → Nat → List Call) (b : Nat) (bcharge : Int) :
    Py (List Call) := do
  let As ← kh.lower (bcharge - 1)
  let Cs ← kh.upper (bcharge + 1)
  let bb ← kh.ind0 b b bcharge
  let r1 ← collect As fun a => do
    let aa ← kh.ind0 a a (bcharge - 1)
    pure ((List.range kh.nleads).flatMap fun l => e a b bb aa l)
  let r2 ← collect Cs fun c => do
    let cc ← kh.ind0 c c (bcharge + 1)
    pure ((List.range kh.nleads).flatMap fun l => e b c bb cc l)
  pure (r1 ++ r2)

/-- `if cabs(t2D) > t_cutoff3: ...`: c_RTD.pyx:574-577 and the like. -/
def addD (kh : CKH) (s : In) (poles : s.lib.Poles) (x : Vert) (t2 : ℂ) (p1 eta1 : Int) (E2 E3 : ℝ)
    (a3 : Nat) (charge3 : Int) (a4 : Nat) (charge4 : Int) : List Call :=
  if ‖t2‖ > cut3 kh s then
    [.two x.r0 (t2 * integralD s.lib poles p1 eta1 x.E1 E2 E3 (s.L.T x.r0) (s.L.T x.r1) (s.L.mu x.r0)
      (s.L.mu x.r1) (s.bw x) (decide (|t2.im| > cut3 kh s))).re x.indx0 x.indx1 a3 charge3 a4 charge4]
  else []

/-- `if cabs(t2X) > t_cutoff3: ...`: c_RTD.pyx:578-581 and the like. -/
def addX (kh : CKH) (s : In) (poles : s.lib.Poles) (x : Vert) (t2 : ℂ) (p1 eta1 : Int) (E2 E3 : ℝ)
    (a3 : Nat) (charge3 : Int) (a4 : Nat) (charge4 : Int) : List Call :=
  if ‖t2‖ > cut3 kh s then
    [.two x.r1 (-t2 * integralX s.lib poles p1 eta1 x.E1 E2 E3 (s.L.T x.r0) (s.L.T x.r1) (s.L.mu x.r0)
      (s.L.mu x.r1) (s.bw x) (decide (|t2.im| > cut3 kh s))).re x.indx0 x.indx1 a3 charge3 a4 charge4]
  else []

/-- The loop over `a2p` with two electrons more than `a0`: c_RTD.pyx:562-595. `Cs`, `Ds` are the states with one and two electrons more than `a0`. -/
def blockUp (kh : CKH) (s : In) (poles : s.lib.Poles) (Cs Ds : List Nat) (x : Vert) (t : ℂ)
    (a0 a1p : Nat) (charge : Int) : List Call :=
  Ds.flatMap fun a2p =>
    let t1 := t * s.L.Tba x.r1 a2p a1p
    if ‖t1‖ ≤ cut2 kh s then [] else
    let E2 := s.E a2p - s.E a0
    (Cs.flatMap fun a3p =>
      let t2D := t1 * conj (s.L.Tba x.r1 a2p a3p) * conj (s.L.Tba x.r0 a3p a0)
      let t2X := t1 * conj (s.L.Tba x.r0 a2p a3p) * conj (s.L.Tba x.r1 a3p a0)
      let E3 := s.E a3p - s.E a0
      addD kh s poles x t2D 1 1 E2 E3 a3p (charge + 1) a0 charge ++
        addX kh s poles x t2X 1 1 E2 E3 a3p (charge + 1) a0 charge) ++
    (Cs.flatMap fun a3m =>
      let t2D := t1 * conj (s.L.Tba x.r1 a3m a0) * conj (s.L.Tba x.r0 a2p a3m)
      let t2X := t1 * conj (s.L.Tba x.r0 a3m a0) * conj (s.L.Tba x.r1 a2p a3m)
      let E3 := s.E a2p - s.E a3m
      addD kh s poles x t2D 1 1 E2 E3 a2p (charge + 2) a3m (charge + 1) ++
        addX kh s poles x t2X 1 1 E2 E3 a2p (charge + 2) a3m (charge + 1))

/-- The loop over `a2m` with one electron less: c_RTD.pyx:597-630. -/
def blockDown (kh : CKH) (s : In) (poles : s.lib.Poles) (As Bs : List Nat) (x : Vert) (t : ℂ)
    (a0 a1p : Nat) (charge : Int) : List Call :=
  As.flatMap fun a2m =>
    let t1 := t * s.L.Tba x.r1 a0 a2m
    if ‖t1‖ ≤ cut2 kh s then [] else
    let E2 := s.E a1p - s.E a2m
    (Bs.flatMap fun a3p =>
      let t2D := t1 * conj (s.L.Tba x.r1 a1p a3p) * conj (s.L.Tba x.r0 a3p a2m)
      let t2X := t1 * conj (s.L.Tba x.r0 a1p a3p) * conj (s.L.Tba x.r1 a3p a2m)
      let E3 := s.E a3p - s.E a2m
      addD kh s poles x t2D (-1) 1 E2 E3 a3p charge a2m (charge - 1) ++
        addX kh s poles x t2X (-1) 1 E2 E3 a3p charge a2m (charge - 1)) ++
    (Bs.flatMap fun a3m =>
      let t2D := t1 * conj (s.L.Tba x.r1 a3m a2m) * conj (s.L.Tba x.r0 a1p a3m)
      let t2X := t1 * conj (s.L.Tba x.r0 a3m a2m) * conj (s.L.Tba x.r1 a1p a3m)
      let E3 := s.E a1p - s.E a3m
      addD kh s poles x t2D (-1) 1 E2 E3 a1p (charge + 1) a3m charge ++
        addX kh s poles x t2X (-1) 1 E2 E3 a1p (charge + 1) a3m charge)

/-- The loop over `a2p` with as many electrons as `a0`: c_RTD.pyx:632-671. -/
def blockSame (kh : CKH) (s : In) (poles : s.lib.Poles) (As Bs Cs : List Nat) (x : Vert) (t : ℂ)
    (a0 a1p : Nat) (charge : Int) : List Call :=
  Bs.flatMap fun a2p =>
    let E2 := s.E a2p - s.E a0
    let t1 := t * conj (s.L.Tba x.r1 a1p a2p)
    if ‖t1‖ ≤ cut2 kh s then [] else
    ((Cs.flatMap fun a3p =>
        addD kh s poles x (t1 * s.L.Tba x.r1 a3p a2p * conj (s.L.Tba x.r0 a3p a0)) 1 (-1) E2
          (s.E a3p - s.E a0) a3p (charge + 1) a0 charge) ++
      (As.flatMap fun a3p =>
        addX kh s poles x (t1 * conj (s.L.Tba x.r0 a2p a3p) * s.L.Tba x.r1 a0 a3p) 1 (-1) E2
          (s.E a3p - s.E a0) a3p (charge - 1) a0 charge)) ++
    ((As.flatMap fun a3m =>
        addD kh s poles x (t1 * s.L.Tba x.r1 a0 a3m * conj (s.L.Tba x.r0 a2p a3m)) 1 (-1) E2
          (s.E a2p - s.E a3m) a2p charge a3m (charge - 1)) ++
      (Cs.flatMap fun a3m =>
        addX kh s poles x (t1 * conj (s.L.Tba x.r0 a3m a0) * s.L.Tba x.r1 a3m a2p) 1 (-1) E2
          (s.E a2p - s.E a3m) a2p charge a3m (charge + 1)))

/-- The loop over `a2m` with one electron more than `a0`: c_RTD.pyx:673-712. In contrast to the Python
version small `t1` are skipped here as well. -/
def blockNext (kh : CKH) (s : In) (poles : s.lib.Poles) (Bs Cs Ds : List Nat) (x : Vert) (t : ℂ)
    (a0 a1p : Nat) (charge : Int) : List Call :=
  Cs.flatMap fun a2m =>
    let E2 := s.E a1p - s.E a2m
    let t1 := t * conj (s.L.Tba x.r1 a2m a0)
    if ‖t1‖ ≤ cut2 kh s then [] else
    ((Ds.flatMap fun a3p =>
        addD kh s poles x (t1 * s.L.Tba x.r1 a3p a1p * conj (s.L.Tba x.r0 a3p a2m)) (-1) (-1) E2
          (s.E a3p - s.E a2m) a3p (charge + 2) a2m (charge + 1)) ++
      (Bs.flatMap fun a3p =>
        addX kh s poles x (t1 * conj (s.L.Tba x.r0 a1p a3p) * s.L.Tba x.r1 a2m a3p) (-1) (-1) E2
          (s.E a3p - s.E a2m) a3p charge a2m (charge + 1))) ++
    ((Bs.flatMap fun a3m =>
        addD kh s poles x (t1 * s.L.Tba x.r1 a2m a3m * conj (s.L.Tba x.r0 a1p a3m)) (-1) (-1) E2
          (s.E a1p - s.E a3m) a1p (charge + 1) a3m charge) ++
      (Ds.flatMap fun a3m =>
        addX kh s poles x (t1 * conj (s.L.Tba x.r0 a3m a2m) * s.L.Tba x.r1 a3m a1p) (-1) (-1) E2
          (s.E a1p - s.E a3m) a1p (charge + 1) a3m (charge + 2)))

/-- The body of the loop over `a1p`: c_RTD.pyx:552-712. -/
def vertex (kh : CKH) (s : In) (poles : s.lib.Poles) (As Bs Cs Ds : List Nat) (indx0 : Int) (a0 : Nat)
    (charge : Int) (r0 r1 a1p : Nat) : Py (List Call) :=
  let t := s.L.Tba r0 a1p a0
  if ‖t‖ = 0 then pure [] else do
    let indx1 ← kh.ind0 a1p a1p (charge + 1)
    let x : Vert := ⟨r0, r1, indx0, indx1, s.E a1p - s.E a0⟩
    pure ((blockUp kh s poles Cs Ds x t a0 a1p charge ++ blockDown kh s poles As Bs x t a0 a1p charge) ++
      (blockSame kh s poles As Bs Cs x t a0 a1p charge ++ blockNext kh s poles Bs Cs Ds x t a0 a1p charge))

/-- `generate_matrix_element_2nd_order`: c_RTD.pyx:503-712. -/
def col2 (kh : CKH) (s : In) (poles : s.lib.Poles) (a0 : Nat) (charge : Int) : Py (List Call) := do
  let As ← kh.lower (charge - 1)
  let Bs ← kh.same charge
  let Cs ← kh.upper (charge + 1)
  let Ds ← kh.upper (charge + 2)
  let indx0 ← kh.ind0 a0 a0 charge
  collect (prod2 (List.range kh.nleads) (List.range kh.nleads)) fun r =>
    collect Cs fun a1p => vertex kh s poles As Bs Cs Ds indx0 a0 charge r.1 r.2 a1p

/-- `generate_col_nondiag_kern_1st_order_dn`: c_RTD.pyx:715-826. -/
def colDn (kh : CKH) (s : In) (a1 b1 : Nat) (charge : Int) : Py (List Call) := do
  let T := s.L.Tba
  let put := fun (w : ℝ × ℝ) (l a2 : Nat) (q : Int) => pair w.1 w.2 l a2 a2 q a1 b1 charge .ReWdn .ImWdn
  let leads := List.range kh.nleads
  let As ← kh.lower (charge - 1)
  let Bs ← kh.same charge
  let Cs ← kh.upper (charge + 1)
  pure
    (((if charge ≠ (kh.ncharge : Int) - 1 then Cs.flatMap fun a2 => leads.flatMap fun l =>
        put (RTD.trans s (T l a2 a1 * conj (T l a2 b1)) (s.E a2 - s.E a1) (s.E a2 - s.E b1) 1 l) l a2
          (charge + 1) else []) ++
      (if charge ≠ 0 then As.flatMap fun a2 => leads.flatMap fun l =>
        put (RTD.trans s (T l b1 a2 * conj (T l a1 a2)) (s.E b1 - s.E a2) (s.E a1 - s.E a2) (-1) l) l a2
          (charge - 1) else [])) ++
    Bs.flatMap fun a2 =>
      (if charge ≠ (kh.ncharge : Int) - 1 then Cs.flatMap fun c =>
        (if b1 = a2 then leads.flatMap fun l =>
          put (RTD.stay s (T l c a1 * conj (T l c a2)) (s.E c - s.E a2) 1 1 l) l a2 charge else []) ++
        (if a1 = a2 then leads.flatMap fun l =>
          put (RTD.stay s (T l c a2 * conj (T l c b1)) (s.E c - s.E a2) 1 (-1) l) l a2 charge else [])
        else []) ++
      (if charge ≠ 0 then As.flatMap fun c =>
        (if b1 = a2 then leads.flatMap fun l =>
          put (RTD.stay s (T l a2 c * conj (T l a1 c)) (s.E a2 - s.E c) (-1) (-1) l) l a2 charge else []) ++
        (if a1 = a2 then leads.flatMap fun l =>
          put (RTD.stay s (T l b1 c * conj (T l a2 c)) (s.E a2 - s.E c) (-1) 1 l) l a2 charge else [])
        else []))

/-- `generate_col_nondiag_kern_1st_order_nd`: c_RTD.pyx:829-946. -/
def colNd (kh : CKH) (s : In) (a1 : Nat) (charge : Int) : Py (List Call) := do
  let T := s.L.Tba
  let put := fun (w : ℝ × ℝ) (l a2 b2 : Nat) (q : Int) =>
    pair w.1 w.2 l a2 b2 q a1 a1 charge .ReWnd .ImWnd
  let leads := List.range kh.nleads
  let As ← kh.lower (charge - 1)
  let Bs ← kh.same charge
  let Cs ← kh.upper (charge + 1)
  pure
    (((if charge ≠ (kh.ncharge : Int) - 1 then Cs.flatMap fun a2 => Cs.flatMap fun b2 =>
        if a2 = b2 then [] else leads.flatMap fun l =>
        put (RTD.trans s (T l a2 a1 * conj (T l b2 a1)) (s.E b2 - s.E a1) (s.E a2 - s.E a1) 1 l) l a2 b2
          (charge + 1) else []) ++
      (if charge ≠ 0 then As.flatMap fun a2 => As.flatMap fun b2 =>
        if b2 = a2 then [] else leads.flatMap fun l =>
        put (RTD.trans s (T l a1 b2 * conj (T l a1 a2)) (s.E a1 - s.E a2) (s.E a1 - s.E b2) (-1) l) l a2 b2
          (charge - 1) else [])) ++
    Bs.flatMap fun a2 => Bs.flatMap fun b2 => if a2 = b2 then [] else
      (if charge ≠ (kh.ncharge : Int) - 1 then Cs.flatMap fun c =>
        (if a1 = b2 then leads.flatMap fun l =>
          put (RTD.stay s (T l c a1 * conj (T l c a2)) (s.E c - s.E b2) 1 1 l) l a2 b2 charge else []) ++
        (if a1 = a2 then leads.flatMap fun l =>
          put (RTD.stay s (T l c b2 * conj (T l c a1)) (s.E c - s.E a2) 1 (-1) l) l a2 b2 charge else [])
        else []) ++
      (if charge ≠ 0 then As.flatMap fun c =>
        (if a1 = b2 then leads.flatMap fun l =>
          put (RTD.stay s (T l a2 c * conj (T l a1 c)) (s.E b2 - s.E c) (-1) (-1) l) l a2 b2 charge
          else []) ++
        (if a1 = a2 then leads.flatMap fun l =>
          put (RTD.stay s (T l a1 c * conj (T l b2 c)) (s.E a2 - s.E c) (-1) 1 l) l a2 b2 charge else [])
        else []))

/-- `generate_row_inverse_Liouvillian`: c_RTD.pyx:949-960. -/
def rowL (s : In) (a1 b1 : Nat) (charge : Int) : List Call :=
  [.lnn a1 b1 charge (1 / RTD.gap (s.E a1 - s.E b1))]

/-! ### The handler -/

/-- The arrays; `Wdd2 t` is the copy of the thread `t`. The array `Wdd` is `Wdd2 0`. -/
inductive Arr where
  | Wdd2 (t : Nat) | WE1 | WE2 | ReWdn | ImWdn | ReWnd | ImWnd | Lnn
  deriving DecidableEq

/-- An update `arr[l, row, col] += val`. For the arrays without an axis for the leads `l` is 0, for the
vector `Lnn` the column is 0. -/
structure Wr where
  arr : Arr
  l : Nat
  row : Int
  col : Int
  val : ℝ

/-- The index computed in `add_matrix_element`: c_kernel_handler.pyx:273-282. -/
def offPos (kh : CKH) (b bp : Nat) (charge : Int) : Py Int := do
  let i ← kh.ind0 b bp charge
  pure (if b ≠ bp then
    (if b > bp then i - kh.npauli + (kh.ndm0 - kh.npauli : Int) else i - kh.npauli) else i)

/-- `add_matrix_element`: c_kernel_handler.pyx:271-293. -/
def addElem (kh : CKH) (fct : ℝ) (l b bp : Nat) (bcharge : Int) (a ap : Nat) (acharge : Int) (arr : Arr)
    (lead : Bool) : Py (List Wr) := do
  let i ← offPos kh b bp bcharge
  let j ← offPos kh a ap acharge
  pure [⟨arr, if lead then l else 0, i, j, fct⟩]

/-- The array of `set_matrix_element_dd`: c_kernel_handler.pyx:295-305. -/
def ddArr : Name → Option Arr
  | .Wdd => some (.Wdd2 0)
  | .WE1 => some .WE1
  | .WE2 => some .WE2
  | _ => none

/-- The updates made by a call in the thread `t`: c_kernel_handler.pyx:271-319. -/
def writes (kh : CKH) (t : Nat) : Call → Py (List Wr)
  | .dd l fm fp bb aa mi => match ddArr mi with
    | some arr => pure [⟨arr, l, bb, bb, fm⟩, ⟨arr, l, bb, aa, fp⟩]
    | none => pure []
  | .two r fct indx0 indx1 a3 charge3 a4 charge4 => do
    let indx3 ← kh.ind0 a3 a3 charge3
    let indx4 ← kh.ind0 a4 a4 charge4
    pure [⟨.Wdd2 t, r, indx4, indx0, 2 * fct⟩, ⟨.Wdd2 t, r, indx3, indx0, -(2 * fct)⟩,
      ⟨.Wdd2 t, r, indx4, indx1, 2 * fct⟩, ⟨.Wdd2 t, r, indx3, indx1, -(2 * fct)⟩]
  | .elem fct l b bp bcharge a ap acharge mi => match mi with
    | .ReWdn => addElem kh fct l b bp bcharge a ap acharge .ReWdn true
    | .ImWdn => addElem kh fct l b bp bcharge a ap acharge .ImWdn true
    | .ReWnd => addElem kh fct l b bp bcharge a ap acharge .ReWnd false
    | .ImWnd => addElem kh fct l b bp bcharge a ap acharge .ImWnd false
    | _ => pure []
  | .lnn a1 b1 charge fct => do
    let j ← offPos kh a1 b1 charge
    pure [⟨.Lnn, 0, j, 0, fct⟩]
  | .imGamma => pure []

/-! ### The loops of `generate_kern` -/

/-- An iteration of the first parallel loop, executed by the thread `t`: c_RTD.pyx:186-189. -/
def iter1 (kh : CKH) (s : In) (poles : s.lib.Poles) (t i : Nat) : Py (List Wr) := do
  let p ← cGet kh.allBbp (i : Nat)
  let ks ← col2 kh s poles p.1 (p.2.2 : Nat)
  collect ks (writes kh t)

/-- `if off_diag_corrections: ...`: c_RTD.pyx:203-204. -/
def nd (kh : CKH) (s : In) (off : Bool) (b : Nat) (charge : Int) : Py (List Call) :=
  if off then colNd kh s b charge else pure []

/-- The calls made in an iteration of the second parallel loop: c_RTD.pyx:196-204. -/
def calls2 (kh : CKH) (s : In) (fct : Nat → Nat → ℝ × ℝ) (off : Bool) (i : Nat) : Py (List Call) := do
  let p ← cGet kh.allBbp (i : Nat)
  let k1 ← row1 kh fct p.1 (p.2.2 : Nat)
  let k3 ← rowE kh (energy1 kh s) p.1 (p.2.2 : Nat)
  let k4 ← rowE kh (energy2 kh s) p.1 (p.2.2 : Nat)
  let k5 ← nd kh s off p.1 (p.2.2 : Nat)
  pure (k1 ++ k3 ++ k4 ++ k5)

/-- The updates made in an iteration of the second parallel loop. -/
def iter2 (kh : CKH) (s : In) (fct : Nat → Nat → ℝ × ℝ) (off : Bool) (i : Nat) : Py (List Wr) := do
  let ks ← calls2 kh s fct off i
  collect ks (writes kh 0)

/-- The updates made in an iteration of the third parallel loop: c_RTD.pyx:210-219. -/
def iter3 (kh : CKH) (s : In) (c : Nat) : Py (List Wr) := do
  let l ← kh.same (c : Nat)
  let ks ← collect l fun b => collect l fun bp =>
    if b = bp then pure [] else do
      let k1 ← colDn kh s b bp (c : Nat)
      pure (k1 ++ rowL s b bp (c : Nat))
  collect ks (writes kh 0)

/-! ### Execution of `generate_kern` -/

/-- A cell of the arrays. -/
abbrev Cell := Arr × Nat × Nat × Nat

/-- The update as a pair of a cell and a number. -/
def Wr.cell (w : Wr) : Cell × ℝ := ((w.arr, w.l, w.row.toNat, w.col.toNat), w.val)

/-- The update is within the arrays made by `prepare_arrays`, c_RTD.pyx:84-98. -/
def Wr.Inside (kh : CKH) (copies : Nat) (w : Wr) : Prop :=
  0 ≤ w.row ∧ 0 ≤ w.col ∧ match w.arr with
    | .Wdd2 t => t < copies ∧ w.l < kh.nleads ∧ w.row < kh.npauli ∧ w.col < kh.npauli
    | .WE1 | .WE2 => w.l < kh.nleads ∧ w.row < kh.npauli ∧ w.col < kh.npauli
    | .ReWdn | .ImWdn => w.l < kh.nleads ∧ w.row < kh.npauli ∧ w.col < 2 * kh.ndm0 - 2 * kh.npauli
    | .ReWnd | .ImWnd => w.l = 0 ∧ w.row < 2 * kh.ndm0 - 2 * kh.npauli ∧ w.col < kh.npauli
    | .Lnn => w.l = 0 ∧ w.row < 2 * kh.ndm0 - 2 * kh.npauli ∧ w.col = 0

/-- `for i in range(1, nbr_Wdd2_copies): Wdd2[0,...] += Wdd2[i,...]`: c_RTD.pyx:191-192. -/
def merge (copies : Nat) (x : Cell → ℝ) : Cell → ℝ
  | (.Wdd2 0, l, i, j) => x (.Wdd2 0, l, i, j) + ∑ t ∈ Finset.range (copies - 1), x (.Wdd2 (t + 1), l, i, j)
  | k => x k

/-- An execution of `generate_kern` from arrays of zeros: c_RTD.pyx:168-220. `sched t` are the iterations
of the first loop executed by the thread `t`, in this order; only threads that have a copy of `Wdd` take
part. The iterations of the other two loops may be executed by any thread. -/
structure Exec (kh : CKH) (s : In) (poles : s.lib.Poles) (fct : Nat → Nat → ℝ × ℝ) (off : Bool)
    (copies : Nat) where
  sched : Nat → List Nat
  part : ((List.range copies).flatMap sched).Perm (List.range kh.npauli)
  idle : ∀ t, copies ≤ t → sched t = []
  p1 : Nat → List Wr
  h1 : ∀ t, collect (sched t) (iter1 kh s poles t) = .ok (p1 t)
  x1 : Cell → ℝ
  e1 : PEndFrom (fun _ => 0) (fun t => (p1 t).map Wr.cell) x1
  p2 : Nat → List Wr
  h2 : ∀ i < kh.npauli, iter2 kh s fct off i = .ok (p2 i)
  z2 : ∀ i, kh.npauli ≤ i → p2 i = []
  x2 : Cell → ℝ
  e2 : PEndFrom (merge copies x1) (fun i => (p2 i).map Wr.cell) x2
  p3 : Nat → List Wr
  h3 : ∀ c < kh.ncharge, off = true → iter3 kh s c = .ok (p3 c)
  z3 : ∀ c, off = false ∨ kh.ncharge ≤ c → p3 c = []
  x3 : Cell → ℝ
  e3 : PEndFrom x2 (fun c => (p3 c).map Wr.cell) x3

namespace Exec

variable {kh : CKH} {s : In} {poles : s.lib.Poles} {fct : Nat → Nat → ℝ × ℝ} {off : Bool} {copies : Nat}
  (X : Exec kh s poles fct off copies)

/-- `Wcorr` of `add_off_diag_corrections`, with `diag_matrix_multiply`: c_RTD.pyx:227-231,
c_specfunc.pyx:506-516. -/
def corr (l i j : Nat) : ℝ :=
  if off then
    ∑ k ∈ Finset.range (2 * kh.ndm0 - 2 * kh.npauli),
      X.x3 (.ReWdn, l, i, k) * (X.x3 (.Lnn, 0, k, 0) * X.x3 (.ImWnd, 0, k, j)) +
    ∑ k ∈ Finset.range (2 * kh.ndm0 - 2 * kh.npauli),
      X.x3 (.ImWdn, l, i, k) * (X.x3 (.Lnn, 0, k, 0) * X.x3 (.ReWnd, 0, k, j))
  else 0

/-- `Wdd` at the end: c_RTD.pyx:233. -/
def wdd (l i j : Nat) : ℝ := X.x3 (.Wdd2 0, l, i, j) + X.corr l i j

/-- The kernel at the end: c_RTD.pyx:206 and 235. -/
def kern (i j : Nat) : ℝ :=
  ∑ l ∈ Finset.range kh.nleads, X.x2 (.Wdd2 0, l, i, j) + ∑ l ∈ Finset.range kh.nleads, X.corr l i j

/-- All updates are within the arrays. -/
def Inside : Prop :=
  (∀ t, ∀ w ∈ X.p1 t, w.Inside kh copies) ∧ (∀ i, ∀ w ∈ X.p2 i, w.Inside kh copies) ∧
    ∀ c, ∀ w ∈ X.p3 c, w.Inside kh copies

/-- The current from the lead `l`: c_RTD.pyx:267. -/
def current (LN φ : Vec) (l : Nat) : ℝ :=
  0.5 * ∑ i ∈ Finset.range kh.npauli, LN.val i * ∑ j ∈ Finset.range kh.npauli, X.wdd l i j * φ.val j

/-- The energy current from the lead `l`: c_RTD.pyx:260-264, 268-270. `LE` has the length `npauli` and is
filled with the first energies. -/
def energy (φ : Vec) (l : Nat) : ℝ :=
  0.5 * ∑ i ∈ Finset.range kh.npauli, 2 * s.E i * ∑ j ∈ Finset.range kh.npauli, X.wdd l i j * φ.val j
    + -0.5 * ∑ i ∈ Finset.range kh.npauli, ∑ j ∈ Finset.range kh.npauli, X.x3 (.WE1, l, i, j) * φ.val j
    + 0.5 * ∑ i ∈ Finset.range kh.npauli, ∑ j ∈ Finset.range kh.npauli, X.x3 (.WE2, l, i, j) * φ.val j

/-- The heat current from the lead `l`: c_RTD.pyx:271. -/
def heat (LN φ : Vec) (l : Nat) : ℝ := X.energy φ l - X.current LN φ l * s.L.mu l

end Exec

/-- `generate_LN`: c_RTD.pyx:238-247. -/
def genLN (kh : CKH) : Py (List ℝ) :=
  collect (List.range kh.npauli) fun i => do
    let τ ← cGet kh.allBbp i
    pure [2 * (τ.2.2 : ℝ)]

/-- The flag `ImGamma` is set in some iteration of the second loop. -/
def SetsImGamma (kh : CKH) (s : In) (fct : Nat → Nat → ℝ × ℝ) (off : Bool) : Prop :=
  ∃ i < kh.npauli, ∃ ks, calls2 kh s fct off i = .ok ks ∧ Call.imGamma ∈ ks

end CRTD

end

end Verif
