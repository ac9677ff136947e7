import Verif.Lemmas.CompiledSolve
import Verif.Props.Solve

/-!
C101: the life cycle of a compiled approach object and that of a Python one.
-/

namespace Verif

noncomputable section

namespace CSolve

/-- **C101**, `solve` in matrix mode. Let `s` be a compiled object after any history of assignments to `symq`,
`norm_row`, `solmethod` and `make_kern_copy`, changes of the parameters or of the considered
states, and solves. Let `t` be a Python object of the same class after any history of its own,
and let the two have the same options, states and parameters now. If `solmethod` is one of the
two methods that exist and `norm_row` is the number of an equation, then `solve` raises the same
exception or none, and in the latter case leaves the same `phi0`, `success` and currents. The
LAPACK routines are arbitrary.

Missing: other values of `solmethod` and negative values of `norm_row`; see `c101_lsmr_false`,
`c101_unknown_false` and `c101_norm_row_false`. -/
theorem c101_solve_partial {size : View → Nat} {useKh : Bool} {s : CState}
    (hc : CReached size useKh s) {size' : View → Nat} {useKh' : Bool} {t : AState}
    (ht : Reached size' useKh' t) (ho : t.opts = s.a.opts) (hv : t.v = s.a.v)
    (ha : t.ap = s.a.ap) (hz : t.size = s.a.size)
    (hm : s.a.opts.mfreeq = false)
    (hs : s.a.opts.prepareSolver.solmethod = some "solve" ∨
      s.a.opts.prepareSolver.solmethod = some "lsqr")
    (hr : s.a.opts.symq = true →
      0 ≤ s.a.opts.normRow ∧ s.a.opts.normRow < s.a.size s.a.v)
    (l : Lapack) (run : RootRun) (c : Bool) :
    (s.solve l run c).2 = (t.solve l.lib run c).2 ∧
    ((s.solve l run c).2 = none →
      (s.solve l run c).1.a.phi0 = (t.solve l.lib run c).1.phi0 ∧
      (s.solve l run c).1.a.success = (t.solve l.lib run c).1.success ∧
      (s.solve l run c).1.a.cur = (t.solve l.lib run c).1.cur) := by
  have A := csolve_matrix hc.inv hm hs hr l run c
  obtain ⟨t', e', g, -, -, -, -, -, -, B⟩ := solve_matrix ht.inv.1 (by rw [ho]; exact hm)
    (by rw [ho]; exact hs) l.lib run c
  rw [ho, hv, ha, hz] at B
  rw [g]
  cases hR : Ref.solve s.a.opts.prepareSolver s.a.v s.a.ap (s.a.size s.a.v) l.lib c with
  | error x =>
    rw [hR] at A B
    simp only at A B
    rw [A, B]
    exact ⟨rfl, by simp⟩
  | ok r =>
    rw [hR] at A B
    simp only at A B
    obtain ⟨a1, a2, a3, a4⟩ := A
    obtain ⟨b1, -, -, b2, b3, b4, -⟩ := B
    rw [a1, a2, a3, a4, b1, b2, b3, b4]
    exact ⟨rfl, fun _ => ⟨rfl, rfl, rfl⟩⟩

/-- **C101**, `solve` in matrix-free mode: as `c101_solve_partial`, for objects with `mfreeq=True`.
The calls `optimize.root` makes and what it returns are arbitrary but the same for both objects,
and it evaluates the equations at least once. `solmethod` plays no part.

Missing: negative values of `norm_row`; see `c101_norm_row_free_false`. -/
theorem c101_free_partial {size : View → Nat} {useKh : Bool} {s : CState}
    (hc : CReached size useKh s) {size' : View → Nat} {useKh' : Bool} {t : AState}
    (ht : Reached size' useKh' t) (ho : t.opts = s.a.opts) (hv : t.v = s.a.v)
    (ha : t.ap = s.a.ap) (hz : t.size = s.a.size) (hk : t.useKh = s.a.useKh)
    (hm : s.a.opts.mfreeq = true)
    (hr : 0 ≤ s.a.opts.normRow ∧ s.a.opts.normRow < s.a.size s.a.v)
    (l : Lapack) (lib : LinLib) (run : RootRun) (hn : run.trials ≠ []) (c : Bool) :
    (s.solve l run c).2 = (t.solve lib run c).2 ∧
    ((s.solve l run c).2 = none →
      (s.solve l run c).1.a.phi0 = (t.solve lib run c).1.phi0 ∧
      (s.solve l run c).1.a.success = (t.solve lib run c).1.success ∧
      (s.solve l run c).1.a.cur = (t.solve lib run c).1.cur) := by
  obtain ⟨x, xs, hx⟩ : ∃ x xs, run.trials = x :: xs := by
    cases h : run.trials with
    | nil => exact absurd h hn
    | cons x xs => exact ⟨x, xs, rfl⟩
  have A := csolve_free hc.inv hm hr l run hx c
  obtain ⟨t', e', g, -, -, -, -, -, -, B⟩ := solve_free ht.inv.1 (by rw [ho]; exact hm) lib run hx c
  rw [ho, hv, ha, hz, hk] at B
  rw [g]
  cases hR : Ref.solveFree s.a.opts.normRow s.a.v s.a.ap (s.a.size s.a.v) s.a.useKh x xs run.out
      c with
  | error x =>
    rw [hR] at A B
    simp only at A B
    rw [A, B]
    exact ⟨rfl, by simp⟩
  | ok r =>
    rw [hR] at A B
    simp only at A B
    obtain ⟨a1, a2, a3, a4⟩ := A
    obtain ⟨b1, b2, b3, b4⟩ := B
    rw [a1, a2, a3, a4, b1, b2, b3, b4]
    exact ⟨rfl, fun _ => ⟨rfl, rfl, rfl⟩⟩

/-! ### The setter of `solmethod` -/

/-- An operation that is not `solve`. -/
def COp.setting : COp → Bool
  | .solve _ _ _ => false
  | _ => true

theorem kern_none (ops : List COp) (ho : ∀ x ∈ ops, x.setting = true) (s : CState)
    (h : s.a.kern = none ∧ s.a.opts.mfreeq = false) :
    (ops.foldl CState.op s).a.kern = none ∧ (ops.foldl CState.op s).a.opts.mfreeq = false := by
  induction ops generalizing s with
  | nil => exact h
  | cons o os ih =>
    refine ih (fun x hx => ho x (by simp [hx])) _ ?_
    cases o with
    | symq b =>
      simp only [CState.op, AState.op]
      split <;> exact h
    | normRow i => exact h
    | solmethod m =>
      have h' : (s.a.op (.solmethod m)).kern = none ∧
          (s.a.op (.solmethod m)).opts.mfreeq = false :=
        ⟨h.1, (prepareSolver_fields { s.a.opts with solmethod := m }).2.1.trans h.2⟩
      simp only [CState.op, CState.setSolmethod, stepC]
      split
      · rename_i t ht
        rw [newSolver_a ht]; exact h'
      · exact h'
    | kernCopy b => exact h
    | params ap => exact h
    | states v => exact h
    | solve l run c => simpa [COp.setting] using ho (.solve l run c) (by simp)

/-- **C101**, where the objects differ: in matrix mode, before the first `solve`, whatever was set
before, an assignment to `solmethod` of a compiled object raises `AttributeError`, because the solver is
made from a kernel that does not exist. The assignment to a Python object (`AState.op`) never
raises. The option is changed all the same. -/
theorem c101_solmethod_false (o : Opts) (v : View) (ap : Appr) (size : View → Nat) (useKh : Bool)
    (hf : o.mfreeq = false) (ops : List COp) (ho : ∀ x ∈ ops, x.setting = true)
    (m : Option String) :
    let s := ops.foldl CState.op (CState.fresh o v ap size useKh)
    (s.setSolmethod m).2 = some .attribute ∧
      (s.setSolmethod m).1.a = s.a.op (.solmethod m) := by
  intro s
  obtain ⟨hk, hm⟩ := kern_none ops ho (CState.fresh o v ap size useKh) ⟨rfl, hf⟩
  have key : ∀ x : CState, x.a.opts.mfreeq = false → x.a.kern = none →
      stepC CState.newSolver (x, none) = (x, some .attribute) := by
    intro x h0 h
    simp only [stepC, CState.newSolver, h0, Bool.false_eq_true, if_false]
    rw [h]
    rfl
  have e : s.setSolmethod m = _ :=
    key _ ((prepareSolver_fields { s.a.opts with solmethod := m }).2.1.trans hm) hk
  rw [e]
  exact ⟨rfl, rfl⟩

/-- **C101**: once the object is prepared the assignment does not raise. -/
theorem c101_solmethod {size : View → Nat} {useKh : Bool} {s : CState}
    (hc : CReached size useKh s) (h1 : s.a.isPrepared = true) (h2 : s.a.changed = false)
    (m : Option String) :
    (s.setSolmethod m).2 = none ∧ (s.setSolmethod m).1.a = s.a.op (.solmethod m) := by
  have r := hc.inv.ready h1 h2
  have e2 := (prepareSolver_fields { s.a.opts with solmethod := m }).2.1
  by_cases hmf : s.a.opts.mfreeq = true
  · have key : ∀ x : CState, x.a.opts.mfreeq = true →
        stepC CState.newSolver (x, none) = (x, none) := by
      intro x h
      simp only [stepC]
      rw [newSolver_free h]
    have e : s.setSolmethod m = _ := key _ (e2.trans hmf)
    rw [e]
    exact ⟨rfl, rfl⟩
  have hmf : s.a.opts.mfreeq = false := by simpa using hmf
  obtain ⟨k, hk, -⟩ := r.a.kern hmf
  obtain ⟨b, hb, -⟩ := r.a.bvec hmf
  have key : ∀ x : CState, x.a.opts.mfreeq = false → x.a.kern = some k → x.a.bvec = some b →
      stepC CState.newSolver (x, none) = ({ x with
        solver := some ⟨x.a.opts.solmethod == some "lsqr", x.copyq, x.gen⟩ }, none) := by
    intro x h0 h1 h2
    simp only [stepC]
    rw [newSolver_some h0 h1 h2]
  have e : s.setSolmethod m = _ := key _ (e2.trans hmf) hk hb
  rw [e]
  exact ⟨rfl, rfl⟩

/-! ### Options the two objects treat differently -/

/-- The objects before `solve_kern`. -/
theorem before {v : View} {la : Lab} (h : VOk v la) (kd : Kind) (num : NumLib) (E : Nat → ℝ)
    (L : Leads) (o : Opts) (hm : o.mfreeq = false) (copyq : Bool) (l : Lapack) (lib : LinLib)
    (run : RootRun) :
    let n := kd.size v
    let s := (CState.fresh o v (kd.ap num E L) kd.size kd.useKh).op (.kernCopy copyq)
    let t := AState.fresh o v (kd.ap num E L) kd.size kd.useKh
    ∃ k nv sv cu pu, k.rows = Ref.rows o n ∧ k.cols = n ∧ nv.size = n ∧
      (do let cs ← (kd.ap num E L).calls v; v.runKern (Mat.zeros (Ref.rows o n) n) cs) = .ok k ∧
      v.genNormVec (Vec.zeros n) = .ok nv ∧
      (cu.a.kern = some k ∧ cu.a.bvec = some (Vec.zeros (Ref.rows o n)) ∧ cu.a.normVec = some nv ∧
        cu.a.phi0 = some (Vec.zeros n) ∧ cu.symq = o.symq ∧ cu.row = o.normRow ∧
        cu.solver = some sv ∧ sv.gen = cu.gen ∧ sv.copyq = copyq ∧
        sv.lsq = (o.prepareSolver.solmethod == some "lsqr")) ∧
      s.solve l run false = stepC (fun s => s.solveKern l) (cu, none) ∧
      (pu.kern = some k ∧ pu.bvec = some (Vec.zeros (Ref.rows o n)) ∧ pu.normVec = some nv ∧
        pu.phi0 = some (Vec.zeros n) ∧ pu.sol0 = none ∧ pu.opts = o.prepareSolver) ∧
      t.solve lib run false = stepS (fun s => s.solveKern lib) (pu, none) := by
  intro n s t
  have W := Kind.works h kd num E L
  obtain ⟨cs, _, gc, A, -⟩ := W.calls
  have hle : n ≤ Ref.rows o n := by unfold Ref.rows; split <;> omega
  obtain ⟨k, gK, hr, hc, -⟩ := (A cs (.refl cs)).kern (Ref.rows o n) hle
  obtain ⟨nv, gn, hns, -⟩ := genNormVec_ok h n W.np_le
  obtain ⟨o1, o2, o3, o4⟩ := prepareSolver_fields o
  let a : AState := { t with
    handler := some ⟨false, v.ndm0, v.npauli, none⟩
    cur := some []
    phi0 := some (Vec.zeros n)
    kern := some (Mat.zeros (Ref.rows o n) n)
    bvec := some (Vec.zeros (Ref.rows o n))
    normVec := some nv
    opts := o.prepareSolver
    changed := false
    isPrepared := true }
  have hp : t.prepareArrays = .ok { a with opts := o, changed := true, isPrepared := false } := by
    unfold AState.prepareArrays
    simp only [t, AState.fresh, hm, Bool.false_eq_true, if_false]
    rw [gn]
    rfl
  have hg : ∀ x : AState, x = a → x.generate = .ok { a with kern := some k } := by
    intro x hx
    subst hx
    unfold AState.generate
    have hc' : a.ap.calls a.v = .ok cs := gc
    rw [hc']
    show Except.bind _ _ = _
    have hv : Handler.view ⟨false, v.ndm0, v.npauli, none⟩ v = v := rfl
    have : (Handler.view ⟨false, v.ndm0, v.npauli, none⟩ a.v).runKern
        (Mat.zeros (Ref.rows o n) n) cs = .ok k := gK
    simp only [a, attr, py_pure, py_bind_ok, Except.bind, Bool.false_eq_true, if_false]
    rw [show (Handler.view ⟨false, v.ndm0, v.npauli, none⟩ t.v).runKern
        (Mat.zeros (Ref.rows o n) n) cs = .ok k from gK]
    rfl
  refine ⟨k, nv, ⟨o.prepareSolver.solmethod == some "lsqr", copyq, 1⟩,
    ⟨{ a with kern := some k }, o.prepareSolver.symq, o.prepareSolver.normRow, copyq,
      some ⟨o.prepareSolver.solmethod == some "lsqr", copyq, 1⟩, 1⟩,
    { a with kern := some k }, hr, hc, hns, by rw [gc]; exact gK, gn,
    ⟨rfl, rfl, rfl, rfl, o1, o3, rfl, rfl, rfl, rfl⟩, ?_, ⟨rfl, rfl, rfl, rfl, rfl, rfl⟩, ?_⟩
  · unfold CState.solve
    have h1 : stepC CState.prepare (s, none) = (⟨a, o.prepareSolver.symq, o.prepareSolver.normRow,
        copyq, some ⟨o.prepareSolver.solmethod == some "lsqr", copyq, 1⟩, 1⟩, none) := by
      simp only [stepC]
      unfold CState.prepare
      have : s.a = t := rfl
      rw [this, hp]
      unfold CState.newSolver
      have hx : o.prepareSolver.mfreeq = false := o2.trans hm
      simp only [py_bind_ok, hx, Bool.false_eq_true, if_false]
      rfl
    have hs : s.a.opts.mfreeq = false := hm
    rw [h1, hs]
    simp only [stepC_lift, Bool.false_eq_true, if_false]
    have h2 : stepS AState.generate (a, none) = ({ a with kern := some k }, none) := by
      simp only [stepS]; rw [hg a rfl]
    simp only [h2]
  · unfold AState.solve
    have h1 : stepS AState.prepare (t, none) = (a, none) := by
      simp only [stepS]
      unfold AState.prepare
      rw [hp]
      rfl
    have h2 : stepS AState.generate (a, none) = ({ a with kern := some k }, none) := by
      simp only [stepS]; rw [hg a rfl]
    have h3 : t.opts.mfreeq = false := hm
    rw [h1, h3]
    simp only [Bool.false_eq_true, if_false, h2]

/-- The system can be assembled. -/
theorem sysC_ok {k : Mat} {b nv : Vec} {pos : Int} {r : Nat} (hr : cIdx k.rows pos = .ok r)
    (hn : nv.size = k.cols) (hb : b.size = k.rows) :
    sysC k b nv pos = .ok (⟨k.rows, k.cols, fun r' c => if r' = r then nv.val c else k.val r' c⟩,
      ⟨b.size, fun j => if j = r then 1 else b.val j⟩) := by
  unfold sysC
  rw [hb, hr]
  simp only [py_bind_ok, hn, if_true, py_pure]

/-- The position of the normalisation condition in an overdetermined system. -/
theorem cIdx_last (n : Nat) : cIdx (n + 1) (((n + 1 : Nat) : Int) - 1) = .ok n := by
  unfold cIdx
  rw [if_pos ⟨by omega, by omega⟩]
  congr 1
  omega

theorem pyIdx_last (n : Nat) : pyIdx (n + 1) (-1) = .ok n := by
  unfold pyIdx
  rw [if_neg (by omega), if_pos (by omega)]
  congr 1
  omega

/-- What the Python object does once the system can be assembled. -/
theorem py_after {u : AState} {k : Mat} {b nv p : Vec} {r : Nat} (hk : u.kern = some k)
    (hb : u.bvec = some b) (hn : u.normVec = some nv) (hp : u.phi0 = some p)
    (hr : pyIdx k.rows u.normPos = .ok r) (hns : nv.size = k.cols) (hbs : b.size = k.rows)
    (lib : LinLib) :
    ∃ kb : Mat × Vec, stepS (fun s => s.solveKern lib) (u, none) =
      ({ u.finish p (u.runSolver lib kb.1 kb.2) with
        kern := some (if u.opts.symq then k else kb.1), bvec := some kb.2 }, none) := by
  have : ∃ kb, sys k b nv u.normPos = .ok kb := by
    unfold sys Mat.setRow Vec.put
    rw [hbs, hr]
    simp only [py_bind_ok, hns, if_true, py_pure]
    exact ⟨_, rfl⟩
  obtain ⟨kb, hy⟩ := this
  refine ⟨kb, ?_⟩
  simp only [stepS]
  rw [solveKern_eq hk hb hn hp, hy]
  rfl

/-- **C101**, where the objects differ: with `symq=False` and `solmethod='lsmr'`, which
`prepare_solver` lets pass, the first `solve` of a Python object reports a failure (`success`
is `False`), while that of a compiled object runs `dgesv` on a matrix with one row more than
columns and goes outside the array. This holds for every system. -/
theorem c101_lsmr_false {v : View} {la : Lab} (h : VOk v la) (kd : Kind) (num : NumLib)
    (E : Nat → ℝ) (L : Leads) (o : Opts) (hm : o.mfreeq = false) (hq : o.symq = false)
    (hs : o.solmethod = some "lsmr") (l : Lapack) (run : RootRun) :
    let s := CState.fresh o v (kd.ap num E L) kd.size kd.useKh
    let t := AState.fresh o v (kd.ap num E L) kd.size kd.useKh
    (s.solve l run false).2 = some .index ∧
      (t.solve l.lib run false).2 = none ∧ (t.solve l.lib run false).1.success = some false := by
  intro s t
  obtain ⟨k, nv, sv, cu, pu, kr, kc, ns, -, -, ⟨c1, c2, c3, c4, c5, c6, c7, c8, c9, c10⟩, cs,
    ⟨p1, p2, p3, p4, p5, p6⟩, ps⟩ := before h kd num E L o hm false l l.lib run
  have hrows : Ref.rows o (kd.size v) = kd.size v + 1 := by simp [Ref.rows, hq]
  have hsol : o.prepareSolver.solmethod = some "lsmr" := by
    unfold Opts.prepareSolver; simp [hm, hq, hs]
  obtain ⟨o1, -, -, -⟩ := prepareSolver_fields o
  refine ⟨?_, ?_⟩
  · show (CState.solve _ l run false).2 = _
    have e : (CState.fresh o v (kd.ap num E L) kd.size kd.useKh).op (.kernCopy false) = s := rfl
    rw [← e, cs]
    simp only [stepC]
    unfold CState.solveKern
    rw [c1, c2, c3, c7, c5, hq]
    simp only [attr, py_pure, py_bind_ok, Bool.false_eq_true, if_false]
    rw [sysC_ok (r := kd.size v) (by rw [kr, hrows]; exact cIdx_last _) (by rw [ns, kc])
      (by rw [kr]; rfl)]
    simp only [py_bind_ok]
    unfold Solver.run
    have hl : sv.lsq = false := by rw [c10, hsol]; rfl
    rw [if_neg (by simp [c8]), hl, if_neg (by simp), if_pos (by
      show k.rows ≠ k.cols
      rw [kr, kc, hrows]; omega)]
    rfl
  · obtain ⟨kb, e⟩ := py_after (r := kd.size v) p1 p2 p3 p4 (by
      unfold AState.normPos
      rw [p6, o1, hq, kr, hrows]
      exact pyIdx_last _) (by rw [ns, kc]) (by rw [kr]; rfl) l.lib
    rw [ps, e]
    refine ⟨rfl, ?_⟩
    have hrun : pu.runSolver l.lib kb.1 kb.2 = some none := by
      unfold AState.runSolver
      rw [p6, hsol, p5]
      simp
    rw [hrun]
    rfl

/-- **C101**, where the objects differ: with `symq=True` a `solmethod` that does not exist makes
the first `solve` of a Python object report a failure, while a compiled object uses `dgesv` and,
if that finds a solution, reports success. -/
theorem c101_unknown_false {v : View} {la : Lab} (h : VOk v la) (kd : Kind) (num : NumLib)
    (E : Nat → ℝ) (L : Leads) (o : Opts) (hm : o.mfreeq = false) (hq : o.symq = true)
    {m : String} (hs : o.solmethod = some m) (h1 : m ≠ "solve") (h2 : m ≠ "lsqr")
    (hr : 0 ≤ o.normRow ∧ o.normRow < kd.size v) (l : Lapack)
    (hl : ∀ K b, (l.gesv K b).info = 0) (run : RootRun) :
    let s := CState.fresh o v (kd.ap num E L) kd.size kd.useKh
    let t := AState.fresh o v (kd.ap num E L) kd.size kd.useKh
    ((s.solve l run false).2 = none ∧ (s.solve l run false).1.a.success = some true) ∧
      (t.solve l.lib run false).2 = none ∧ (t.solve l.lib run false).1.success = some false := by
  intro s t
  obtain ⟨k, nv, sv, cu, pu, kr, kc, ns, -, -, ⟨c1, c2, c3, c4, c5, c6, c7, c8, c9, c10⟩, cs,
    ⟨p1, p2, p3, p4, p5, p6⟩, ps⟩ := before h kd num E L o hm false l l.lib run
  have hrows : Ref.rows o (kd.size v) = kd.size v := by simp [Ref.rows, hq]
  have hsol : o.prepareSolver.solmethod = some m := by
    unfold Opts.prepareSolver; simp [hm, hq, hs]
  obtain ⟨o1, -, o3, -⟩ := prepareSolver_fields o
  refine ⟨?_, ?_⟩
  · have e : (CState.fresh o v (kd.ap num E L) kd.size kd.useKh).op (.kernCopy false) = s := rfl
    rw [← e, cs]
    have hy := sysC_ok (k := k) (b := Vec.zeros (Ref.rows o (kd.size v))) (nv := nv)
      (pos := if cu.symq then cu.row else (k.rows : Int) - 1) (r := o.normRow.toNat) (by
        rw [c5, c6, hq, kr, hrows]
        unfold cIdx
        rw [if_pos rfl, if_pos hr]) (by rw [ns, kc]) (by rw [kr]; rfl)
    have hl' : sv.lsq = false := by rw [c10, hsol]; simp [h2]
    have hw : ∀ K b, K.rows = K.cols → sv.run l cu.gen K b =
        .ok (if sv.copyq then K else ⟨K.rows, K.cols, (l.gesv K b).a⟩, ⟨b.size, (l.gesv K b).b⟩,
          (l.gesv K b).info) := by
      intro K b hK
      unfold Solver.run
      rw [if_neg (by simp [c8]), hl', if_neg (by simp), if_neg (by simp [hK])]
      rfl
    simp only [stepC]
    rw [solveKernC_eq c1 c2 c3 c4 hy c7 (hw _ _ (by
      show k.rows = k.cols
      rw [kr, kc, hrows])) (by
        show kd.size v ≤ Ref.rows o (kd.size v)
        rw [hrows])]
    refine ⟨rfl, ?_⟩
    simp [hl]
  · obtain ⟨kb, e⟩ := py_after (r := o.normRow.toNat) p1 p2 p3 p4 (by
      unfold AState.normPos pyIdx
      rw [p6, o1, hq, o3, kr, hrows]
      rw [if_pos rfl, if_pos hr.1, if_pos hr.2]) (by rw [ns, kc]) (by rw [kr]; rfl) l.lib
    rw [ps, e]
    refine ⟨rfl, ?_⟩
    have hrun : pu.runSolver l.lib kb.1 kb.2 = some none := by
      unfold AState.runSolver
      rw [p6, hsol, p5]
      simp [h1, h2]
    rw [hrun]
    rfl

/-- **C101**, where the objects differ: a negative `norm_row` counts from the last equation in a
Python object; in a compiled one it goes outside the array. -/
theorem c101_norm_row_false {v : View} {la : Lab} (h : VOk v la) (kd : Kind) (num : NumLib)
    (E : Nat → ℝ) (L : Leads) (o : Opts) (hm : o.mfreeq = false) (hq : o.symq = true)
    (h0 : o.normRow < 0) (h1 : 0 ≤ o.normRow + kd.size v) (l : Lapack) (run : RootRun) :
    let s := CState.fresh o v (kd.ap num E L) kd.size kd.useKh
    let t := AState.fresh o v (kd.ap num E L) kd.size kd.useKh
    (s.solve l run false).2 = some .index ∧ (t.solve l.lib run false).2 = none := by
  intro s t
  obtain ⟨k, nv, sv, cu, pu, kr, kc, ns, -, -, ⟨c1, c2, c3, c4, c5, c6, c7, c8, c9, c10⟩, cs,
    ⟨p1, p2, p3, p4, p5, p6⟩, ps⟩ := before h kd num E L o hm false l l.lib run
  have hrows : Ref.rows o (kd.size v) = kd.size v := by simp [Ref.rows, hq]
  obtain ⟨o1, -, o3, -⟩ := prepareSolver_fields o
  refine ⟨?_, ?_⟩
  · have e : (CState.fresh o v (kd.ap num E L) kd.size kd.useKh).op (.kernCopy false) = s := rfl
    rw [← e, cs]
    simp only [stepC]
    unfold CState.solveKern sysC
    rw [c1, c2, c3, c7, c5, c6, hq]
    simp only [attr, py_pure, py_bind_ok, if_true]
    have : cIdx k.rows o.normRow = .error .index := by
      unfold cIdx
      rw [if_neg (by omega)]
    rw [this]
    rfl
  · obtain ⟨kb, e⟩ := py_after (r := (o.normRow + kd.size v).toNat) p1 p2 p3 p4 (by
      unfold AState.normPos pyIdx
      rw [p6, o1, hq, o3, kr, hrows]
      rw [if_pos rfl, if_neg (by omega), if_pos h1]) (by rw [ns, kc]) (by rw [kr]; rfl) l.lib
    rw [ps, e]

theorem genVec_neg (v : View) {n : Nat} {i : Int} (h0 : i < 0) (h1 : 0 ≤ i + n)
    (calls : Py (List KCall)) (phi : Vec) :
    v.genVec n i calls phi = v.genVec n (i + n) calls phi := by
  unfold View.genVec
  cases v.phi0Norm phi with
  | error e => rfl
  | ok a =>
    cases calls with
    | error e => rfl
    | ok cs =>
      simp only [py_bind_ok]
      cases hx : v.runFree phi (Vec.zeros n) cs with
      | error e => rfl
      | ok x =>
        have hs : x.size = n := runFree_size hx
        have : pyIdx x.size i = pyIdx x.size (i + n) := by
          unfold pyIdx
          rw [hs, if_neg (by omega), if_pos h1, if_pos h1, if_pos (by omega)]
        simp only [py_bind_ok]
        unfold Vec.put
        rw [this]

/-- **C101**, where the objects differ in matrix-free mode: with a negative `norm_row` the Python
`generate_vec` puts the normalisation condition into equation `norm_row + size`. The compiled one
goes outside the array, for every argument. -/
theorem c101_norm_row_free_false {size : View → Nat} {useKh : Bool} {s : CState}
    (hc : CReached size useKh s) (h1 : s.a.isPrepared = true) (h2 : s.a.changed = false)
    (hm : s.a.opts.mfreeq = true) (h3 : s.a.opts.normRow < 0)
    (h4 : 0 ≤ s.a.opts.normRow + s.a.size s.a.v) (phi : Vec) :
    s.genVec phi = .error .index ∧
      ∀ x, s.a.v.genVec (s.a.size s.a.v) (s.a.opts.normRow + s.a.size s.a.v)
        (s.a.ap.calls s.a.v) phi = .ok x → ∃ a, s.a.genVec phi = .ok (a, x) := by
  have r := hc.inv.ready h1 h2
  refine ⟨?_, fun x hx => ?_⟩
  · rw [genVecC_eq r hm, r.row]
    unfold cIdx
    rw [if_neg (by omega)]
    rfl
  · rw [← genVec_neg _ h3 h4] at hx
    obtain ⟨h, -, h6, -⟩ := (genVec_ready r.a hm phi).1 x hx
    exact ⟨_, h6⟩

/-- **C101**, where the objects differ: after a `solve` with `symq=True` the attribute `kern` of a
Python object is the assembled kernel `k`. In a compiled object, even with `make_kern_copy=True`,
row `norm_row` is left as the normalisation condition. -/
theorem c101_kern_false {v : View} {la : Lab} (h : VOk v la) (kd : Kind) (num : NumLib)
    (E : Nat → ℝ) (L : Leads) (o : Opts) (hm : o.mfreeq = false) (hq : o.symq = true)
    (hs : o.solmethod = none) (hr : 0 ≤ o.normRow ∧ o.normRow < kd.size v) (l : Lapack)
    (run : RootRun) :
    let n := kd.size v
    let s := (CState.fresh o v (kd.ap num E L) kd.size kd.useKh).op (.kernCopy true)
    let t := AState.fresh o v (kd.ap num E L) kd.size kd.useKh
    ∃ k nv K, (do let cs ← (kd.ap num E L).calls v; v.runKern (Mat.zeros n n) cs) = .ok k ∧
      v.genNormVec (Vec.zeros n) = .ok nv ∧
      (t.solve l.lib run false).1.kern = some k ∧ (s.solve l run false).1.a.kern = some K ∧
      (∀ j, K.val o.normRow.toNat j = nv.val j) ∧
      ∀ i j, i ≠ o.normRow.toNat → K.val i j = k.val i j := by
  intro n s t
  obtain ⟨k, nv, sv, cu, pu, kr, kc, ns, hk, hn, ⟨c1, c2, c3, c4, c5, c6, c7, c8, c9, c10⟩, cs,
    ⟨p1, p2, p3, p4, p5, p6⟩, ps⟩ := before h kd num E L o hm true l l.lib run
  have hrows : Ref.rows o (kd.size v) = kd.size v := by simp [Ref.rows, hq]
  have hsol : o.prepareSolver.solmethod = some "solve" := by
    unfold Opts.prepareSolver; simp [hm, hq, hs]
  obtain ⟨o1, -, o3, -⟩ := prepareSolver_fields o
  rw [hrows] at hk
  refine ⟨k, nv, ⟨k.rows, k.cols, fun r' c => if r' = o.normRow.toNat then nv.val c
    else k.val r' c⟩, hk, hn, ?_, ?_, fun j => by simp, fun i j hi => by simp [hi]⟩
  · obtain ⟨kb, e⟩ := py_after (r := o.normRow.toNat) p1 p2 p3 p4 (by
      unfold AState.normPos pyIdx
      rw [p6, o1, hq, o3, kr, hrows]
      rw [if_pos rfl, if_pos hr.1, if_pos hr.2]) (by rw [ns, kc]) (by rw [kr]; rfl) l.lib
    rw [ps, e]
    show some (if pu.opts.symq = true then k else kb.1) = some k
    rw [p6, o1, hq]
    rfl
  · rw [cs]
    have hy := sysC_ok (k := k) (b := Vec.zeros (Ref.rows o (kd.size v))) (nv := nv)
      (pos := if cu.symq then cu.row else (k.rows : Int) - 1) (r := o.normRow.toNat) (by
        rw [c5, c6, hq, kr, hrows]
        unfold cIdx
        rw [if_pos rfl, if_pos hr]) (by rw [ns, kc]) (by rw [kr]; rfl)
    have hl' : sv.lsq = false := by rw [c10, hsol]; rfl
    have hw : ∀ K b, K.rows = K.cols → sv.run l cu.gen K b =
        .ok (K, ⟨b.size, (l.gesv K b).b⟩, (l.gesv K b).info) := by
      intro K b hK
      unfold Solver.run
      rw [if_neg (by simp [c8]), hl', if_neg (by simp), if_neg (by simp [hK]), c9]
      rfl
    simp only [stepC]
    rw [solveKernC_eq c1 c2 c3 c4 hy c7 (hw _ _ (by
      show k.rows = k.cols
      rw [kr, kc, hrows])) (by
        show kd.size v ≤ Ref.rows o (kd.size v)
        rw [hrows])]

/-- The hypotheses of `c101_solve_partial` are met by a compiled object that was made for least
squares and then had its options, states and parameters changed, and a Python object that was
made with these; those of the other theorems by the same system. -/
example (num : NumLib) (E : Nat → ℝ) (L L' : Leads) :
    ∃ (d : DM) (s : CState) (t : AState), VOk (d.view 2) d.labOf ∧
      CReached Kind.pauli.size Kind.pauli.useKh s ∧
      Reached Kind.pauli.size Kind.pauli.useKh t ∧ t.opts = s.a.opts ∧ t.v = s.a.v ∧
      t.ap = s.a.ap ∧ t.size = s.a.size ∧ s.a.opts.prepareSolver.solmethod = some "solve" ∧
      s.a.opts.mfreeq = false ∧ s.a.opts.symq = true ∧ (0 ≤ s.a.opts.normRow ∧ s.a.opts.normRow < s.a.size s.a.v) ∧
      s.a.ap = Kind.pauli.ap num E L := by
  obtain ⟨d, -, h, -, h2, -⟩ := view_example
  let f := CState.fresh ⟨false, false, 0, none, none⟩ (d.view 2) (Kind.pauli.ap num E L')
    Kind.pauli.size Kind.pauli.useKh
  let s := [COp.symq true, .states (d.view 2), .kernCopy true, .normRow 2,
    .params (Kind.pauli.ap num E L)].foldl CState.op f
  refine ⟨d, s, AState.fresh s.a.opts s.a.v s.a.ap s.a.size s.a.useKh, h,
    ⟨_, _, _, _, rfl⟩, ⟨_, _, _, [], by simp, rfl⟩, rfl, rfl, rfl, rfl, rfl, rfl, rfl, ?_, rfl⟩
  refine ⟨by show (0 : Int) ≤ 2; decide, ?_⟩
  show (2 : Int) < (d.npauli : Int)
  omega

/-- The hypotheses of `c101_free_partial`, and, with `norm_row` set to `-1`, those of
`c101_norm_row_free_false`, are met by a compiled object after a first `solve`. -/
example (num : NumLib) (E : Nat → ℝ) (L : Leads) (l : Lapack) :
    ∃ s : CState, CReached Kind.redfield.size Kind.redfield.useKh s ∧ s.a.isPrepared = true ∧
      s.a.changed = false ∧ s.a.opts.mfreeq = true ∧
      (0 ≤ s.a.opts.normRow ∧ s.a.opts.normRow < s.a.size s.a.v) ∧
      (∃ t, Reached Kind.redfield.size Kind.redfield.useKh t ∧ t.opts = s.a.opts ∧
        t.v = s.a.v ∧ t.ap = s.a.ap ∧ t.size = s.a.size ∧ t.useKh = s.a.useKh) ∧
      let s' := s.op (.normRow (-1))
      CReached Kind.redfield.size Kind.redfield.useKh s' ∧ s'.a.isPrepared = true ∧
        s'.a.changed = false ∧ s'.a.opts.mfreeq = true ∧ s'.a.opts.normRow < 0 ∧
        0 ≤ s'.a.opts.normRow + s'.a.size s'.a.v := by
  obtain ⟨d, -, h, -, h2, -⟩ := view_example
  let f := CState.fresh ⟨true, true, 2, none, none⟩ (d.view 2) (Kind.redfield.ap num E L)
    Kind.redfield.size Kind.redfield.useKh
  have hf : CReached Kind.redfield.size Kind.redfield.useKh f := ⟨_, _, _, [], rfl⟩
  obtain ⟨t, ht, P, R⟩ := prepareC_ok hf.inv (fun h => by
    have h' : (true : Bool) = false := h
    simp at h')
  obtain ⟨p, hp, -⟩ := R.a.phi0
  have hsz : (2 : Int) < (Kind.redfield.size (d.view 2) : Int) := by
    have := (Kind.works h .redfield num E L).np_le
    have e : (d.view 2).npauli = d.npauli := rfl
    omega
  have hs : (f.solve l ⟨[], none⟩ false).1 = { t with a := { t.a with
      phi0 := some (Vec.zeros p.size), success := some false } } := by
    unfold CState.solve
    have h1 : stepC CState.prepare (f, none) = (t, none) := by simp only [stepC]; rw [ht]
    have hm : f.a.opts.mfreeq = true := rfl
    rw [h1, hm]
    simp only [Bool.false_eq_true, if_false, if_true, stepC]
    unfold CState.solveFree
    rw [hp]
    rfl
  have ho : t.a.opts = f.a.opts.prepareSolver := P.opts
  obtain ⟨o1, o2, o3, o4⟩ := prepareSolver_fields f.a.opts
  have hn : t.a.opts.normRow = 2 := by rw [ho, o3]; rfl
  have hmf : t.a.opts.mfreeq = true := by rw [ho, o2]; rfl
  have hz : t.a.size t.a.v = Kind.redfield.size (d.view 2) := by rw [P.size, P.v]; rfl
  refine ⟨(f.solve l ⟨[], none⟩ false).1, ⟨_, _, _, [.solve l ⟨[], none⟩ false], rfl⟩, ?_⟩
  have hC : CReached Kind.redfield.size Kind.redfield.useKh
      ((f.solve l ⟨[], none⟩ false).1.op (.normRow (-1))) :=
    ⟨_, _, _, [.solve l ⟨[], none⟩ false, .normRow (-1)], rfl⟩
  rw [hs] at hC ⊢
  refine ⟨P.isPrepared, P.changed, hmf, ⟨?_, ?_⟩,
    ⟨AState.fresh t.a.opts t.a.v t.a.ap t.a.size t.a.useKh, ?_, rfl, rfl, rfl, rfl, rfl⟩,
    hC, P.isPrepared, P.changed, hmf, ?_, ?_⟩
  · show 0 ≤ t.a.opts.normRow
    rw [hn]; decide
  · show t.a.opts.normRow < ((t.a.size t.a.v : Nat) : Int)
    rw [hn, hz]; exact hsz
  · have e1 : t.a.size = Kind.redfield.size := P.size
    have e2 : t.a.useKh = Kind.redfield.useKh := P.useKh
    rw [e1, e2]
    exact ⟨_, _, _, [], by simp, rfl⟩
  · show (-1 : Int) < 0
    decide
  · show (0 : Int) ≤ -1 + ((t.a.size t.a.v : Nat) : Int)
    rw [hz]; omega

/-- The hypotheses of `c101_solmethod` are met after a first `solve`, for every system. -/
example {v : View} {la : Lab} (h : VOk v la) (kd : Kind) (num : NumLib) (E : Nat → ℝ) (L : Leads)
    (l : Lapack) (run : RootRun) :
    ∃ s : CState, CReached kd.size kd.useKh s ∧ s.a.isPrepared = true ∧ s.a.changed = false := by
  let f := CState.fresh ⟨true, false, 0, none, none⟩ v (kd.ap num E L) kd.size kd.useKh
  have hf : CReached kd.size kd.useKh f := ⟨_, _, _, [], rfl⟩
  obtain ⟨nv, gn, -, -⟩ := genNormVec_ok h (kd.size v) (Kind.works h kd num E L).np_le
  obtain ⟨t, ht, P, -⟩ := prepareC_ok hf.inv (fun _ => ⟨nv, gn⟩)
  have key : ∀ (g : CState → Py CState) (r : CState × Option PyErr),
      (∀ x y, g x = .ok y → y.a.isPrepared = x.a.isPrepared ∧ y.a.changed = x.a.changed) →
      (stepC g r).1.a.isPrepared = r.1.a.isPrepared ∧ (stepC g r).1.a.changed = r.1.a.changed := by
    intro g r hg
    unfold stepC
    cases r.2 with
    | some e => exact ⟨rfl, rfl⟩
    | none =>
      simp only
      cases hx : g r.1 with
      | error e => exact ⟨rfl, rfl⟩
      | ok y => exact hg _ _ hx
  refine ⟨(f.solve l run false).1, ⟨_, _, _, [.solve l run false], rfl⟩, ?_⟩
  unfold CState.solve
  have h1 : stepC CState.prepare (f, none) = (t, none) := by simp only [stepC]; rw [ht]
  have hm : f.a.opts.mfreeq = false := rfl
  rw [h1, hm]
  simp only [Bool.false_eq_true, if_false]
  have k2 := key (fun s => s.solveKern l) (stepC (CState.lift AState.generate) (t, none)) (by
    intro x y hxy
    unfold CState.solveKern at hxy
    obtain ⟨_, -, hxy⟩ := bind_ok hxy
    obtain ⟨_, -, hxy⟩ := bind_ok hxy
    obtain ⟨_, -, hxy⟩ := bind_ok hxy
    obtain ⟨_, -, hxy⟩ := bind_ok hxy
    obtain ⟨_, -, hxy⟩ := bind_ok hxy
    obtain ⟨_, -, hxy⟩ := bind_ok hxy
    obtain ⟨_, -, hxy⟩ := bind_ok hxy
    split at hxy
    · simp at hxy
    · rw [← pure_ok hxy]
      exact ⟨rfl, rfl⟩)
  have k1 := key (CState.lift AState.generate) (t, none) (by
    intro x y hxy
    obtain ⟨a, ha, hxy⟩ := bind_ok hxy
    rw [← pure_ok hxy]
    unfold AState.generate at ha
    obtain ⟨_, -, ha⟩ := bind_ok ha
    obtain ⟨_, -, ha⟩ := bind_ok ha
    split at ha
    · obtain ⟨_, -, ha⟩ := bind_ok ha
      obtain ⟨_, -, ha⟩ := bind_ok ha
      obtain ⟨_, -, ha⟩ := bind_ok ha
      rw [← pure_ok ha]; exact ⟨rfl, rfl⟩
    · obtain ⟨_, -, ha⟩ := bind_ok ha
      obtain ⟨_, -, ha⟩ := bind_ok ha
      rw [← pure_ok ha]; exact ⟨rfl, rfl⟩)
  exact ⟨k2.1.trans (k1.1.trans P.isPrepared), k2.2.trans (k1.2.trans P.changed)⟩

end CSolve

end

end Verif
