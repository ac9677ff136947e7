import Verif.Model.CompiledSolve
import Verif.Lemmas.Solve

/-! Invariant of the life cycle of a compiled approach object, used by C101. -/

namespace Verif

noncomputable section

namespace CSolve

/-- The C attributes fit the Python ones. -/
structure CReady (s : CState) : Prop where
  a : Ready s.a
  symq : s.symq = s.a.opts.symq
  row : s.row = s.a.opts.normRow
  solver : s.a.opts.mfreeq = false → ∃ sv, s.solver = some sv ∧ sv.gen = s.gen ∧
    sv.lsq = (s.a.opts.solmethod == some "lsqr")

/-- The invariant. -/
structure CInv (s : CState) : Prop where
  ready : s.a.isPrepared = true → s.a.changed = false → CReady s

theorem CInv.linv {s : CState} (h : CInv s) : LInv s.a := fun h1 h2 => (h.ready h1 h2).a

theorem newSolver_free {s : CState} (hm : s.a.opts.mfreeq = true) : s.newSolver = .ok s := by
  unfold CState.newSolver
  rw [if_pos hm]
  rfl

theorem newSolver_some {s : CState} (hm : s.a.opts.mfreeq = false) {k : Mat} {b : Vec}
    (hk : s.a.kern = some k)
    (hb : s.a.bvec = some b) : s.newSolver =
      .ok { s with solver := some ⟨s.a.opts.solmethod == some "lsqr", s.copyq, s.gen⟩ } := by
  unfold CState.newSolver
  rw [if_neg (by simp [hm]), hk, hb]
  rfl

theorem newSolver_a {s t : CState} (h : s.newSolver = .ok t) : t.a = s.a := by
  unfold CState.newSolver at h
  split at h
  · rw [← pure_ok h]
  · obtain ⟨_, -, h⟩ := bind_ok h
    obtain ⟨_, -, h⟩ := bind_ok h
    rw [← pure_ok h]

/-- `prepare_kern` succeeds where the Python one does. -/
theorem prepareC_ok {s : CState} (hi : CInv s)
    (hn : s.a.opts.mfreeq = false →
      ∃ nv, s.a.v.genNormVec (Vec.zeros (s.a.size s.a.v)) = .ok nv) :
    ∃ t, s.prepare = .ok t ∧ Prep s.a t.a ∧ CReady t := by
  obtain ⟨t, ht, P⟩ := prepare_ok hi.linv hn
  by_cases hp : (s.a.isPrepared && !s.a.changed) = true
  · have r := hi.ready (by simp_all) (by simp_all)
    unfold AState.prepare at ht
    rw [if_pos hp] at ht
    obtain ⟨p, hp0, hps⟩ := P.ready.phi0
    refine ⟨{ s with a := { t with phi0 := some (Vec.zeros p.size) } }, ?_, ?_, ?_⟩
    · unfold CState.prepare
      rw [if_pos hp]
      unfold CState.clean
      rw [ht]
      simp only [py_bind_ok, hp0, attr, py_pure]
    · exact ⟨P.opts, P.v, P.ap, P.size, P.useKh, P.isPrepared, P.changed, P.sol0,
        ⟨P.ready.opts, P.ready.handler, ⟨_, rfl, hps⟩, P.ready.cur, P.ready.dphi, P.ready.kern,
          P.ready.bvec, P.ready.nv⟩, P.cur, P.kern, P.bvec⟩
    · have ho : t.opts = s.a.opts := by rw [P.opts, r.a.opts]
      refine ⟨⟨P.ready.opts, P.ready.handler, ⟨_, rfl, hps⟩, P.ready.cur, P.ready.dphi,
        P.ready.kern, P.ready.bvec, P.ready.nv⟩, ?_, ?_, ?_⟩
      · show s.symq = t.opts.symq
        rw [ho]; exact r.symq
      · show s.row = t.opts.normRow
        rw [ho]; exact r.row
      · intro hm
        obtain ⟨sv, h1, h2, h3⟩ := r.solver (by rw [← ho]; exact hm)
        refine ⟨sv, h1, h2, ?_⟩
        show _ = (t.opts.solmethod == some "lsqr")
        rw [ho]; exact h3
  · unfold AState.prepare at ht
    rw [if_neg hp] at ht
    obtain ⟨a, ha, hb⟩ := bind_ok ht
    have hb := pure_ok hb
    subst hb
    by_cases hm : a.opts.prepareSolver.mfreeq = true
    · refine ⟨⟨{ a with opts := a.opts.prepareSolver, changed := false, isPrepared := true },
        a.opts.prepareSolver.symq, a.opts.prepareSolver.normRow, s.copyq, s.solver, s.gen + 1⟩,
        ?_, P, ?_⟩
      · unfold CState.prepare
        rw [if_neg hp, ha]
        simp only [py_bind_ok]
        rw [newSolver_free hm]
        rfl
      · exact ⟨P.ready, rfl, rfl, fun h => absurd hm (by
          have h : a.opts.prepareSolver.mfreeq = false := h
          simp [h])⟩
    have hm : a.opts.prepareSolver.mfreeq = false := by simpa using hm
    obtain ⟨k, hk, -⟩ := P.ready.kern hm
    obtain ⟨b, hbv, -⟩ := P.ready.bvec hm
    refine ⟨⟨{ a with opts := a.opts.prepareSolver, changed := false, isPrepared := true },
      a.opts.prepareSolver.symq, a.opts.prepareSolver.normRow, s.copyq,
      some ⟨a.opts.prepareSolver.solmethod == some "lsqr", s.copyq, s.gen + 1⟩, s.gen + 1⟩, ?_, P, ?_⟩
    · unfold CState.prepare
      rw [if_neg hp, ha]
      simp only [py_bind_ok]
      rw [newSolver_some (k := k) (b := b) hm hk hbv]
      rfl
    · exact ⟨P.ready, rfl, rfl, fun _ => ⟨_, rfl, rfl, rfl⟩⟩

theorem prepareC_error {s : CState} (hi : CInv s) (hm : s.a.opts.mfreeq = false) {e : PyErr}
    (hn : s.a.v.genNormVec (Vec.zeros (s.a.size s.a.v)) = .error e) : s.prepare = .error e := by
  have h := prepare_error hi.linv hm hn
  unfold AState.prepare at h
  unfold CState.prepare
  by_cases hp : (s.a.isPrepared && !s.a.changed) = true
  · rw [if_pos hp] at h ⊢
    unfold CState.clean
    rw [h]; rfl
  · rw [if_neg hp] at h ⊢
    cases ha : s.a.prepareArrays with
    | error e' =>
      rw [ha] at h
      have h : (Except.error e' : Py AState) = .error e := h
      simp only [Except.error.injEq] at h
      rw [h]; rfl
    | ok a =>
      rw [ha] at h
      simp [py_bind_ok, py_pure] at h

/-- The C attributes do not depend on the arrays. -/
theorem CReady.with {s : CState} (r : CReady s) {a : AState} (ha : Ready a)
    (ho : a.opts = s.a.opts) : CReady { s with a := a } := by
  refine ⟨ha, ?_, ?_, ?_⟩
  · show s.symq = a.opts.symq
    rw [ho]; exact r.symq
  · show s.row = a.opts.normRow
    rw [ho]; exact r.row
  · intro hm
    obtain ⟨sv, h1, h2, h3⟩ := r.solver (by rw [← ho]; exact hm)
    refine ⟨sv, h1, h2, ?_⟩
    show _ = (a.opts.solmethod == some "lsqr")
    rw [ho]; exact h3

theorem stepC_lift (f : AState → Py AState) (s : CState) (e : Option PyErr) :
    stepC (CState.lift f) (s, e) =
      ({ s with a := (stepS f (s.a, e)).1 }, (stepS f (s.a, e)).2) := by
  cases e with
  | some e => rfl
  | none =>
    simp only [stepC, stepS, CState.lift]
    cases f s.a <;> rfl

/-- The equations in the compiled order of indices. -/
theorem sysC_shape {k : Mat} {b nv : Vec} {pos : Int} {kb : Mat × Vec}
    (h : sysC k b nv pos = .ok kb) :
    kb.1.rows = k.rows ∧ kb.1.cols = k.cols ∧ kb.2.size = b.size := by
  unfold sysC at h
  obtain ⟨r, -, h⟩ := bind_ok h
  split at h
  · obtain ⟨j, -, h⟩ := bind_ok h
    rw [← pure_ok h]
    exact ⟨rfl, rfl, rfl⟩
  · simp at h

theorem run_shape {sv : Solver} {l : Lapack} {gen : Nat} {K : Mat} {b : Vec}
    {w : Mat × Vec × Int} (h : sv.run l gen K b = .ok w) :
    w.1.rows = K.rows ∧ w.1.cols = K.cols ∧ w.2.1.size = b.size := by
  unfold Solver.run at h
  split at h
  · simp at h
  · split at h
    · rw [← pure_ok h]
      refine ⟨?_, ?_, rfl⟩ <;> simp only <;> split <;> rfl
    · split at h
      · simp at h
      · rw [← pure_ok h]
        refine ⟨?_, ?_, rfl⟩ <;> simp only <;> split <;> rfl

theorem solveKernC_keep {s t : CState} (r : CReady s) {l : Lapack} (h : s.solveKern l = .ok t) :
    CReady t ∧ t.a.opts = s.a.opts := by
  unfold CState.solveKern at h
  obtain ⟨k, hk, h⟩ := bind_ok h
  obtain ⟨b, hb, h⟩ := bind_ok h
  obtain ⟨nv, hnv, h⟩ := bind_ok h
  obtain ⟨kb, hkb, h⟩ := bind_ok h
  obtain ⟨sv, hsv, h⟩ := bind_ok h
  obtain ⟨w, hw, h⟩ := bind_ok h
  obtain ⟨p, hp, h⟩ := bind_ok h
  have at_some : ∀ {α : Type} {o : Option α} {x : α}, attr o = .ok x → o = some x := by
    intro α o x h
    cases o with
    | none => simp [attr] at h
    | some y => rw [pure_ok h]
  split at h
  · simp at h
  · rw [← pure_ok h]
    obtain ⟨s1, s2, s3⟩ := sysC_shape hkb
    obtain ⟨w1, w2, w3⟩ := run_shape hw
    refine ⟨r.with ?_ rfl, rfl⟩
    refine ⟨r.a.opts, r.a.handler, ?_, r.a.cur, r.a.dphi, ?_, ?_, r.a.nv⟩
    · obtain ⟨p', e1, e2⟩ := r.a.phi0
      rw [at_some hp] at e1
      simp only [Option.some.injEq] at e1
      subst e1
      refine ⟨_, rfl, ?_⟩
      split <;> exact e2
    · intro hm
      obtain ⟨k', e1, e2, e3⟩ := r.a.kern hm
      rw [at_some hk] at e1
      simp only [Option.some.injEq] at e1
      subst e1
      exact ⟨_, rfl, (w1.trans s1).trans e2, (w2.trans s2).trans e3⟩
    · intro hm
      obtain ⟨b', e1, e2⟩ := r.a.bvec hm
      rw [at_some hb] at e1
      simp only [Option.some.injEq] at e1
      subst e1
      exact ⟨_, rfl, (w3.trans s3).trans e2⟩

theorem genCurrent_opts {s t : AState} (h : s.genCurrent = .ok t) : t.opts = s.opts := by
  unfold AState.genCurrent at h
  obtain ⟨_, -, h⟩ := bind_ok h
  obtain ⟨_, -, h⟩ := bind_ok h
  obtain ⟨_, -, h⟩ := bind_ok h
  obtain ⟨_, -, h⟩ := bind_ok h
  rw [← pure_ok h]

/-- A step that keeps ready objects ready. -/
theorem stepC_keep {f : CState → Py CState} (m : CState → Prop)
    (hf : ∀ s s', CReady s → m s → f s = .ok s' → CReady s' ∧ m s') (s : CState)
    (r : CReady s) (hm : m s) (e : Option PyErr) :
    CReady (stepC f (s, e)).1 ∧ m (stepC f (s, e)).1 := by
  cases e with
  | some e => exact ⟨r, hm⟩
  | none =>
    simp only [stepC]
    cases h : f s with
    | error e => exact ⟨r, hm⟩
    | ok s' => exact hf s s' r hm h

theorem genVecC_eq {s : CState} (r : CReady s) (hm : s.a.opts.mfreeq = true) (phi : Vec) :
    s.genVec phi = (do
      let _ ← cIdx (s.a.size s.a.v) s.row
      let y ← s.a.genVec phi
      pure { s with a := y.1 }) := by
  obtain ⟨h, h1, h2, -⟩ := r.a.handler
  obtain ⟨d, d1, d2⟩ := r.a.dphi hm
  have hf : h.free = true := by rw [h2, hm]
  unfold CState.genVec AState.genVec
  rw [h1, d1]
  simp only [attr, py_pure, py_bind_ok, hf, Bool.not_true, Bool.false_eq_true, if_false]
  rw [d2, ← r.row]
  cases cIdx (s.a.size s.a.v) s.row with
  | error e => rfl
  | ok i =>
    simp only [py_bind_ok]
    cases (h.view s.a.v).genVec (s.a.size s.a.v) s.row (s.a.ap.calls s.a.v) phi <;> rfl

theorem runTrialsC_keep (ts : List Vec) {s : CState} (r : CReady s)
    (hm : s.a.opts.mfreeq = true) :
    CReady (s.runTrials ts).1 ∧ (s.runTrials ts).1.a.opts = s.a.opts ∧
      (s.runTrials ts).1.a.size = s.a.size ∧ (s.runTrials ts).1.a.v = s.a.v := by
  induction ts generalizing s with
  | nil => exact ⟨r, rfl, rfl, rfl⟩
  | cons t ts ih =>
    have T := setTrial_tried r.a hm t
    have bad : CReady { s with a := s.a.setTrial t } ∧ (s.a.setTrial t).opts = s.a.opts ∧
        (s.a.setTrial t).size = s.a.size ∧ (s.a.setTrial t).v = s.a.v :=
      ⟨r.with T.ready T.opts, T.opts, T.size, T.v⟩
    unfold CState.runTrials
    rw [genVecC_eq r hm]
    cases cIdx (s.a.size s.a.v) s.row with
    | error e => exact bad
    | ok i =>
      simp only [py_bind_ok]
      obtain ⟨g1, g2⟩ := genVec_ready r.a hm t
      cases hx : s.a.v.genVec (s.a.size s.a.v) s.a.opts.normRow (s.a.ap.calls s.a.v) t with
      | error e =>
        rw [g2 e hx]
        exact bad
      | ok x =>
        obtain ⟨h, h1, h2, h3⟩ := g1 x hx
        rw [h2]
        simp only [py_bind_ok, py_pure]
        exact ih (r.with h3 rfl) hm

theorem solveFreeC_keep {s t : CState} (r : CReady s) (hm : s.a.opts.mfreeq = true)
    {run : RootRun} (h : s.solveFree run = .ok t) : CReady t ∧ t.a.opts = s.a.opts := by
  obtain ⟨R, ho, hz, hv⟩ := runTrialsC_keep run.trials r hm
  obtain ⟨p, hp, hps⟩ := r.a.phi0
  have mk : ∀ (x : Vec) (sol : Option Vec) (ok : Bool), x.size = p.size →
      CReady { (s.runTrials run.trials).1 with a := { (s.runTrials run.trials).1.a with
        sol0 := sol, phi0 := some x, success := some ok } } := fun x sol ok hx =>
    R.with ⟨R.a.opts, R.a.handler, ⟨x, rfl, by
      show x.size = (s.runTrials run.trials).1.a.size (s.runTrials run.trials).1.a.v
      rw [hx, hps, hz, hv]⟩, R.a.cur, R.a.dphi, R.a.kern, R.a.bvec, R.a.nv⟩ rfl
  unfold CState.solveFree at h
  rw [hp] at h
  simp only [attr, py_pure, py_bind_ok] at h
  split at h
  · rw [← pure_ok h]
    exact ⟨mk _ _ _ rfl, ho⟩
  · split at h
    · rename_i hx
      rw [← pure_ok h]
      exact ⟨mk _ _ _ hx, ho⟩
    · rw [← pure_ok h]
      exact ⟨mk _ _ _ rfl, ho⟩

theorem solveC_inv {s : CState} (hi : CInv s) (l : Lapack) (run : RootRun) (c : Bool) :
    CInv (s.solve l run c).1 := by
  have fin : ∀ x : CState, CReady x → CInv x := fun x h => ⟨fun _ _ => h⟩
  have cur : ∀ (m : CState → Prop) (x : CState) (e : Option PyErr), CReady x →
      CInv (if c then stepC (CState.lift AState.genCurrent) (x, e) else (x, e)).1 := by
    intro m x e R
    cases c with
    | false => exact fin _ R
    | true =>
      exact fin _ (stepC_keep (f := CState.lift AState.genCurrent) (fun _ => True) (by
        intro s s' r hm h
        obtain ⟨a, ha, h⟩ := bind_ok h
        rw [← pure_ok h]
        exact ⟨r.with (genCurrent_keep r.a ha) (genCurrent_opts ha), trivial⟩) _ R trivial _).1
  unfold CState.solve
  cases hmf : s.a.opts.mfreeq with
  | true =>
    obtain ⟨t, ht, P, R⟩ := prepareC_ok hi (fun h => by rw [hmf] at h; simp at h)
    have hm : t.a.opts.mfreeq = true := by
      rw [P.opts]; exact (prepareSolver_fields _).2.1.trans hmf
    rw [show stepC CState.prepare (s, none) = (t, none) by simp only [stepC]; rw [ht]]
    simp only [if_true]
    exact cur (fun _ => True) _ _ (stepC_keep (f := fun s => s.solveFree run)
      (fun s => s.a.opts.mfreeq = true) (by
        intro s s' r hm h
        obtain ⟨h1, h2⟩ := solveFreeC_keep r hm h
        exact ⟨h1, by rw [h2]; exact hm⟩) t R hm none).1
  | false =>
    simp only [Bool.false_eq_true, if_false]
    let m : CState → Prop := fun s => s.a.opts.mfreeq = false
    cases hn : s.a.v.genNormVec (Vec.zeros (s.a.size s.a.v)) with
    | error e =>
      have : stepC CState.prepare (s, none) = (s, some e) := by
        simp only [stepC]; rw [prepareC_error hi hmf hn]
      rw [this]
      cases c <;> exact hi
    | ok nv =>
      obtain ⟨t, ht, P, R⟩ := prepareC_ok hi (fun _ => ⟨nv, hn⟩)
      have hm : m t := by
        show t.a.opts.mfreeq = false
        rw [P.opts]; exact (prepareSolver_fields _).2.1.trans hmf
      have : stepC CState.prepare (s, none) = (t, none) := by
        simp only [stepC]; rw [ht]
      rw [this]
      have h1 := stepC_keep (f := CState.lift AState.generate) m (by
        intro s s' r hm h
        obtain ⟨a, ha, h⟩ := bind_ok h
        rw [← pure_ok h]
        have ho := generate_opts ha
        exact ⟨r.with (generate_keep r.a hm ha) ho,
          by show a.opts.mfreeq = false; rw [ho]; exact hm⟩)
        t R hm none
      have h2 := stepC_keep (f := fun s => s.solveKern l) m (by
        intro s s' r hm h
        obtain ⟨h1, h2⟩ := solveKernC_keep r h
        exact ⟨h1, by show s'.a.opts.mfreeq = false; rw [h2]; exact hm⟩) _ h1.1 h1.2
        (stepC (CState.lift AState.generate) (t, none)).2
      exact cur m _ _ h2.1

theorem opC_inv {s : CState} (hi : CInv s) (o : COp) : CInv (s.op o) := by
  have L := hi.linv
  cases o with
  | symq b =>
    refine ⟨?_⟩
    intro h1 h2
    by_cases hb : b = s.a.opts.symq
    · have e : s.a.op (.symq b) = s.a := by simp only [AState.op]; rw [if_pos hb]
      simp only [CState.op, e] at h1 h2 ⊢
      have r := hi.ready h1 h2
      exact ⟨r.a, hb, r.row, r.solver⟩
    · simp only [CState.op, AState.op, if_neg hb] at h1
      simp at h1
  | normRow i =>
    refine ⟨fun h1 h2 => ?_⟩
    have r := hi.ready h1 h2
    exact ⟨op_inv L (.normRow i) rfl h1 h2, r.symq, rfl, r.solver⟩
  | solmethod m =>
    obtain ⟨e1, e2, e3, -⟩ := prepareSolver_fields { s.a.opts with solmethod := m }
    have hs : (s.op (.solmethod m)).a = s.a.op (.solmethod m) := by
      simp only [CState.op, CState.setSolmethod, stepC]
      split
      · rename_i t ht
        exact newSolver_a ht
      · rfl
    refine ⟨?_⟩
    rw [hs]
    intro h1 h2
    have r := hi.ready h1 h2
    by_cases hmf : s.a.opts.mfreeq = true
    · have key : ∀ x : CState, x.a.opts.mfreeq = true →
          stepC CState.newSolver (x, none) = (x, none) := by
        intro x h
        simp only [stepC]
        rw [newSolver_free h]
      have : s.op (.solmethod m) = { s with a := s.a.op (.solmethod m) } := by
        show (stepC CState.newSolver (_, none)).1 = _
        exact congrArg Prod.fst (key _ (e2.trans hmf))
      rw [this]
      refine ⟨op_inv L (.solmethod m) rfl h1 h2, r.symq.trans e1.symm, r.row.trans e3.symm,
        fun h => absurd (e2.trans hmf) ?_⟩
      have h : (Opts.prepareSolver { s.a.opts with solmethod := m }).mfreeq = false := h
      simp [h]
    have hmf : s.a.opts.mfreeq = false := by simpa using hmf
    obtain ⟨k, hk, -⟩ := r.a.kern hmf
    obtain ⟨b, hb, -⟩ := r.a.bvec hmf
    have : s.op (.solmethod m) = { s with
        a := s.a.op (.solmethod m)
        solver := some ⟨(s.a.op (.solmethod m)).opts.solmethod == some "lsqr", s.copyq, s.gen⟩ } := by
      have key : ∀ x : CState, x.a.opts.mfreeq = false → x.a.kern = some k →
          x.a.bvec = some b → stepC CState.newSolver (x, none) = ({ x with
            solver := some ⟨x.a.opts.solmethod == some "lsqr", x.copyq, x.gen⟩ }, none) := by
        intro x h0 h1 h2
        simp only [stepC]
        rw [newSolver_some h0 h1 h2]
      show (stepC CState.newSolver (_, none)).1 = _
      refine congrArg Prod.fst (key _ (e2.trans hmf) ?_ ?_)
      · exact hk
      · exact hb
    rw [this]
    exact ⟨op_inv L (.solmethod m) rfl h1 h2, r.symq.trans e1.symm, r.row.trans e3.symm,
      fun _ => ⟨_, rfl, rfl, rfl⟩⟩
  | kernCopy b =>
    refine ⟨fun h1 h2 => ?_⟩
    have r := hi.ready h1 h2
    exact ⟨r.a, r.symq, r.row, r.solver⟩
  | params ap =>
    refine ⟨fun h1 h2 => ?_⟩
    have r := hi.ready h1 h2
    exact ⟨op_inv L (.params ap) rfl h1 h2, r.symq, r.row, r.solver⟩
  | states v =>
    refine ⟨fun _ h2 => ?_⟩
    simp [CState.op, AState.op] at h2
  | solve l run c => exact solveC_inv hi l run c

theorem CReached.inv {size : View → Nat} {k : Bool} {s : CState} (h : CReached size k s) :
    CInv s := by
  obtain ⟨o, v, ap, ops, rfl⟩ := h
  have : ∀ (ops : List COp) (s : CState), CInv s → CInv (ops.foldl CState.op s) := by
    intro ops
    induction ops with
    | nil => exact fun _ h => h
    | cons o os ih => exact fun s h => ih _ (opC_inv h o)
  exact this ops _ ⟨fun h => by simp [CState.fresh, AState.fresh] at h⟩

/-! ### One call of `solve` -/

theorem sysC_eq {k : Mat} {b nv : Vec} {pos pos' : Int}
    (h : cIdx k.rows pos' = pyIdx k.rows pos) (hb : b.size = k.rows) :
    sysC k b nv pos' = sys k b nv pos := by
  unfold sysC sys Mat.setRow Vec.put
  rw [hb, h]
  cases pyIdx k.rows pos with
  | error e => rfl
  | ok r =>
    simp only [py_bind_ok]
    by_cases hs : nv.size = k.cols
    · simp only [hs, if_true, py_bind_ok, py_pure]
    · simp only [hs, if_false]
      rfl

/-- The two positions of the normalisation condition. -/
theorem pos_eq {n rows : Nat} {symq : Bool} {i : Int} (hr : rows = if symq then n else n + 1)
    (hi : symq = true → 0 ≤ i ∧ i < n) :
    cIdx rows (if symq then i else (rows : Int) - 1) = pyIdx rows (if symq then i else -1) := by
  unfold cIdx pyIdx
  cases symq with
  | true =>
    obtain ⟨h1, h2⟩ := hi rfl
    simp only [if_true] at hr ⊢
    subst hr
    simp [h1, h2]
  | false =>
    simp only [Bool.false_eq_true, if_false] at hr ⊢
    subst hr
    simp only [Nat.cast_add, Nat.cast_one]
    rw [if_pos ⟨by omega, by omega⟩, if_neg (by omega), if_pos (by omega)]
    congr 1

/-- The solver is the one `solmethod` selects, and it fits the shape. -/
theorem run_eq {s : CState} (r : CReady s) (hm : s.a.opts.mfreeq = false)
    (hs : s.a.opts.solmethod = some "solve" ∨ s.a.opts.solmethod = some "lsqr") (l : Lapack)
    {K : Mat} {b : Vec} (hr : K.rows = s.a.rows) (hc : K.cols = s.a.size s.a.v)
    (hb : b.size = K.rows) :
    ∃ sv w, s.solver = some sv ∧ sv.run l s.gen K b = .ok w ∧ K.cols ≤ w.2.1.size ∧
      (if w.2.2 = 0 then some (⟨K.cols, w.2.1.val⟩ : Vec) else none)
        = Ref.answer s.a.opts l.lib K b := by
  obtain ⟨sv, h1, h2, h3⟩ := r.solver hm
  have hle : K.cols ≤ K.rows := by
    rw [hr, hc]; unfold AState.rows; split <;> omega
  unfold Solver.run
  rcases hs with hs | hs
  · have hl : sv.lsq = false := by rw [h3, hs]; rfl
    have hq : s.a.opts.symq = true := by
      by_contra hq
      have hq : s.a.opts.symq = false := by simpa using hq
      have h := congrArg Opts.solmethod r.a.opts
      unfold Opts.prepareSolver at h
      rw [hm, hq, hs] at h
      simp at h
    have hsq : K.rows = K.cols := by
      rw [hr, hc]; unfold AState.rows; rw [hq]; rfl
    refine ⟨sv, (if sv.copyq then K else ⟨K.rows, K.cols, (l.gesv K b).a⟩,
        ⟨b.size, (l.gesv K b).b⟩, (l.gesv K b).info), h1, ?_, ?_, ?_⟩
    · rw [if_neg (by simp [h2]), hl, if_neg (by simp), if_neg (by simp [hsq])]
      rfl
    · exact hle.trans hb.ge
    · unfold Ref.answer
      rw [if_pos hs]
      rfl
  · have hl : sv.lsq = true := by rw [h3, hs]; rfl
    refine ⟨sv, (if sv.copyq then K else ⟨K.rows, K.cols, (l.gelsd K b).a⟩,
        ⟨b.size, (l.gelsd K b).b⟩, (l.gelsd K b).info), h1, ?_, ?_, ?_⟩
    · rw [if_neg (by simp [h2]), hl, if_pos rfl]
      rfl
    · exact hle.trans hb.ge
    · unfold Ref.answer
      have h : ¬ s.a.opts.solmethod = some "solve" := by rw [hs]; simp
      rw [if_neg h]
      rfl

theorem solveKernC_eq {s : CState} {k : Mat} {b nv p : Vec} {sv : Solver} {kb : Mat × Vec}
    {w : Mat × Vec × Int} {l : Lapack} (hk : s.a.kern = some k) (hb : s.a.bvec = some b)
    (hn : s.a.normVec = some nv) (hp : s.a.phi0 = some p)
    (hy : sysC k b nv (if s.symq then s.row else (k.rows : Int) - 1) = .ok kb)
    (hv : s.solver = some sv) (hw : sv.run l s.gen kb.1 kb.2 = .ok w)
    (hsz : p.size ≤ w.2.1.size) :
    s.solveKern l = .ok { s with a := { s.a with
      kern := some w.1
      bvec := some w.2.1
      phi0 := some (if decide (w.2.2 = 0) then ⟨p.size, w.2.1.val⟩ else Vec.zeros p.size)
      success := some (decide (w.2.2 = 0)) } } := by
  unfold CState.solveKern
  rw [hk, hb, hn, hp, hv]
  simp only [attr, py_pure, py_bind_ok]
  rw [hy]
  simp only [py_bind_ok]
  rw [hw]
  simp only [py_bind_ok]
  rw [if_neg (by omega)]

/-- `solve` of a compiled object is the reference computation, whatever happened before. -/
theorem csolve_matrix {s : CState} (hi : CInv s) (hm : s.a.opts.mfreeq = false)
    (hs : s.a.opts.prepareSolver.solmethod = some "solve" ∨
      s.a.opts.prepareSolver.solmethod = some "lsqr")
    (hr : s.a.opts.symq = true →
      0 ≤ s.a.opts.normRow ∧ s.a.opts.normRow < s.a.size s.a.v) (l : Lapack) (run : RootRun)
    (c : Bool) :
    match Ref.solve s.a.opts.prepareSolver s.a.v s.a.ap (s.a.size s.a.v) l.lib c with
    | .ok r => (s.solve l run c).2 = none ∧ (s.solve l run c).1.a.phi0 = some r.phi0 ∧
        (s.solve l run c).1.a.success = some r.success ∧ (s.solve l run c).1.a.cur = some r.cur
    | .error x => (s.solve l run c).2 = some x := by
  obtain ⟨o1, o2, o3, o4⟩ := prepareSolver_fields s.a.opts
  unfold CState.solve Ref.solve
  simp only [hm, Bool.false_eq_true, if_false]
  have herr : ∀ (x : CState) (e : PyErr),
      (if c then stepC (CState.lift AState.genCurrent) (stepC (fun s => s.solveKern l) (x, some e))
        else stepC (fun s => s.solveKern l) (x, some e)) = (x, some e) := by
    intro x e; cases c <;> rfl
  cases hn : s.a.v.genNormVec (Vec.zeros (s.a.size s.a.v)) with
  | error e =>
    rw [show stepC CState.prepare (s, none) = (s, some e) by
      simp only [stepC]; rw [prepareC_error hi hm hn]]
    have := herr s e
    show (_ : CState × Option PyErr).2 = some e
    exact congrArg Prod.snd this
  | ok nv =>
    obtain ⟨t, ht, P, R⟩ := prepareC_ok hi (fun _ => ⟨nv, hn⟩)
    have hmt : t.a.opts.mfreeq = false := by rw [P.opts, o2, hm]
    rw [show stepC CState.prepare (s, none) = (t, none) by simp only [stepC]; rw [ht]]
    have hrow : t.a.rows = s.a.rows := rows_eq (by rw [P.opts, o1]) P.size P.v
    have hrw : Ref.rows s.a.opts.prepareSolver (s.a.size s.a.v) = s.a.rows := by
      unfold Ref.rows AState.rows; rw [o1]
    simp only [py_bind_ok]
    rw [hrw, stepC_lift AState.generate]
    have hfill : t.a.fill (Mat.zeros s.a.rows (s.a.size s.a.v)) = (do
        let cs ← s.a.ap.calls s.a.v
        s.a.v.runKern (Mat.zeros s.a.rows (s.a.size s.a.v)) cs) := by
      unfold AState.fill; rw [P.ap, P.v]
    rw [← hfill]
    cases hf : t.a.fill (Mat.zeros s.a.rows (s.a.size s.a.v)) with
    | error e =>
      rw [show stepS AState.generate (t.a, none) = (t.a, some e) by
        simp only [stepS]; rw [generate_eq P.ready hmt (P.kern hm), hf]; rfl]
      exact congrArg Prod.snd (herr t e)
    | ok k =>
      obtain ⟨g1, g2⟩ := generate_ready P.ready hmt (P.kern hm) hf
      rw [show stepS AState.generate (t.a, none) = ({ t.a with kern := some k }, none) by
        simp only [stepS]; rw [g1]]
      simp only [py_bind_ok]
      set u : CState := { t with a := { t.a with kern := some k } } with hu
      have Ru : CReady u := R.with g2 rfl
      obtain ⟨p, hp, hps⟩ := g2.phi0
      obtain ⟨nv', hnv', hnv2⟩ := g2.nv hmt
      have e1 : nv' = nv := by
        have h : t.a.v.genNormVec (Vec.zeros (t.a.size t.a.v)) = .ok nv' := hnv2
        rw [P.v, P.size, hn] at h
        simpa using h.symm
      subst e1
      have huo : u.a.opts = s.a.opts.prepareSolver := P.opts
      have hk0 : k.rows = s.a.rows ∧ k.cols = s.a.size s.a.v := by
        obtain ⟨k', q1, q2, q3⟩ := g2.kern hmt
        simp only [Option.some.injEq] at q1
        subst q1
        exact ⟨q2.trans hrow, q3.trans (by simp only [P.v, P.size])⟩
      have hpos : cIdx k.rows (if u.symq then u.row else (k.rows : Int) - 1)
          = pyIdx k.rows (Ref.pos s.a.opts.prepareSolver) := by
        rw [Ru.symq, Ru.row, huo, o1, o3]
        unfold Ref.pos
        rw [o1, o3]
        exact pos_eq (n := s.a.size s.a.v) (by rw [hk0.1]; rfl) hr
      have hsys := sysC_eq (nv := nv') (b := Vec.zeros s.a.rows) hpos hk0.1.symm
      have hbu : u.a.bvec = some (Vec.zeros s.a.rows) := P.bvec hm
      have hku : u.a.kern = some k := rfl
      have hnu : u.a.normVec = some nv' := hnv'
      have hpu : u.a.phi0 = some p := hp
      have hpsz : p.size = s.a.size s.a.v := by
        rw [hps]; simp only [P.v, P.size]
      have hR : ∀ i, Ref.sys k (Vec.zeros s.a.rows) nv' i = sys k (Vec.zeros s.a.rows) nv' i :=
        fun _ => rfl
      rw [hR, ← hsys]
      cases hy : sysC k (Vec.zeros s.a.rows) nv'
          (if u.symq then u.row else (k.rows : Int) - 1) with
      | error e =>
        rw [show stepC (fun s => s.solveKern l) (u, none) = (u, some e) by
          simp only [stepC]
          unfold CState.solveKern
          rw [hku, hbu, hnu]
          simp only [attr, py_pure, py_bind_ok]
          rw [hy]; rfl]
        cases c with
        | false => rfl
        | true => rfl
      | ok kb =>
        obtain ⟨y1, y2, y3⟩ := sysC_shape hy
        obtain ⟨sv, w, v1, v2, v3, v4⟩ := run_eq Ru hmt (by rw [huo]; exact hs) l (K := kb.1)
          (b := kb.2) (by rw [y1, hk0.1]; exact hrow.symm)
          (by rw [y2, hk0.2]; show _ = t.a.size t.a.v; rw [P.v, P.size])
          (by rw [y3, y1, hk0.1]; rfl)
        rw [huo] at v4
        simp only [py_bind_ok]
        have hcol : kb.1.cols = p.size := by rw [y2, hk0.2, hpsz]
        rw [show stepC (fun s => s.solveKern l) (u, none) = ({ u with a := { u.a with
            kern := some w.1
            bvec := some w.2.1
            phi0 := some (if decide (w.2.2 = 0) then ⟨p.size, w.2.1.val⟩ else Vec.zeros p.size)
            success := some (decide (w.2.2 = 0)) } }, none) by
          simp only [stepC]
          rw [solveKernC_eq hku hbu hnu hpu hy v1 v2 (by omega)]]
        have hres : Ref.result (s.a.size s.a.v)
              (Ref.answer s.a.opts.prepareSolver l.lib kb.1 kb.2) =
            (if decide (w.2.2 = 0) then ⟨p.size, w.2.1.val⟩ else Vec.zeros p.size,
              decide (w.2.2 = 0)) := by
          rw [← v4, hcol, ← hpsz]
          by_cases hz : w.2.2 = 0
          · simp [hz, Ref.result]
          · simp [hz, Ref.result]
        rw [hres]
        simp only
        set w0 : CState := { u with a := { u.a with
            kern := some w.1
            bvec := some w.2.1
            phi0 := some (if decide (w.2.2 = 0) then ⟨p.size, w.2.1.val⟩ else Vec.zeros p.size)
            success := some (decide (w.2.2 = 0)) } } with hw0
        have Rw : Ready w0.a := by
          obtain ⟨x1, x2, x3⟩ := run_shape v2
          refine ⟨g2.opts, g2.handler, ⟨_, rfl, ?_⟩, g2.cur, g2.dphi, fun _ => ⟨_, rfl, ?_, ?_⟩,
            fun _ => ⟨_, rfl, ?_⟩, g2.nv⟩
          · split <;> exact hps
          · rw [x1, y1, hk0.1]; exact hrow.symm
          · rw [x2, y2, hk0.2]; show _ = t.a.size t.a.v; rw [P.v, P.size]
          · rw [x3, y3]; exact hrow.symm
        obtain ⟨c1, c2⟩ := current_step Rw hmt (p := if decide (w.2.2 = 0) then
          ⟨p.size, w.2.1.val⟩ else Vec.zeros p.size) rfl P.cur c
        have hap : w0.a.ap = s.a.ap := P.ap
        have hv : w0.a.v = s.a.v := P.v
        rw [hap, hv] at c1 c2
        have hl : (if c then stepC (CState.lift AState.genCurrent) (w0, none) else (w0, none)) =
            ({ w0 with a := (if c then stepS AState.genCurrent (w0.a, none) else (w0.a, none)).1 },
              (if c then stepS AState.genCurrent (w0.a, none) else (w0.a, none)).2) := by
          cases c with
          | false => rfl
          | true => simp only [if_true]; rw [stepC_lift]
        rw [hl]
        cases hcur : Ref.currents s.a.ap s.a.v
            (if decide (w.2.2 = 0) then ⟨p.size, w.2.1.val⟩ else Vec.zeros p.size) c with
        | error e =>
          rw [c2 e hcur]
          rfl
        | ok evs =>
          obtain ⟨z, z1, z2, -⟩ := c1 evs hcur
          subst z2
          rw [z1]
          exact ⟨rfl, rfl, rfl, rfl⟩

theorem runTrialsC_eq (ts : List Vec) {s : CState} (r : CReady s)
    (hm : s.a.opts.mfreeq = true) {i : Nat} (hi : cIdx (s.a.size s.a.v) s.row = .ok i) :
    s.runTrials ts = ({ s with a := (s.a.runTrials ts).1 }, (s.a.runTrials ts).2) := by
  induction ts generalizing s with
  | nil => rfl
  | cons t ts ih =>
    unfold CState.runTrials AState.runTrials
    rw [genVecC_eq r hm, hi]
    simp only [py_bind_ok]
    obtain ⟨g1, g2⟩ := genVec_ready r.a hm t
    cases hx : s.a.v.genVec (s.a.size s.a.v) s.a.opts.normRow (s.a.ap.calls s.a.v) t with
    | error e =>
      rw [g2 e hx]
      rfl
    | ok x =>
      obtain ⟨h, h1, h2, h3⟩ := g1 x hx
      rw [h2]
      simp only [py_bind_ok, py_pure]
      exact ih (r.with h3 rfl) hm hi

theorem solveFreeC_eq {s : CState} (r : CReady s) (hm : s.a.opts.mfreeq = true) {i : Nat}
    (hi : cIdx (s.a.size s.a.v) s.row = .ok i) (run : RootRun) :
    s.solveFree run = s.lift fun a => a.solveFree run := by
  unfold CState.solveFree CState.lift AState.solveFree
  rw [runTrialsC_eq run.trials r hm hi]
  obtain ⟨p, hp, -⟩ := r.a.phi0
  rw [hp]
  simp only [attr, py_pure, py_bind_ok]
  generalize (if (s.a.runTrials run.trials).2 = true then run.out else none) = q
  rcases q with _ | ⟨x, ok⟩
  · simp only [hp, py_bind_ok]
  · by_cases hx : x.size = p.size
    · simp only [hp, if_pos hx, py_bind_ok]
    · simp only [hp, if_neg hx, py_bind_ok]

/-- `solve` of a compiled object in matrix-free mode. -/
theorem csolve_free {s : CState} (hi : CInv s) (hm : s.a.opts.mfreeq = true)
    (hr : 0 ≤ s.a.opts.normRow ∧ s.a.opts.normRow < s.a.size s.a.v) {t : Vec} {ts : List Vec}
    (l : Lapack) (run : RootRun) (ht : run.trials = t :: ts) (c : Bool) :
    match Ref.solveFree s.a.opts.normRow s.a.v s.a.ap (s.a.size s.a.v) s.a.useKh t ts run.out c with
    | .ok r => (s.solve l run c).2 = none ∧ (s.solve l run c).1.a.phi0 = some r.phi0 ∧
        (s.solve l run c).1.a.success = some r.success ∧ (s.solve l run c).1.a.cur = some r.cur
    | .error x => (s.solve l run c).2 = some x := by
  obtain ⟨o1, o2, o3, o4⟩ := prepareSolver_fields s.a.opts
  obtain ⟨w, hw, P, R⟩ := prepareC_ok hi (fun h => by rw [hm] at h; simp at h)
  have hmw : w.a.opts.mfreeq = true := by rw [P.opts, o2, hm]
  have hc : cIdx (w.a.size w.a.v) w.row = .ok s.a.opts.normRow.toNat := by
    rw [P.size, P.v, R.row, P.opts, o3]
    unfold cIdx
    rw [if_pos hr]
  obtain ⟨u, e, g, -, -, -, -, -, -, k⟩ := free_after P hm run ht c
  unfold CState.solve
  rw [show stepC CState.prepare (s, none) = (w, none) by simp only [stepC]; rw [hw]]
  simp only [hm, if_true]
  have h1 : stepC (fun s => s.solveFree run) (w, none) =
      stepC (CState.lift fun a => a.solveFree run) (w, none) := by
    simp only [stepC]
    rw [solveFreeC_eq R hmw hc]
  rw [h1, stepC_lift (fun a => a.solveFree run)]
  have h2 : (if c = true then stepC (CState.lift AState.genCurrent)
        (({ w with a := (stepS (fun a => a.solveFree run) (w.a, none)).1 } : CState),
          (stepS (fun a => a.solveFree run) (w.a, none)).2)
      else (({ w with a := (stepS (fun a => a.solveFree run) (w.a, none)).1 } : CState),
          (stepS (fun a => a.solveFree run) (w.a, none)).2)) = ({ w with a := u }, e) := by
    cases c with
    | false =>
      simp only [Bool.false_eq_true, if_false] at g ⊢
      rw [g]
    | true =>
      simp only [if_true] at g ⊢
      rw [stepC_lift]
      simp only [Prod.mk.eta]
      rw [g]
  rw [h2]
  exact k

end CSolve

end

end Verif
