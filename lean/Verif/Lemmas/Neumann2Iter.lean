import Verif.Lemmas.Neumann2Kern

/-! Steps of an iteration of the 2vN approach. -/

namespace Verif

noncomputable section

namespace VN2

theorem step_some (f : St → Py St) (s : St) (e : PyErr) : step f (s, some e) = (s, some e) := rfl

theorem step_ok {f : St → Py St} {s s' : St} (h : f s = .ok s') : step f (s, none) = (s', none) := by
  simp [step, h]

theorem step_error {f : St → Py St} {s : St} {e : PyErr} (h : f s = .error e) : step f (s, none) = (s, some e) := by
  simp [step, h]

theorem step_inv {f : St → Py St} {s s' : St} (h : step f (s, none) = (s', none)) : f s = .ok s' := by
  rcases hf : f s with e | t
  · rw [step_error hf] at h; simp at h
  · rw [step_ok hf] at h
    simp only [Prod.mk.injEq, and_true] at h
    rw [h]

theorem foldl_err (fs : List (St → Py St)) (s : St) (e : PyErr) :
    fs.foldl (fun r f => step f r) (s, some e) = (s, some e) := by
  induction fs with
  | nil => rfl
  | cons f fs ih => rw [List.foldl_cons, step_some, ih]

theorem foldl_cons_inv {f : St → Py St} {fs : List (St → Py St)} {s s' : St}
    (h : (f :: fs).foldl (fun r f => step f r) (s, none) = (s', none)) :
    ∃ t, f s = .ok t ∧ fs.foldl (fun r f => step f r) (t, none) = (s', none) := by
  rw [List.foldl_cons] at h
  rcases hf : f s with e | t
  · rw [step_error hf, foldl_err] at h; simp at h
  · rw [step_ok hf] at h
    exact ⟨t, rfl, h⟩

theorem iteration_err (num : Num) (s : St) (e : PyErr) : St.iteration num (s, some e) = (s, some e) := foldl_err _ s e

theorem iterate_err (num : Num) (n : Nat) (s : St) (e : PyErr) : (St.iteration num)^[n] (s, some e) = (s, some e) := by
  induction n with
  | zero => rfl
  | succ n ih => rw [Function.iterate_succ_apply, iteration_err, ih]

/-- The steps of a completed iteration. -/
theorem iteration_inv {num : Num} {s s' : St} (h : St.iteration num (s, none) = (s', none)) :
    ∃ s1 s2 s3 s4 s5 s6 s7 s8, (if s.zeroth then s.makeGrid else pure s) = .ok s1 ∧
      (if s1.zeroth then s1.extend else pure s1) = .ok s2 ∧ s2.prepareKern = .ok s3 ∧ s3.iterate num = .ok s4 ∧
      s4.integrate = .ok s5 ∧ s5.genKern = .ok s6 ∧ s6.solveKern num = .ok s7 ∧ s7.genCurrent = .ok s8 ∧
      s8.record = .ok s' := by
  unfold St.iteration steps at h
  obtain ⟨s1, e1, h⟩ := foldl_cons_inv h
  obtain ⟨s2, e2, h⟩ := foldl_cons_inv h
  obtain ⟨s3, e3, h⟩ := foldl_cons_inv h
  obtain ⟨s4, e4, h⟩ := foldl_cons_inv h
  obtain ⟨s5, e5, h⟩ := foldl_cons_inv h
  obtain ⟨s6, e6, h⟩ := foldl_cons_inv h
  obtain ⟨s7, e7, h⟩ := foldl_cons_inv h
  obtain ⟨s8, e8, h⟩ := foldl_cons_inv h
  obtain ⟨s9, e9, h⟩ := foldl_cons_inv h
  simp only [List.foldl_nil, Prod.mk.injEq, and_true] at h
  subst h
  exact ⟨s1, s2, s3, s4, s5, s6, s7, s8, e1, e2, e3, e4, e5, e6, e7, e8, e9⟩

theorem bind_inv {α β : Type} {x : Py α} {f : α → Py β} {y : β} (h : (x >>= f) = .ok y) :
    ∃ a, x = .ok a ∧ f a = .ok y := by
  rcases x with e | a
  · exact (py_err h).elim
  · exact ⟨a, rfl, h⟩

theorem attr_inv {α : Type} {x : Option α} {a : α} (h : attr x = .ok a) : x = some a := by
  rcases x with _ | b
  · simp [attr] at h
  · have : (.ok b : Py α) = .ok a := h
    rw [Except.ok.inj this]

open Classical in
theorem makeGrid_inv {s t : St} (h : s.makeGrid = .ok t) (hn : s.niter = -1) :
    t = s ∨ ∃ n, s.sys.kpnt = some n ∧ t = { s with dband := s.sys.band, grid := linspace s.sys.band.1 s.sys.band.2 n } := by
  unfold St.makeGrid at h
  rcases hk : s.sys.kpnt with _ | n
  · rw [hk] at h; simp at h
  · rw [hk] at h
    simp only at h
    by_cases hl : 0 < s.sys.v.nleads
    · rw [if_pos hl] at h
      obtain ⟨g0, _, h⟩ := bind_inv h
      obtain ⟨gl, _, h⟩ := bind_inv h
      split at h
      · rename_i hc
        rw [if_neg (by simpa using hn)] at h
        simp only [py_pure, Except.ok.injEq] at h
        exact Or.inr ⟨n, rfl, h.symm⟩
      · simp only [py_pure, Except.ok.injEq] at h
        exact Or.inl h.symm
    · rw [if_neg hl] at h
      simp only [py_pure, Except.ok.injEq] at h
      exact Or.inl h.symm

theorem extend_inv {s t : St} (h : s.extend = .ok t) : ∃ x, t = { s with ext := x } := by
  unfold St.extend at h
  obtain ⟨l, _, h⟩ := bind_inv h
  obtain ⟨r, _, h⟩ := bind_inv h
  simp only [py_pure, Except.ok.injEq] at h
  exact ⟨_, h.symm⟩

/-- The sizes of the equations. -/
def kernRows (o : Opts) (v : View) : Nat := if o.symq then v.ndm0 else v.ndm0 + 1

/-- What holds after every history. -/
structure Inv (s : St) : Prop where
  zeroth : s.zeroth = true → s.niter = -1
  fits : s.prepared = true → s.changed = false → ∀ a k, s.arrs = some a → a.kern = some k →
    k.1.rows = kernRows s.opts s.sys.v ∧ k.1.cols = s.sys.v.ndm0 ∧ k.2.1.size = kernRows s.opts s.sys.v ∧
      normVec s.sys.v = .ok k.2.2
  mfree : s.prepared = true → s.changed = false → s.opts.mfreeq = true → ∀ a, s.arrs = some a → a.kern = none
  grid : (s.grid = [0] ∧ s.dband = (0, 0)) ∨ ∃ n, s.grid = linspace s.dband.1 s.dband.2 n

theorem prepareSolver_symq (o : Opts) : o.prepareSolver.symq = o.symq ∧ o.prepareSolver.mfreeq = o.mfreeq ∧
    o.prepareSolver.normRow = o.normRow := by
  unfold Opts.prepareSolver
  refine ⟨?_, ?_, ?_⟩ <;> (simp only; split <;> try split) <;> (try split) <;> rfl

/-- `prepare_kern`: the arrays are zero afterwards. -/
structure Prepared (s t : St) (a : Arrs) : Prop where
  arrs : t.arrs = some a
  cur : a.cur = []
  pp : a.pp = fun _ _ _ => 0
  epp : a.epp = fun _ _ _ => 0
  zero : ∀ k, a.kern = some k → ∀ r j, k.1.val r j = 0
  size : ∀ k, a.kern = some k → k.1.rows = kernRows s.opts s.sys.v ∧ k.1.cols = s.sys.v.ndm0 ∧
    k.2.1.size = kernRows s.opts s.sys.v ∧ normVec s.sys.v = .ok k.2.2
  bzero : ∀ k, a.kern = some k → ∀ j, k.2.1.val j = 0
  mfree : s.opts.mfreeq = true → a.kern = none
  changed : t.changed = false
  prepared : t.prepared = true
  sys : t.sys = s.sys
  zeroth : t.zeroth = s.zeroth
  niter : t.niter = s.niter
  iters : t.iters = s.iters
  grid : t.grid = s.grid
  ext : t.ext = s.ext
  dband : t.dband = s.dband
  asked : t.asked = s.asked
  symq : t.opts.symq = s.opts.symq
  mfreeq : t.opts.mfreeq = s.opts.mfreeq
  normRow : t.opts.normRow = s.opts.normRow

theorem prepareKern_inv {s t : St} (hs : Inv s) (h : s.prepareKern = .ok t) : ∃ a, Prepared s t a := by
  unfold St.prepareKern at h
  by_cases hp : (s.prepared && !s.changed) = true
  · rw [if_pos hp] at h
    simp only [Bool.and_eq_true, Bool.not_eq_true'] at hp
    unfold St.cleanArrays at h
    obtain ⟨a, ha, h⟩ := bind_inv h
    have ha := attr_inv ha
    obtain ⟨k0, hk0, h⟩ := bind_inv h
    simp only [py_pure, Except.ok.injEq] at h
    subst h
    unfold cleanKern at hk0
    by_cases hm : s.opts.mfreeq = true
    · rw [if_pos hm] at hk0
      simp only [py_pure, Except.ok.injEq] at hk0
      have hn := hs.mfree hp.1 hp.2 hm a ha
      rw [hn] at hk0
      subst hk0
      exact ⟨_, rfl, rfl, rfl, rfl, by simp, by simp, by simp, by simp, hp.2, hp.1, rfl, rfl, rfl, rfl, rfl, rfl, rfl, rfl, rfl, rfl, rfl⟩
    · rw [if_neg hm] at hk0
      obtain ⟨k1, hk1, hk0⟩ := bind_inv hk0
      simp only [py_pure, Except.ok.injEq] at hk0
      subst hk0
      refine ⟨_, rfl, rfl, rfl, rfl, ?_, ?_, ?_, fun hm' => absurd hm' hm, hp.2, hp.1, rfl, rfl, rfl, rfl, rfl, rfl, rfl, rfl, rfl, rfl, rfl⟩
      · intro k hk
        obtain rfl := Option.some.inj hk
        intro r j; rfl
      · intro k hk
        obtain rfl := Option.some.inj hk
        exact hs.fits hp.1 hp.2 a k1 ha (attr_inv hk1)
      · intro k hk
        obtain rfl := Option.some.inj hk
        intro j; rfl
  · rw [if_neg hp] at h
    obtain ⟨u, hu, h⟩ := bind_inv h
    simp only [py_pure, Except.ok.injEq] at h
    subst h
    unfold St.prepareArrays at hu
    obtain ⟨k0, hk0, hu⟩ := bind_inv hu
    simp only [py_pure, Except.ok.injEq] at hu
    have hk : (∀ k, k0 = some k → ∀ r j, k.1.val r j = 0) ∧
        (∀ k, k0 = some k → k.1.rows = kernRows s.opts s.sys.v ∧ k.1.cols = s.sys.v.ndm0 ∧
          k.2.1.size = kernRows s.opts s.sys.v ∧ normVec s.sys.v = .ok k.2.2) ∧
        (∀ k, k0 = some k → ∀ j, k.2.1.val j = 0) ∧
        (s.opts.mfreeq = true → k0 = none) := by
      unfold makeKern at hk0
      by_cases hm : s.opts.mfreeq = true
      · rw [if_pos hm] at hk0
        simp only [py_pure, Except.ok.injEq] at hk0
        subst hk0
        simp
      · rw [if_neg hm] at hk0
        obtain ⟨nv, hnv, hk0⟩ := bind_inv hk0
        simp only [py_pure, Except.ok.injEq] at hk0
        subst hk0
        refine ⟨?_, ?_, ?_, fun hm' => absurd hm' hm⟩
        · intro k hk
          obtain rfl := Option.some.inj hk
          intro r j; rfl
        · intro k hk
          obtain rfl := Option.some.inj hk
          exact ⟨rfl, rfl, rfl, hnv⟩
        · intro k hk
          obtain rfl := Option.some.inj hk
          intro j; rfl
    obtain ⟨q1, q2, q3⟩ := prepareSolver_symq s.opts
    by_cases hz : s.zeroth = true
    · rw [if_pos hz] at hu
      subst hu
      exact ⟨_, rfl, rfl, rfl, rfl, hk.1, hk.2.1, hk.2.2.1, hk.2.2.2, rfl, rfl, rfl, rfl, rfl, rfl, rfl, rfl, rfl, rfl, q1, q2, q3⟩
    · rw [if_neg hz] at hu
      subst hu
      exact ⟨_, rfl, rfl, rfl, rfl, hk.1, hk.2.1, hk.2.2.1, hk.2.2.2, rfl, rfl, rfl, rfl, rfl, rfl, rfl, rfl, rfl, rfl, q1, q2, q3⟩

theorem iterate_inv {num : Num} {s t : St} (h : s.iterate num = .ok t) :
    ∃ d i, t = { s with delta := d, inv := i, zeroth := false } := by
  unfold St.iterate at h
  by_cases hz : s.zeroth = true
  · rw [if_pos hz] at h
    obtain ⟨r, _, h⟩ := bind_inv h
    simp only [py_pure, Except.ok.injEq] at h
    exact ⟨_, _, h.symm⟩
  · rw [if_neg hz] at h
    obtain ⟨d, _, h⟩ := bind_inv h
    obtain ⟨i, hi, h⟩ := bind_inv h
    obtain ⟨d', _, h⟩ := bind_inv h
    simp only [py_pure, Except.ok.injEq] at h
    refine ⟨some d', s.inv, ?_⟩
    rw [← h]
    simp only [Bool.not_eq_true] at hz
    rw [← hz]

theorem integrate_inv {s t : St} {a : Arrs} (ha : s.arrs = some a) (h : s.integrate = .ok t) :
    ∃ p pp epp, t = { s with phi1k := p, arrs := some { a with pp := pp, epp := epp }, niter := s.niter + 1 } := by
  unfold St.integrate at h
  obtain ⟨p, _, h⟩ := bind_inv h
  obtain ⟨d, _, h⟩ := bind_inv h
  obtain ⟨a', ha', h⟩ := bind_inv h
  have ha' := attr_inv ha'
  rw [ha] at ha'
  obtain rfl := Option.some.inj ha'
  obtain ⟨r, _, h⟩ := bind_inv h
  simp only [py_pure, Except.ok.injEq] at h
  exact ⟨_, _, _, h.symm⟩

theorem genKern_inv {s t : St} {a : Arrs} (ha : s.arrs = some a) (h : s.genKern = .ok t) :
    ∃ k m, a.kern = some k ∧ genKern s.sys.v s.sys.E s.sys.T a.pp k.1 = .ok m ∧
      t = { s with arrs := some { a with kern := some (m, k.2) } } := by
  unfold St.genKern at h
  obtain ⟨a', ha', h⟩ := bind_inv h
  have ha' := attr_inv ha'
  rw [ha] at ha'
  obtain rfl := Option.some.inj ha'
  rcases hk : a.kern with _ | k
  · rw [hk] at h; simp at h
  · rw [hk] at h
    obtain ⟨m, hm, h⟩ := bind_inv h
    simp only [py_pure, Except.ok.injEq] at h
    exact ⟨k, m, rfl, hm, h.symm⟩

/-- The kernel after the solution is that before, except for the extra row. The system `q` consists of the kernel with one row
replaced by the normalisation; the solution is what the solver returns for `q`. -/
theorem solveKern_inv {num : Num} {s t : St} {a : Arrs} {k : CMat × CVec × CVec} (ha : s.arrs = some a)
    (hk : a.kern = some k) (h : s.solveKern num = .ok t) :
    ∃ (m : CMat) (b : CVec) (x : Option CVec) (φ : CVec) (y : Option Bool) (q : CMat × CVec),
      t = { s with arrs := some { a with kern := some (m, b, k.2.2), phi0 := φ }, sol0 := x, success := y,
                   asked := s.asked ++ [q] } ∧ m.rows = k.1.rows ∧ m.cols = k.1.cols ∧
      (∀ r j, (s.opts.symq = false → r + 1 < k.1.rows) → m.val r j = k.1.val r j) ∧ b.size = k.2.1.size ∧
      ∃ r0 r1, pyIdx k.1.rows (if s.opts.symq then s.opts.normRow else -1) = .ok r0 ∧
        pyIdx k.2.1.size (if s.opts.symq then s.opts.normRow else -1) = .ok r1 ∧
        q.1.rows = k.1.rows ∧ q.1.cols = k.1.cols ∧ q.2.size = k.2.1.size ∧
        (∀ r j, q.1.val r j = if r = r0 then k.2.2.val j else k.1.val r j) ∧
        (∀ j, q.2.val j = if j = r1 then 1 else k.2.1.val j) ∧
        φ = (finish a.phi0.size s.sol0 (s.runSolver num q.1 q.2)).2.1 ∧
        y = some (finish a.phi0.size s.sol0 (s.runSolver num q.1 q.2)).2.2 := by
  unfold St.solveKern at h
  obtain ⟨a', ha', h⟩ := bind_inv h
  have ha' := attr_inv ha'
  rw [ha] at ha'
  obtain rfl := Option.some.inj ha'
  obtain ⟨k', hk', h⟩ := bind_inv h
  have hk' := attr_inv hk'
  rw [hk] at hk'
  obtain rfl := Option.some.inj hk'
  obtain ⟨m, hm, h⟩ := bind_inv h
  obtain ⟨b, hb, h⟩ := bind_inv h
  obtain ⟨m', hm', h⟩ := bind_inv h
  simp only [py_pure, Except.ok.injEq] at h
  refine ⟨m', b, _, _, _, _, h.symm, ?_⟩
  unfold CMat.setRow at hm
  obtain ⟨r0, hr0, hm⟩ := bind_inv hm
  simp only [py_pure, Except.ok.injEq] at hm
  unfold CVec.put at hb
  obtain ⟨r1, hr1, hb⟩ := bind_inv hb
  simp only [py_pure, Except.ok.injEq] at hb
  subst hb
  subst hm
  rw [← and_assoc, ← and_assoc]
  refine ⟨?_, rfl, r0, r1, hr0, hr1, rfl, rfl, rfl, fun _ _ => rfl, fun _ => rfl, rfl, rfl⟩
  clear h hr1
  rw [and_assoc]
  unfold restore at hm'
  by_cases hq : s.opts.symq = true
  · rw [if_pos hq] at hm'
    rw [if_pos hq] at hr0
    obtain ⟨old, hold, hm'⟩ := bind_inv hm'
    unfold CMat.getRow at hold
    rw [hr0] at hold
    simp only [py_bind_ok, py_pure, Except.ok.injEq] at hold
    subst hold
    unfold CMat.setRow at hm'
    simp only at hm'
    rw [hr0] at hm'
    simp only [py_bind_ok, py_pure, Except.ok.injEq] at hm'
    subst hm'
    refine ⟨rfl, rfl, fun r j _ => ?_⟩
    by_cases hr : r = r0
    · simp [hr]
    · simp [hr]
  · rw [if_neg hq] at hm' hr0
    simp only [py_pure, Except.ok.injEq] at hm'
    subst hm'
    refine ⟨rfl, rfl, fun r j hr => ?_⟩
    have hr := hr (by simpa using hq)
    have : r0 = k.1.rows - 1 := by
      have := pyIdx_neg (len := k.1.rows) (k := 1) (by omega) (by omega)
      rw [show (-((1 : Nat) : Int)) = -1 by rfl, hr0] at this
      exact Except.ok.inj this
    simp only
    rw [if_neg (by omega)]

theorem genCurrent_inv {s t : St} {a : Arrs} (ha : s.arrs = some a) (h : s.genCurrent = .ok t) :
    ∃ evs, genCurrent s.sys.v s.sys.T (dotP s.sys.v a.pp a.phi0) (dotP s.sys.v a.epp a.phi0) = .ok evs ∧
      t = { s with arrs := some { a with phi1 := dotP s.sys.v a.pp a.phi0, hphi1 := dotP s.sys.v a.epp a.phi0,
                                         cur := a.cur ++ evs } } := by
  unfold St.genCurrent at h
  obtain ⟨a', ha', h⟩ := bind_inv h
  have ha' := attr_inv ha'
  rw [ha] at ha'
  obtain rfl := Option.some.inj ha'
  obtain ⟨evs, hevs, h⟩ := bind_inv h
  simp only [py_pure, Except.ok.injEq] at h
  exact ⟨evs, hevs, h.symm⟩

theorem record_inv {s t : St} {a : Arrs} (ha : s.arrs = some a) (h : s.record = .ok t) :
    t = { s with iters := s.iters ++ [⟨s.niter, a.phi0, a.phi1, a.cur⟩] } := by
  unfold St.record at h
  obtain ⟨a', ha', h⟩ := bind_inv h
  have ha' := attr_inv ha'
  rw [ha] at ha'
  obtain rfl := Option.some.inj ha'
  simp only [py_pure, Except.ok.injEq] at h
  exact h.symm

end VN2

end

end Verif
