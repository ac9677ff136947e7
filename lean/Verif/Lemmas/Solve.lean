import Verif.Model.Solve
import Verif.Lemmas.Kern
import Verif.Spec.Solve

/-! Invariant of the life cycle of an approach object. -/

namespace Verif

noncomputable section

/-! ### Shapes are kept -/

theorem bind_ok {α β : Type} {x : Py α} {f : α → Py β} {y : β} (h : (x >>= f) = .ok y) :
    ∃ a, x = .ok a ∧ f a = .ok y := by
  cases x with
  | error e => exact absurd (show (Except.error e : Py β) = .ok y from h) (by simp)
  | ok a => exact ⟨a, rfl, h⟩

theorem pure_ok {α : Type} {x y : α} (h : (pure x : Py α) = .ok y) : x = y := by
  simpa [pure, Except.pure] using h

theorem Vec.add_size {x x' : Vec} {i : Int} {z : ℝ} (h : x.add i z = .ok x') : x'.size = x.size := by
  obtain ⟨k, _, h⟩ := bind_ok h
  rw [← pure_ok h]

theorem Vec.put_size {x x' : Vec} {i : Int} {z : ℝ} (h : x.put i z = .ok x') : x'.size = x.size := by
  obtain ⟨k, _, h⟩ := bind_ok h
  rw [← pure_ok h]

theorem Mat.add_shape {m m' : Mat} {i j : Int} {z : ℝ} (h : m.add i j z = .ok m') :
    m'.rows = m.rows ∧ m'.cols = m.cols := by
  obtain ⟨k, _, h⟩ := bind_ok h
  obtain ⟨k, _, h⟩ := bind_ok h
  rw [← pure_ok h]
  exact ⟨rfl, rfl⟩

theorem foldlM_keep {α σ : Type} {f : σ → α → Py σ} (P : σ → Prop)
    (hf : ∀ s a s', P s → f s a = .ok s' → P s') (l : List α) (s s' : σ) (hs : P s)
    (h : l.foldlM f s = .ok s') : P s' := by
  induction l generalizing s with
  | nil => rw [← pure_ok h]; exact hs
  | cons a l ih =>
    rw [List.foldlM_cons] at h
    obtain ⟨s1, h1, h2⟩ := bind_ok h
    exact ih s1 (hf s a s1 hs h1) h2

theorem addImagRow_shape {v : View} {m m' : Mat} {i j : Int} {z : ℝ}
    (h : v.addImagRow m i j z = .ok m') : m'.rows = m.rows ∧ m'.cols = m.cols := by
  unfold View.addImagRow at h
  split at h
  · exact Mat.add_shape h
  · rw [← pure_ok h]; exact ⟨rfl, rfl⟩

theorem callKern_shape {v : View} {m m' : Mat} {k : KCall} (h : v.callKern m k = .ok m') :
    m'.rows = m.rows ∧ m'.cols = m.cols := by
  cases k with
  | energy e b bp c =>
    simp only [View.callKern] at h
    obtain ⟨x, _, h⟩ := bind_ok h
    unfold View.putEnergy at h
    split at h
    · obtain ⟨m1, h1, h2⟩ := bind_ok h
      have a := Mat.add_shape h1
      have b := Mat.add_shape h2
      exact ⟨b.1.trans a.1, b.2.trans a.2⟩
    · rw [← pure_ok h]; exact ⟨rfl, rfl⟩
  | elem f b bp c a ap c' =>
    simp only [View.callKern] at h
    obtain ⟨x, _, h⟩ := bind_ok h
    obtain ⟨y, _, h⟩ := bind_ok h
    obtain ⟨z, _, h⟩ := bind_ok h
    obtain ⟨m1, h1, h⟩ := bind_ok h
    obtain ⟨m2, h2, h3⟩ := bind_ok h
    have a1 := Mat.add_shape h1
    have a3 := addImagRow_shape h3
    have a2 : m2.rows = m1.rows ∧ m2.cols = m1.cols := by
      unfold View.putImagCol at h2
      split at h2
      · obtain ⟨m3, h3, h4⟩ := bind_ok h2
        have a := Mat.add_shape h3
        have b := addImagRow_shape h4
        exact ⟨b.1.trans a.1, b.2.trans a.2⟩
      · rw [← pure_ok h2]; exact ⟨rfl, rfl⟩
    exact ⟨a3.1.trans (a2.1.trans a1.1), a3.2.trans (a2.2.trans a1.2)⟩
  | pauli fm fp bb aa =>
    simp only [View.callKern] at h
    obtain ⟨m1, h1, h2⟩ := bind_ok h
    have a := Mat.add_shape h1
    have b := Mat.add_shape h2
    exact ⟨b.1.trans a.1, b.2.trans a.2⟩

theorem runKern_shape {v : View} {m m' : Mat} {ks : List KCall} (h : v.runKern m ks = .ok m') :
    m'.rows = m.rows ∧ m'.cols = m.cols :=
  foldlM_keep (fun x : Mat => x.rows = m.rows ∧ x.cols = m.cols)
    (fun s a s' hs h => by
      have := callKern_shape h
      exact ⟨this.1.trans hs.1, this.2.trans hs.2⟩) ks m m' ⟨rfl, rfl⟩ h

theorem callFree_size {v : View} {φ x x' : Vec} {k : KCall} (h : v.callFree φ x k = .ok x') :
    x'.size = x.size := by
  cases k with
  | energy e b bp c =>
    simp only [View.callFree] at h
    split at h
    · rw [← pure_ok h]
    · obtain ⟨_, _, h⟩ := bind_ok h
      obtain ⟨_, _, h⟩ := bind_ok h
      obtain ⟨x1, h1, h2⟩ := bind_ok h
      rw [Vec.add_size h2, Vec.add_size h1]
  | elem f b bp c a ap c' =>
    simp only [View.callFree] at h
    obtain ⟨_, _, h⟩ := bind_ok h
    obtain ⟨_, _, h⟩ := bind_ok h
    obtain ⟨_, _, h⟩ := bind_ok h
    obtain ⟨x1, h1, h2⟩ := bind_ok h
    unfold View.subImag at h2
    split at h2
    · rw [Vec.add_size h2, Vec.add_size h1]
    · rw [← pure_ok h2, Vec.add_size h1]
  | pauli fm fp bb aa =>
    simp only [View.callFree] at h
    obtain ⟨_, _, h⟩ := bind_ok h
    obtain ⟨_, _, h⟩ := bind_ok h
    exact Vec.add_size h

theorem runFree_size {v : View} {φ x x' : Vec} {ks : List KCall} (h : v.runFree φ x ks = .ok x') :
    x'.size = x.size :=
  foldlM_keep (fun y : Vec => y.size = x.size)
    (fun s a s' hs h => (callFree_size h).trans hs) ks x x' rfl h

theorem genVec_size {v : View} {n : Nat} {r : Int} {cs : Py (List KCall)} {φ x : Vec}
    (h : v.genVec n r cs φ = .ok x) : x.size = n := by
  unfold View.genVec at h
  obtain ⟨_, _, h⟩ := bind_ok h
  obtain ⟨_, _, h⟩ := bind_ok h
  obtain ⟨x1, h1, h2⟩ := bind_ok h
  rw [Vec.put_size h2, runFree_size h1]
  rfl

theorem genNormVec_size {v : View} {x x' : Vec} (h : v.genNormVec x = .ok x') : x'.size = x.size :=
  foldlM_keep (fun y : Vec => y.size = x.size)
    (fun s a s' hs h => by
      obtain ⟨l, _, h⟩ := bind_ok h
      refine foldlM_keep (fun y : Vec => y.size = x.size) ?_ _ s s' hs h
      intro s b s' hs h
      obtain ⟨_, _, h⟩ := bind_ok h
      exact (Vec.add_size h).trans hs) _ x x' rfl h

theorem Mat.setRow_shape {m m' : Mat} {i : Int} {x : Vec} (h : m.setRow i x = .ok m') :
    m'.rows = m.rows ∧ m'.cols = m.cols := by
  unfold Mat.setRow at h
  obtain ⟨_, _, h⟩ := bind_ok h
  split at h
  · rw [← pure_ok h]; exact ⟨rfl, rfl⟩
  · simp at h

/-! ### Prepared objects -/

theorem prepareSolver_idem (o : Opts) : o.prepareSolver.prepareSolver = o.prepareSolver := by
  obtain ⟨symq, mfreeq, nr, sm, pi⟩ := o
  unfold Opts.prepareSolver
  cases mfreeq
  · cases symq
    · cases sm with
      | none => simp
      | some m =>
        by_cases h1 : m = "lsqr"
        · simp [h1]
        · by_cases h2 : m = "lsmr"
          · simp [h2]
          · simp [h1, h2]
    · cases sm <;> simp
  · cases sm <;> simp

theorem prepareSolver_fields (o : Opts) : o.prepareSolver.symq = o.symq ∧
    o.prepareSolver.mfreeq = o.mfreeq ∧ o.prepareSolver.normRow = o.normRow ∧
    o.prepareSolver.phi0Init = o.phi0Init := by
  unfold Opts.prepareSolver
  split
  · exact ⟨rfl, rfl, rfl, rfl⟩
  · simp only
    split <;> split <;> exact ⟨rfl, rfl, rfl, rfl⟩

theorem prepareSolver_normRow (o : Opts) (i : Int) :
    ({ o with normRow := i } : Opts).prepareSolver = { o.prepareSolver with normRow := i } := by
  obtain ⟨symq, mfreeq, nr, sm, pi⟩ := o
  unfold Opts.prepareSolver
  cases mfreeq
  · simp only [Bool.false_eq_true, if_false]
    split <;> split <;> rfl
  · rfl

theorem prepareSolver_phi0Init (o : Opts) (p : Option Vec) :
    ({ o with phi0Init := p } : Opts).prepareSolver = { o.prepareSolver with phi0Init := p } := by
  obtain ⟨symq, mfreeq, nr, sm, pi⟩ := o
  unfold Opts.prepareSolver
  cases mfreeq
  · simp only [Bool.false_eq_true, if_false]
    split <;> split <;> rfl
  · rfl

/-- The arrays and the handler fit the present indexing object and options. -/
structure Ready (s : AState) : Prop where
  opts : s.opts.prepareSolver = s.opts
  handler : ∃ h, s.handler = some h ∧ h.free = s.opts.mfreeq ∧ h.ndm0 = s.v.ndm0 ∧
    h.npauli = s.v.npauli ∧ (s.opts.mfreeq = false → h.trial = none)
  phi0 : ∃ p, s.phi0 = some p ∧ p.size = s.size s.v
  cur : ∃ c, s.cur = some c
  dphi : s.opts.mfreeq = true → ∃ d, s.dphi = some d ∧ d.size = s.size s.v
  kern : s.opts.mfreeq = false → ∃ k, s.kern = some k ∧ k.rows = s.rows ∧ k.cols = s.size s.v
  bvec : s.opts.mfreeq = false → ∃ b, s.bvec = some b ∧ b.size = s.rows
  nv : s.opts.mfreeq = false → ∃ nv, s.normVec = some nv ∧
    s.v.genNormVec (Vec.zeros (s.size s.v)) = .ok nv

/-- The invariant of the life cycle. -/
def LInv (s : AState) : Prop := s.isPrepared = true → s.changed = false → Ready s

/-- The state after `prepare_kern`, up to parts that do not matter. -/
structure Prep (s t : AState) : Prop where
  opts : t.opts = s.opts.prepareSolver
  v : t.v = s.v
  ap : t.ap = s.ap
  size : t.size = s.size
  useKh : t.useKh = s.useKh
  isPrepared : t.isPrepared = true
  changed : t.changed = false
  sol0 : t.sol0 = s.sol0
  ready : Ready t
  cur : t.cur = some []
  kern : s.opts.mfreeq = false → t.kern = some (Mat.zeros s.rows (s.size s.v))
  bvec : s.opts.mfreeq = false → t.bvec = some (Vec.zeros s.rows)

theorem rows_eq {s t : AState} (h1 : t.opts.symq = s.opts.symq) (h2 : t.size = s.size)
    (h3 : t.v = s.v) : t.rows = s.rows := by
  unfold AState.rows; rw [h1, h2, h3]

/-- `prepare_kern` either succeeds with fresh arrays or fails as it would for a new object. -/
theorem prepare_ok {s : AState} (hi : LInv s)
    (hn : s.opts.mfreeq = false → ∃ nv, s.v.genNormVec (Vec.zeros (s.size s.v)) = .ok nv) :
    ∃ t, s.prepare = .ok t ∧ Prep s t := by
  by_cases hp : s.isPrepared = true ∧ s.changed = false
  · have r := hi hp.1 hp.2
    obtain ⟨c, hc⟩ := r.cur
    by_cases hm : s.opts.mfreeq = true
    · refine ⟨{ s with cur := some [] }, ?_, ?_⟩
      · unfold AState.prepare
        rw [show (s.isPrepared && !s.changed) = true by simp [hp]]
        simp only [if_true, AState.clean, hc, attr, hm]
        rfl
      · exact ⟨r.opts.symm, rfl, rfl, rfl, rfl, hp.1, hp.2, rfl,
          ⟨r.opts, r.handler, r.phi0, ⟨[], rfl⟩, r.dphi, r.kern, r.bvec, r.nv⟩, rfl,
          by simp [hm], by simp [hm]⟩
    · have hm : s.opts.mfreeq = false := by simpa using hm
      obtain ⟨k, hk, hkr, hkc⟩ := r.kern hm
      obtain ⟨b, hb, hbs⟩ := r.bvec hm
      refine ⟨{ s with kern := some (Mat.zeros k.rows k.cols), bvec := some (Vec.zeros b.size),
                       cur := some [] }, ?_, ?_⟩
      · unfold AState.prepare
        rw [show (s.isPrepared && !s.changed) = true by simp [hp]]
        simp only [if_true, AState.clean, hc, attr, hm, hk, hb]
        rfl
      · exact ⟨r.opts.symm, rfl, rfl, rfl, rfl, hp.1, hp.2, rfl,
          ⟨r.opts, r.handler, r.phi0, ⟨[], rfl⟩, r.dphi, fun _ => ⟨_, rfl, hkr, hkc⟩,
            fun _ => ⟨_, rfl, hbs⟩, r.nv⟩, rfl, fun _ => by simp [hkr, hkc], fun _ => by simp [hbs]⟩
  · have hif : (s.isPrepared && !s.changed) = false := by
      cases h1 : s.isPrepared <;> cases h2 : s.changed <;> simp_all
    obtain ⟨e1, e2, e3, e4⟩ := prepareSolver_fields s.opts
    by_cases hm : s.opts.mfreeq = true
    · let t : AState := { s with
        handler := some ⟨s.opts.mfreeq, s.v.ndm0, s.v.npauli, none⟩
        cur := some []
        phi0 := some (Vec.zeros (s.size s.v))
        dphi := some (Vec.zeros (s.size s.v))
        opts := s.opts.prepareSolver
        changed := false
        isPrepared := true }
      refine ⟨t, ?_, ?_⟩
      · unfold AState.prepare
        rw [hif]
        simp only [Bool.false_eq_true, if_false, AState.prepareArrays, hm, if_true]
        simp only [t, hm]
        rfl
      · exact ⟨rfl, rfl, rfl, rfl, rfl, rfl, rfl, rfl,
          ⟨prepareSolver_idem _, ⟨_, rfl, by simp [t, e2], rfl, rfl, fun _ => rfl⟩, ⟨_, rfl, rfl⟩,
            ⟨_, rfl⟩, fun _ => ⟨_, rfl, rfl⟩, by simp [t, e2, hm], by simp [t, e2, hm],
            by simp [t, e2, hm]⟩,
          rfl, by simp [hm], by simp [hm]⟩
    · have hm : s.opts.mfreeq = false := by simpa using hm
      obtain ⟨nv, hnv⟩ := hn hm
      have hrow : ∀ s' : AState, s'.opts = s.opts.prepareSolver → s'.size = s.size → s'.v = s.v →
          s.rows = s'.rows := fun s' h1 h2 h3 => (rows_eq (by rw [h1, e1]) h2 h3).symm
      let t : AState := { s with
        handler := some ⟨s.opts.mfreeq, s.v.ndm0, s.v.npauli, none⟩
        cur := some []
        phi0 := some (Vec.zeros (s.size s.v))
        kern := some (Mat.zeros s.rows (s.size s.v))
        bvec := some (Vec.zeros s.rows)
        normVec := some nv
        opts := s.opts.prepareSolver
        changed := false
        isPrepared := true }
      refine ⟨t, ?_, ?_⟩
      · unfold AState.prepare
        rw [hif]
        simp only [Bool.false_eq_true, if_false, AState.prepareArrays, hm]
        rw [hnv]
        simp only [t, hm]
        rfl
      · exact ⟨rfl, rfl, rfl, rfl, rfl, rfl, rfl, rfl,
          ⟨prepareSolver_idem _, ⟨_, rfl, by simp [t, e2], rfl, rfl, fun _ => rfl⟩, ⟨_, rfl, rfl⟩,
            ⟨_, rfl⟩, by simp [t, e2, hm], fun _ => ⟨_, rfl, hrow t rfl rfl rfl, rfl⟩,
            fun _ => ⟨_, rfl, hrow t rfl rfl rfl⟩, fun _ => ⟨_, rfl, hnv⟩⟩, rfl, fun _ => rfl,
            fun _ => rfl⟩

theorem prepare_error {s : AState} (hi : LInv s) (hm : s.opts.mfreeq = false) {e : PyErr}
    (hn : s.v.genNormVec (Vec.zeros (s.size s.v)) = .error e) : s.prepare = .error e := by
  have hif : (s.isPrepared && !s.changed) = false := by
    cases h1 : s.isPrepared with
    | false => rfl
    | true =>
      cases h2 : s.changed with
      | true => rfl
      | false =>
        obtain ⟨nv, _, h3⟩ := (hi h1 h2).nv hm
        rw [hn] at h3
        simp at h3
  unfold AState.prepare
  rw [hif]
  simp only [Bool.false_eq_true, if_false, AState.prepareArrays, hm]
  rw [hn]
  rfl

theorem Ready.view {s : AState} {h : Handler} (h2 : h.ndm0 = s.v.ndm0)
    (h3 : h.npauli = s.v.npauli) : h.view s.v = s.v := by
  unfold Handler.view
  rw [h2, h3]

/-! ### Matrix mode -/

/-- The calls executed on the matrix `k`. -/
def AState.fill (s : AState) (k : Mat) : Py Mat := do
  let cs ← s.ap.calls s.v
  s.v.runKern k cs

theorem generate_eq {s : AState} (r : Ready s) (hm : s.opts.mfreeq = false) {k : Mat}
    (hk : s.kern = some k) :
    s.generate = (do let k' ← s.fill k; pure { s with kern := some k' }) := by
  obtain ⟨h, h1, h2, h3, h4, h5⟩ := r.handler
  have hf : h.free = false := by rw [h2, hm]
  unfold AState.generate AState.fill
  cases s.ap.calls s.v with
  | error e => rfl
  | ok cs =>
    rw [h1]
    simp only [py_bind_ok, attr, py_pure, hf, Bool.false_eq_true, if_false, hk]
    rw [Ready.view h3 h4]

/-- The system handed to the solver. -/
def sys (k : Mat) (b nv : Vec) (pos : Int) : Py (Mat × Vec) := do
  let k ← k.setRow pos nv
  let b ← b.put pos 1
  pure (k, b)

theorem system_eq {s : AState} {k : Mat} {b nv : Vec} (hk : s.kern = some k)
    (hb : s.bvec = some b) (hn : s.normVec = some nv) : s.system = sys k b nv s.normPos := by
  unfold AState.system sys
  rw [hk, hb, hn]
  rfl

theorem restore {k K : Mat} {x : Vec} {i : Int} (h : k.setRow i x = .ok K) :
    (do let old ← k.getRow i; K.setRow i old) = .ok k := by
  unfold Mat.setRow at h
  obtain ⟨r, h1, h2⟩ := bind_ok h
  split at h2
  · rename_i hs
    rw [← pure_ok h2]
    unfold Mat.getRow Mat.setRow
    rw [h1]
    simp only [py_bind_ok, py_pure, if_true, h1, Except.ok.injEq]
    obtain ⟨rows, cols, val⟩ := k
    simp only [Mat.mk.injEq, true_and]
    funext r' c
    split
    · rename_i e; rw [e]
    · rfl
  · simp at h2

/-- `solve_kern` for known arrays. -/
theorem solveKern_eq {s : AState} {k : Mat} {b nv p : Vec} (hk : s.kern = some k)
    (hb : s.bvec = some b) (hn : s.normVec = some nv) (hp : s.phi0 = some p) (lib : LinLib) :
    s.solveKern lib = (do
      let kb ← sys k b nv s.normPos
      pure { s.finish p (s.runSolver lib kb.1 kb.2) with
        kern := some (if s.opts.symq then k else kb.1), bvec := some kb.2 }) := by
  unfold AState.solveKern
  rw [system_eq hk hb hn, hk, hp]
  simp only [attr, py_pure, py_bind_ok]
  cases hs : sys k b nv s.normPos with
  | error e => rfl
  | ok kb =>
    simp only [py_bind_ok]
    by_cases hq : s.opts.symq = true
    · simp only [hq, if_true]
      obtain ⟨K, h1, h2⟩ := bind_ok hs
      obtain ⟨B, h3, h4⟩ := bind_ok h2
      have e := pure_ok h4
      subst e
      have hpos : s.normPos = s.opts.normRow := by unfold AState.normPos; rw [hq]; rfl
      rw [hpos] at h1
      obtain ⟨old, g1, g2⟩ := bind_ok (restore h1)
      rw [g1]
      simp only [py_bind_ok]
      rw [g2]
      rfl
    · simp only [hq, if_false]
      rfl

theorem finish_fields (s : AState) (p : Vec) (r : Option (Option Vec)) :
    (s.finish p r).opts = s.opts ∧ (s.finish p r).v = s.v ∧ (s.finish p r).ap = s.ap ∧
    (s.finish p r).size = s.size ∧ (s.finish p r).useKh = s.useKh ∧
    (s.finish p r).isPrepared = s.isPrepared ∧ (s.finish p r).changed = s.changed ∧
    (s.finish p r).handler = s.handler ∧ (s.finish p r).cur = s.cur ∧
    (s.finish p r).normVec = s.normVec ∧ (s.finish p r).dphi = s.dphi ∧
    ∃ x, (s.finish p r).phi0 = some x ∧ x.size = p.size := by
  unfold AState.finish
  rcases r with _ | _ | x
  · exact ⟨rfl, rfl, rfl, rfl, rfl, rfl, rfl, rfl, rfl, rfl, rfl, _, rfl, rfl⟩
  · exact ⟨rfl, rfl, rfl, rfl, rfl, rfl, rfl, rfl, rfl, rfl, rfl, _, rfl, rfl⟩
  · simp only
    split
    · rename_i h
      exact ⟨rfl, rfl, rfl, rfl, rfl, rfl, rfl, rfl, rfl, rfl, rfl, x, rfl, h⟩
    · exact ⟨rfl, rfl, rfl, rfl, rfl, rfl, rfl, rfl, rfl, rfl, rfl, _, rfl, rfl⟩

theorem sys_shape {k : Mat} {b nv : Vec} {pos : Int} {kb : Mat × Vec} (h : sys k b nv pos = .ok kb) :
    kb.1.rows = k.rows ∧ kb.1.cols = k.cols ∧ kb.2.size = b.size := by
  obtain ⟨K, h1, h2⟩ := bind_ok h
  obtain ⟨B, h3, h4⟩ := bind_ok h2
  rw [← pure_ok h4]
  exact ⟨(Mat.setRow_shape h1).1, (Mat.setRow_shape h1).2, Vec.put_size h3⟩

/-- The two objects agree on everything a later step of `solve` uses. -/
structure Sim (s t : AState) : Prop where
  opts : t.opts = s.opts
  v : t.v = s.v
  ap : t.ap = s.ap
  size : t.size = s.size
  useKh : t.useKh = s.useKh
  kern : t.kern = s.kern
  bvec : t.bvec = s.bvec
  nv : t.normVec = s.normVec
  cur : t.cur = s.cur
  rs : Ready s
  rt : Ready t

/-- What `generate` does in matrix mode. -/
theorem generate_ready {s : AState} (r : Ready s) (hm : s.opts.mfreeq = false) {k : Mat}
    (hk : s.kern = some k) {k' : Mat} (hf : s.fill k = .ok k') :
    s.generate = .ok { s with kern := some k' } ∧ Ready { s with kern := some k' } := by
  constructor
  · rw [generate_eq r hm hk, hf]; rfl
  · obtain ⟨k0, e0, e1, e2⟩ := r.kern hm
    rw [hk] at e0
    simp only [Option.some.injEq] at e0
    subst e0
    obtain ⟨cs, _, h2⟩ := bind_ok hf
    have := runKern_shape h2
    exact ⟨r.opts, r.handler, r.phi0, r.cur, r.dphi,
      fun _ => ⟨k', rfl, this.1.trans e1, this.2.trans e2⟩, r.bvec, r.nv⟩

/-- The state after `solve_kern`. -/
def AState.after (s : AState) (lib : LinLib) (p : Vec) (k : Mat) (kb : Mat × Vec) : AState :=
  { s.finish p (s.runSolver lib kb.1 kb.2) with
        kern := some (if s.opts.symq then k else kb.1), bvec := some kb.2 }

theorem after_ready {s : AState} (r : Ready s) (hm : s.opts.mfreeq = false) {k : Mat}
    {b nv p : Vec} (hk : s.kern = some k) (hb : s.bvec = some b) (hn : s.normVec = some nv)
    (hp : s.phi0 = some p) (lib : LinLib) {kb : Mat × Vec} (hs : sys k b nv s.normPos = .ok kb) :
    s.solveKern lib = .ok (s.after lib p k kb) ∧ Ready (s.after lib p k kb) := by
  constructor
  · rw [solveKern_eq hk hb hn hp, hs]; rfl
  · obtain ⟨f1, f2, f3, f4, f5, f6, f7, f8, f9, f10, f11, x, f12, f13⟩ :=
      finish_fields s p (s.runSolver lib kb.1 kb.2)
    obtain ⟨s1, s2, s3⟩ := sys_shape hs
    obtain ⟨k0, e0, e1, e2⟩ := r.kern hm
    rw [hk] at e0
    simp only [Option.some.injEq] at e0
    subst e0
    obtain ⟨b0, g0, g1⟩ := r.bvec hm
    rw [hb] at g0
    simp only [Option.some.injEq] at g0
    subst g0
    obtain ⟨p0, q0, q1⟩ := r.phi0
    rw [hp] at q0
    simp only [Option.some.injEq] at q0
    subst q0
    refine ⟨?_, ?_, ?_, ?_, ?_, ?_, ?_, ?_⟩ <;> simp only [AState.after, f1, f2, f4, f8, f9, f10, f11, f12]
    · exact r.opts
    · exact r.handler
    · exact ⟨x, rfl, f13.trans q1⟩
    · exact r.cur
    · exact r.dphi
    · intro _
      refine ⟨_, rfl, ?_, ?_⟩
      · show _ = s.rows
        split
        · exact e1
        · exact s1.trans e1
      · split
        · exact e2
        · exact s2.trans e2
    · intro _
      exact ⟨_, rfl, s3.trans g1⟩
    · exact r.nv

/-- `generate_current` reads the vector through the handler. -/
theorem genCurrent_eq {s : AState} (r : Ready s) (hm : s.opts.mfreeq = false) {p : Vec}
    {old : List CEv} (hp : s.phi0 = some p) (hc : s.cur = some old) :
    s.genCurrent = (do
      let evs ← s.ap.cur s.v p
      pure { s with cur := some (old ++ evs) }) := by
  obtain ⟨h, h1, h2, h3, h4, h5⟩ := r.handler
  unfold AState.genCurrent
  rw [hp, h1, hc]
  simp only [attr, py_pure, py_bind_ok, h5 hm, Option.getD_none, ite_self]
  rw [Ready.view h3 h4]

/-- The solver result. -/
theorem runSolver_ref {s : AState} (hs : s.opts.solmethod = some "solve" ∨
    s.opts.solmethod = some "lsqr") (lib : LinLib) (K : Mat) (b : Vec) :
    s.runSolver lib K b = (Ref.answer s.opts lib K b).map some := by
  unfold AState.runSolver Ref.answer
  rcases hs with h | h
  · simp [h]
  · simp [h]

theorem finish_ref (s : AState) (p : Vec) (r : Option Vec) :
    (s.finish p (r.map some)).phi0 = some (Ref.result p.size r).1 ∧
    (s.finish p (r.map some)).success = some (Ref.result p.size r).2 := by
  unfold AState.finish Ref.result
  cases r with
  | none => exact ⟨rfl, rfl⟩
  | some x =>
    simp only [Option.map_some]
    split <;> exact ⟨rfl, rfl⟩

/-- The last step. -/
theorem current_step {s : AState} (r : Ready s) (hm : s.opts.mfreeq = false) {p : Vec}
    (hp : s.phi0 = some p) (hc : s.cur = some []) (c : Bool) :
    (∀ evs, Ref.currents s.ap s.v p c = .ok evs →
      ∃ t, (if c then stepS AState.genCurrent (s, none) else (s, none)) = (t, none) ∧
        t = { s with cur := some evs } ∧ Ready t) ∧
    (∀ e, Ref.currents s.ap s.v p c = .error e →
      (if c then stepS AState.genCurrent (s, none) else (s, none)) = (s, some e)) := by
  cases c with
  | false =>
    constructor
    · intro evs h
      have := pure_ok h
      subst this
      refine ⟨s, rfl, ?_, r⟩
      rw [← hc]
    · intro e h
      simp [Ref.currents, pure, Except.pure] at h
  | true =>
    simp only [if_true, stepS]
    rw [genCurrent_eq r hm hp hc]
    constructor
    · intro evs h
      simp only [Ref.currents, if_true] at h
      rw [h]
      refine ⟨_, rfl, ?_, ⟨r.opts, r.handler, r.phi0, ⟨_, rfl⟩, r.dphi, r.kern, r.bvec, r.nv⟩⟩
      simp
    · intro e h
      simp only [Ref.currents, if_true] at h
      rw [h]
      rfl

/-- `solve` in matrix mode is the reference computation, whatever happened before. -/
theorem solve_matrix {s : AState} (hi : LInv s) (hm : s.opts.mfreeq = false)
    (hs : s.opts.prepareSolver.solmethod = some "solve" ∨
      s.opts.prepareSolver.solmethod = some "lsqr") (lib : LinLib) (run : RootRun) (c : Bool) :
    ∃ t e, s.solve lib run c = (t, e) ∧ LInv t ∧ t.v = s.v ∧ t.ap = s.ap ∧ t.size = s.size ∧
      t.useKh = s.useKh ∧ t.opts.mfreeq = false ∧
      (match Ref.solve s.opts.prepareSolver s.v s.ap (s.size s.v) lib c with
      | .ok r => e = none ∧ t.kern = some r.kern ∧ t.bvec = some r.bvec ∧ t.phi0 = some r.phi0 ∧
          t.success = some r.success ∧ t.cur = some r.cur ∧ t.opts = s.opts.prepareSolver
      | .error x => e = some x) := by
  obtain ⟨o1, o2, o3, o4⟩ := prepareSolver_fields s.opts
  unfold AState.solve
  simp only [hm, Bool.false_eq_true, if_false]
  unfold Ref.solve
  have herr : ∀ (x : AState) (e : PyErr), (if c then stepS AState.genCurrent (stepS (fun s =>
      s.solveKern lib) (x, some e)) else stepS (fun s => s.solveKern lib) (x, some e))
      = (x, some e) := by
    intro x e; cases c <;> rfl
  cases hn : s.v.genNormVec (Vec.zeros (s.size s.v)) with
  | error e =>
    refine ⟨s, some e, ?_, hi, rfl, rfl, rfl, rfl, hm, rfl⟩
    rw [show stepS AState.prepare (s, none) = (s, some e) by
      simp only [stepS]; rw [prepare_error hi hm hn]]
    exact herr s e
  | ok nv =>
    obtain ⟨t, ht, P⟩ := prepare_ok hi (fun _ => ⟨nv, hn⟩)
    have hmt : t.opts.mfreeq = false := by rw [P.opts, o2, hm]
    rw [show stepS AState.prepare (s, none) = (t, none) by simp only [stepS]; rw [ht]]
    have hrow : t.rows = s.rows := rows_eq (by rw [P.opts, o1]) P.size P.v
    have linv : ∀ u, Ready u → LInv u := fun u r _ _ => r
    simp only [py_bind_ok]
    have hrw : Ref.rows s.opts.prepareSolver (s.size s.v) = s.rows := by
      unfold Ref.rows AState.rows; rw [o1]
    rw [hrw]
    cases hf : t.fill (Mat.zeros s.rows (s.size s.v)) with
    | error e =>
      have h2 : (do let cs ← s.ap.calls s.v
                    s.v.runKern (Mat.zeros s.rows (s.size s.v)) cs) = .error e := by
        rw [← hf]; unfold AState.fill; rw [P.ap, P.v]
      rw [h2]
      refine ⟨t, some e, ?_, linv t P.ready, P.v, P.ap, P.size, P.useKh, hmt, rfl⟩
      rw [show stepS AState.generate (t, none) = (t, some e) by
        simp only [stepS]; rw [generate_eq P.ready hmt (P.kern hm), hf]; rfl]
      exact herr t e
    | ok k =>
      have h2 : (do let cs ← s.ap.calls s.v
                    s.v.runKern (Mat.zeros s.rows (s.size s.v)) cs) = .ok k := by
        rw [← hf]; unfold AState.fill; rw [P.ap, P.v]
      rw [h2]
      obtain ⟨g1, g2⟩ := generate_ready P.ready hmt (P.kern hm) hf
      rw [show stepS AState.generate (t, none) = ({ t with kern := some k }, none) by
        simp only [stepS]; rw [g1]]
      set u : AState := { t with kern := some k } with hu
      obtain ⟨p, hp, hps⟩ := g2.phi0
      obtain ⟨nv', hnv', hnv2⟩ := g2.nv hmt
      have e1 : nv' = nv := by
        have : u.v.genNormVec (Vec.zeros (u.size u.v)) = .ok nv := by
          simp only [hu]; rw [P.v, P.size, hn]
        rw [this] at hnv2
        simpa using hnv2.symm
      subst e1
      have hpos : u.normPos = Ref.pos s.opts.prepareSolver := by
        unfold AState.normPos Ref.pos
        simp only [hu, P.opts]
      simp only [py_bind_ok]
      rw [← hpos]
      cases hsys : sys k (Vec.zeros s.rows) nv' u.normPos with
      | error e =>
        refine ⟨u, some e, ?_, linv u g2, P.v, P.ap, P.size, P.useKh, hmt, ?_⟩
        · rw [show stepS (fun s => s.solveKern lib) (u, none) = (u, some e) by
            simp only [stepS]
            rw [solveKern_eq (s := u) rfl (P.bvec hm) hnv' hp, hsys]; rfl]
          cases c <;> rfl
        · have : Ref.sys k (Vec.zeros s.rows) nv' u.normPos = .error e := hsys
          rw [this]
          rfl
      | ok kb =>
        have hsys' : Ref.sys k (Vec.zeros s.rows) nv' u.normPos = .ok kb := hsys
        rw [hsys']
        simp only [py_bind_ok]
        obtain ⟨a1, a2⟩ := after_ready g2 hmt rfl (P.bvec hm) hnv' hp lib hsys
        rw [show stepS (fun s => s.solveKern lib) (u, none) = (u.after lib p k kb, none) by
          simp only [stepS]; rw [a1]]
        obtain ⟨f1, f2, f3, f4, f5, f6, f7, f8, f9, f10, f11, x, f12, f13⟩ :=
          finish_fields u p (u.runSolver lib kb.1 kb.2)
        have hrs := runSolver_ref (s := u) (by simp only [hu, P.opts]; exact hs) lib kb.1 kb.2
        obtain ⟨r1, r2⟩ := finish_ref u p (Ref.answer u.opts lib kb.1 kb.2)
        rw [← hrs] at r1 r2
        have hpsz : p.size = s.size s.v := by rw [hps]; simp only [hu]; rw [P.v, P.size]
        have huo : u.opts = s.opts.prepareSolver := P.opts
        rw [hpsz, huo] at r1 r2
        have hap : (u.after lib p k kb).ap = s.ap := f3.trans P.ap
        have hv : (u.after lib p k kb).v = s.v := f2.trans P.v
        obtain ⟨c1, c2⟩ := current_step a2 (by show (u.finish _ _).opts.mfreeq = false; rw [f1]; exact hmt)
          (p := (Ref.result (s.size s.v) (Ref.answer s.opts.prepareSolver lib kb.1 kb.2)).1) r1
          (f9.trans P.cur) c
        cases hcur : Ref.currents s.ap s.v
            (Ref.result (s.size s.v) (Ref.answer s.opts.prepareSolver lib kb.1 kb.2)).1 c with
        | error e =>
          refine ⟨_, some e, c2 e (by rw [hap, hv]; exact hcur), linv _ a2, hv, hap, f4.trans P.size, f5.trans P.useKh, ?_, ?_⟩
          · show (u.finish _ _).opts.mfreeq = false
            rw [f1]; exact hmt
          · rfl
        | ok evs =>
          obtain ⟨w, w1, w2, w3⟩ := c1 evs (by rw [hap, hv]; exact hcur)
          subst w2
          refine ⟨_, none, w1, linv _ w3, hv, hap, f4.trans P.size, f5.trans P.useKh, ?_, rfl, ?_, rfl,
            r1, r2, rfl, f1.trans P.opts⟩
          · show (u.finish _ _).opts.mfreeq = false
            rw [f1]; exact hmt
          · show some (if u.opts.symq = true then k else kb.1) = _
            rw [huo]

/-! ### Matrix-free mode -/

theorem genVec_ready {s : AState} (r : Ready s) (hm : s.opts.mfreeq = true) (t : Vec) :
    (∀ x, s.v.genVec (s.size s.v) s.opts.normRow (s.ap.calls s.v) t = .ok x →
      ∃ h, s.handler = some h ∧
        s.genVec t = .ok ({ s with dphi := some x, handler := some { h with trial := some t } }, x) ∧
        Ready { s with dphi := some x, handler := some { h with trial := some t } }) ∧
    (∀ e, s.v.genVec (s.size s.v) s.opts.normRow (s.ap.calls s.v) t = .error e →
      s.genVec t = .error e) := by
  obtain ⟨h, h1, h2, h3, h4, h5⟩ := r.handler
  obtain ⟨d, d1, d2⟩ := r.dphi hm
  have key : s.genVec t = (do
      let x ← s.v.genVec (s.size s.v) s.opts.normRow (s.ap.calls s.v) t
      pure ({ s with dphi := some x, handler := some { h with trial := some t } }, x)) := by
    unfold AState.genVec
    rw [h1, d1]
    simp only [attr, py_pure, py_bind_ok, h2, hm, Bool.not_true, Bool.false_eq_true, if_false]
    rw [Ready.view h3 h4, d2]
  constructor
  · intro x hx
    refine ⟨h, h1, ?_, ?_⟩
    · rw [key, hx]; rfl
    · exact ⟨r.opts, ⟨_, rfl, h2, h3, h4, by simp [hm]⟩, r.phi0, r.cur,
        fun _ => ⟨x, rfl, genVec_size hx⟩, r.kern, r.bvec, r.nv⟩
  · intro e he
    rw [key, he]; rfl

/-- The state after the evaluations. -/
structure Tried (s t : AState) (last : Vec) : Prop where
  ready : Ready t
  opts : t.opts = s.opts
  v : t.v = s.v
  ap : t.ap = s.ap
  size : t.size = s.size
  useKh : t.useKh = s.useKh
  changed : t.changed = s.changed
  isPrepared : t.isPrepared = s.isPrepared
  cur : t.cur = s.cur
  phi0 : t.phi0 = s.phi0
  trial : ∃ h, t.handler = some h ∧ h.trial = some last

theorem setTrial_tried {s : AState} (r : Ready s) (hm : s.opts.mfreeq = true) (t : Vec) :
    Tried s (s.setTrial t) t := by
  obtain ⟨h, h1, h2, h3, h4, h5⟩ := r.handler
  have e : (s.setTrial t).handler = some { h with trial := some t } := by
    unfold AState.setTrial; rw [h1]; rfl
  exact ⟨⟨r.opts, ⟨_, e, h2, h3, h4, fun h => by
    rw [show (s.setTrial t).opts = s.opts from rfl, hm] at h; simp at h⟩, r.phi0, r.cur, r.dphi,
    r.kern, r.bvec, r.nv⟩, rfl, rfl, rfl, rfl, rfl, rfl, rfl, rfl, rfl, ⟨_, e, rfl⟩⟩

theorem runTrials_eq {s : AState} (r : Ready s) (hm : s.opts.mfreeq = true) (t : Vec)
    (ts : List Vec) :
    ∃ s', s.runTrials (t :: ts) = (s', (Ref.lastTrial (s.v.genVec (s.size s.v) s.opts.normRow
        (s.ap.calls s.v)) t ts).2) ∧
      Tried s s' (Ref.lastTrial (s.v.genVec (s.size s.v) s.opts.normRow (s.ap.calls s.v)) t ts).1 := by
  induction ts generalizing s t with
  | nil =>
    obtain ⟨g1, g2⟩ := genVec_ready r hm t
    cases hx : s.v.genVec (s.size s.v) s.opts.normRow (s.ap.calls s.v) t with
    | ok x =>
      obtain ⟨h, h1, h2, h3⟩ := g1 x hx
      refine ⟨_, ?_, ⟨h3, rfl, rfl, rfl, rfl, rfl, rfl, rfl, rfl, rfl, ⟨_, rfl, rfl⟩⟩⟩
      simp only [AState.runTrials, h2, Ref.lastTrial, hx, Except.isOk, Except.toBool]
    | error e =>
      refine ⟨s.setTrial t, ?_, setTrial_tried r hm t⟩
      simp only [AState.runTrials, g2 e hx, Ref.lastTrial, hx, Except.isOk, Except.toBool]
  | cons t' ts ih =>
    obtain ⟨g1, g2⟩ := genVec_ready r hm t
    cases hx : s.v.genVec (s.size s.v) s.opts.normRow (s.ap.calls s.v) t with
    | ok x =>
      obtain ⟨h, h1, h2, h3⟩ := g1 x hx
      obtain ⟨s', i1, i2⟩ := ih h3 hm t'
      refine ⟨s', ?_, ?_⟩
      · rw [AState.runTrials, h2]
        simp only [Ref.lastTrial, hx]
        exact i1
      · simp only [Ref.lastTrial, hx]
        exact ⟨i2.ready, i2.opts, i2.v, i2.ap, i2.size, i2.useKh, i2.changed, i2.isPrepared, i2.cur,
          i2.phi0, i2.trial⟩
    | error e =>
      refine ⟨s.setTrial t, ?_, ?_⟩
      · rw [AState.runTrials, g2 e hx]
        simp only [Ref.lastTrial, hx]
      · simp only [Ref.lastTrial, hx]
        exact setTrial_tried r hm t

/-- The effect of `solve_matrix_free`. -/
theorem solveFree_eq {s : AState} (r : Ready s) (hm : s.opts.mfreeq = true) {t : Vec}
    {ts : List Vec} (run : RootRun) (hr : run.trials = t :: ts) :
    ∃ u, s.solveFree run = .ok u ∧ Ready u ∧ u.opts = s.opts ∧ u.v = s.v ∧ u.ap = s.ap ∧
      u.size = s.size ∧ u.useKh = s.useKh ∧ u.cur = s.cur ∧
      (∃ h, u.handler = some h ∧ h.trial = some (Ref.lastTrial (s.v.genVec (s.size s.v)
        s.opts.normRow (s.ap.calls s.v)) t ts).1) ∧
      u.phi0 = some (Ref.resultFree (s.size s.v) (if (Ref.lastTrial (s.v.genVec (s.size s.v)
        s.opts.normRow (s.ap.calls s.v)) t ts).2 then run.out else none)).1 ∧
      u.success = some (Ref.resultFree (s.size s.v) (if (Ref.lastTrial (s.v.genVec (s.size s.v)
        s.opts.normRow (s.ap.calls s.v)) t ts).2 then run.out else none)).2 := by
  obtain ⟨s', i1, T⟩ := runTrials_eq r hm t ts
  obtain ⟨p, hp, hps⟩ := r.phi0
  set l := Ref.lastTrial (s.v.genVec (s.size s.v) s.opts.normRow (s.ap.calls s.v)) t ts
  have R := T.ready
  have hsz : s'.size s'.v = s.size s.v := by rw [T.size, T.v]
  have mk : ∀ (x : Vec) (sol : Option Vec) (ok : Bool), x.size = s.size s.v →
      Ready { s' with sol0 := sol, phi0 := some x, success := some ok } := fun x sol ok hx =>
    ⟨R.opts, R.handler, ⟨x, rfl, hx.trans hsz.symm⟩, R.cur, R.dphi, R.kern, R.bvec, R.nv⟩
  unfold AState.solveFree
  rw [hp, hr, i1]
  simp only [attr, py_pure, py_bind_ok]
  cases h : (if l.2 = true then run.out else none) with
  | none =>
    refine ⟨_, rfl, ?_, T.opts, T.v, T.ap, T.size, T.useKh, T.cur, T.trial, ?_, rfl⟩
    · exact mk (Vec.zeros p.size) s'.sol0 false hps
    · simp only [Ref.resultFree, hps]
  | some y =>
    obtain ⟨x, ok⟩ := y
    simp only [Ref.resultFree]
    rw [← hps]
    by_cases hx : x.size = p.size
    · rw [if_pos hx]
      refine ⟨_, rfl, ?_, T.opts, T.v, T.ap, T.size, T.useKh, T.cur, T.trial, ?_, ?_⟩
      · exact mk x (some x) ok (hx.trans hps)
      · simp [hx]
      · simp [hx]
    · rw [if_neg hx]
      refine ⟨_, rfl, ?_, T.opts, T.v, T.ap, T.size, T.useKh, T.cur, T.trial, ?_, ?_⟩
      · exact mk (Vec.zeros p.size) (some x) false hps
      · simp [hx]
      · simp [hx]

/-- What `solve` does in matrix-free mode after `prepare_kern`. -/
theorem free_after {s w : AState} (P : Prep s w) (hm : s.opts.mfreeq = true) {t : Vec}
    {ts : List Vec} (run : RootRun) (hr : run.trials = t :: ts) (c : Bool) :
    ∃ u e, (if c then stepS AState.genCurrent (stepS (fun s => s.solveFree run) (w, none))
        else stepS (fun s => s.solveFree run) (w, none)) = (u, e) ∧ LInv u ∧ u.v = s.v ∧ u.ap = s.ap ∧ u.size = s.size ∧
      u.useKh = s.useKh ∧ u.opts = s.opts.prepareSolver ∧
      (match Ref.solveFree s.opts.normRow s.v s.ap (s.size s.v) s.useKh t ts run.out c with
      | .ok r => e = none ∧ u.phi0 = some r.phi0 ∧ u.success = some r.success ∧ u.cur = some r.cur
      | .error x => e = some x) := by
  obtain ⟨o1, o2, o3, o4⟩ := prepareSolver_fields s.opts
  have hmw : w.opts.mfreeq = true := by rw [P.opts, o2, hm]
  obtain ⟨u, hu, R, u1, u2, u3, u4, u5, u6, ⟨h, uh, ut⟩, u7, u8⟩ := solveFree_eq P.ready hmw run hr
  rw [P.v, P.size, P.opts, o3, P.ap] at ut u7 u8
  have linv : ∀ u, Ready u → LInv u := fun u r _ _ => r
  rw [show stepS (fun s => s.solveFree run) (w, none) = (u, none) by
    simp only [stepS]; rw [hu]]
  unfold Ref.solveFree
  set l := Ref.lastTrial (s.v.genVec (s.size s.v) s.opts.normRow (s.ap.calls s.v)) t ts
  set q := Ref.resultFree (s.size s.v) (if l.2 = true then run.out else none)
  have huv := u2.trans P.v
  have hua := u3.trans P.ap
  have huk := u5.trans P.useKh
  have huc := u6.trans P.cur
  have huo := u1.trans P.opts
  cases c with
  | false =>
    exact ⟨u, none, rfl, linv u R, huv, hua, u4.trans P.size, huk, huo, rfl, u7, u8, huc⟩
  | true =>
    simp only [if_true, Ref.currents]
    obtain ⟨h', h1, h2, h3, h4, h5⟩ := R.handler
    have e : h = h' := by rw [uh] at h1; simpa using h1
    subst e
    have key : u.genCurrent = (do
        let evs ← s.ap.cur s.v (if s.useKh then l.1 else q.1)
        pure { u with cur := some evs }) := by
      unfold AState.genCurrent
      rw [u7, uh, huc]
      simp only [attr, py_pure, py_bind_ok, ut, Option.getD_some, List.nil_append]
      rw [Ready.view h3 h4, hua, huv, huk]
    simp only [stepS]
    rw [key]
    cases hcur : s.ap.cur s.v (if s.useKh then l.1 else q.1) with
    | error e =>
      exact ⟨u, some e, rfl, linv u R, huv, hua, u4.trans P.size, huk, huo, rfl⟩
    | ok evs =>
      refine ⟨_, none, rfl, linv _ ⟨R.opts, R.handler, R.phi0, ⟨_, rfl⟩, R.dphi, R.kern, R.bvec, R.nv⟩,
        huv, hua, u4.trans P.size, huk, huo, rfl, u7, u8, rfl⟩

/-- `solve` in matrix-free mode is the reference computation, whatever happened before. -/
theorem solve_free {s : AState} (hi : LInv s) (hm : s.opts.mfreeq = true) {t : Vec}
    {ts : List Vec} (lib : LinLib) (run : RootRun) (hr : run.trials = t :: ts) (c : Bool) :
    ∃ u e, s.solve lib run c = (u, e) ∧ LInv u ∧ u.v = s.v ∧ u.ap = s.ap ∧ u.size = s.size ∧
      u.useKh = s.useKh ∧ u.opts = s.opts.prepareSolver ∧
      (match Ref.solveFree s.opts.normRow s.v s.ap (s.size s.v) s.useKh t ts run.out c with
      | .ok r => e = none ∧ u.phi0 = some r.phi0 ∧ u.success = some r.success ∧ u.cur = some r.cur
      | .error x => e = some x) := by
  obtain ⟨w, hw, P⟩ := prepare_ok hi (fun h => by rw [hm] at h; simp at h)
  have h := free_after P hm run hr c
  unfold AState.solve
  simp only [hm, if_true]
  rw [show stepS AState.prepare (s, none) = (w, none) by simp only [stepS]; rw [hw]]
  exact h

/-! ### The invariant is kept -/

theorem stepS_keep {f : AState → Py AState} (hf : ∀ s s', Ready s → f s = .ok s' → Ready s')
    (s : AState) (hs : Ready s) (e : Option PyErr) : Ready (stepS f (s, e)).1 := by
  unfold stepS
  cases e with
  | some e => exact hs
  | none =>
    simp only
    cases h : f s with
    | ok t => exact hf s t hs h
    | error e => exact hs

theorem generate_keep {s t : AState} (r : Ready s) (hm : s.opts.mfreeq = false)
    (h : s.generate = .ok t) : Ready t := by
  obtain ⟨k, hk, -, -⟩ := r.kern hm
  have h' := h
  rw [generate_eq r hm hk] at h'
  obtain ⟨k', h1, -⟩ := bind_ok h'
  obtain ⟨g1, g2⟩ := generate_ready r hm hk h1
  rw [g1] at h
  simp only [Except.ok.injEq] at h
  rw [← h]; exact g2

theorem solveKern_keep {s t : AState} (r : Ready s) (hm : s.opts.mfreeq = false) {lib : LinLib}
    (h : s.solveKern lib = .ok t) : Ready t := by
  obtain ⟨k, hk, -, -⟩ := r.kern hm
  obtain ⟨b, hb, -⟩ := r.bvec hm
  obtain ⟨nv, hn, -⟩ := r.nv hm
  obtain ⟨p, hp, -⟩ := r.phi0
  have h' := h
  rw [solveKern_eq hk hb hn hp] at h'
  obtain ⟨kb, h1, -⟩ := bind_ok h'
  obtain ⟨g1, g2⟩ := after_ready r hm hk hb hn hp lib h1
  rw [g1] at h
  simp only [Except.ok.injEq] at h
  rw [← h]; exact g2

theorem genCurrent_keep {s t : AState} (r : Ready s) (h : s.genCurrent = .ok t) : Ready t := by
  unfold AState.genCurrent at h
  obtain ⟨p, -, h⟩ := bind_ok h
  obtain ⟨hd, -, h⟩ := bind_ok h
  obtain ⟨old, -, h⟩ := bind_ok h
  obtain ⟨evs, -, h⟩ := bind_ok h
  rw [← pure_ok h]
  exact ⟨r.opts, r.handler, r.phi0, ⟨_, rfl⟩, r.dphi, r.kern, r.bvec, r.nv⟩

theorem solveFree_keep {s t : AState} (r : Ready s) (hm : s.opts.mfreeq = true) {run : RootRun}
    (h : s.solveFree run = .ok t) : Ready t := by
  cases ht : run.trials with
  | cons x xs =>
    obtain ⟨u, hu, R, -⟩ := solveFree_eq r hm run ht
    rw [h] at hu
    simp only [Except.ok.injEq] at hu
    rw [hu]; exact R
  | nil =>
    unfold AState.solveFree at h
    obtain ⟨p, hp, h⟩ := bind_ok h
    have hp' : ∃ p', s.phi0 = some p' ∧ p'.size = s.size s.v := r.phi0
    obtain ⟨p', h1, h2⟩ := hp'
    rw [h1] at hp
    have := pure_ok hp
    subst this
    rw [ht] at h
    simp only [AState.runTrials, if_true] at h
    have mk : ∀ (x : Vec) (sol : Option Vec) (ok : Bool), x.size = s.size s.v →
        Ready { s with sol0 := sol, phi0 := some x, success := some ok } := fun x sol ok hx =>
      ⟨r.opts, r.handler, ⟨x, rfl, hx⟩, r.cur, r.dphi, r.kern, r.bvec, r.nv⟩
    split at h
    · rw [← pure_ok h]; exact mk (Vec.zeros p'.size) s.sol0 false h2
    · rename_i x ok _
      split at h
      · rename_i hx
        rw [← pure_ok h]; exact mk x (some x) ok (hx.trans h2)
      · rw [← pure_ok h]; exact mk (Vec.zeros p'.size) (some x) false h2

/-- What never changes in a step of `solve`. -/
structure Same (s t : AState) : Prop where
  v : t.v = s.v
  ap : t.ap = s.ap
  size : t.size = s.size
  useKh : t.useKh = s.useKh

theorem Ready.linv {s : AState} (r : Ready s) : LInv s := fun _ _ => r

theorem prepare_keep {s t : AState} (hi : LInv s) (h : s.prepare = .ok t) :
    Ready t ∧ t.opts.mfreeq = s.opts.mfreeq := by
  have hn : s.opts.mfreeq = false → ∃ nv, s.v.genNormVec (Vec.zeros (s.size s.v)) = .ok nv := by
    intro hm
    cases hn : s.v.genNormVec (Vec.zeros (s.size s.v)) with
    | ok nv => exact ⟨nv, rfl⟩
    | error e => rw [prepare_error hi hm hn] at h; simp at h
  obtain ⟨t', h1, P⟩ := prepare_ok hi hn
  rw [h1] at h
  simp only [Except.ok.injEq] at h
  subst h
  exact ⟨P.ready, by rw [P.opts]; exact (prepareSolver_fields s.opts).2.1⟩

theorem generate_opts {s t : AState} (h : s.generate = .ok t) : t.opts = s.opts := by
  unfold AState.generate at h
  obtain ⟨_, -, h⟩ := bind_ok h
  obtain ⟨hd, -, h⟩ := bind_ok h
  split at h
  · obtain ⟨_, -, h⟩ := bind_ok h
    obtain ⟨_, -, h⟩ := bind_ok h
    obtain ⟨_, -, h⟩ := bind_ok h
    rw [← pure_ok h]
  · obtain ⟨_, -, h⟩ := bind_ok h
    obtain ⟨_, -, h⟩ := bind_ok h
    rw [← pure_ok h]

/-- Any call of `solve` keeps the invariant. -/
theorem solve_inv {s : AState} (hi : LInv s) (lib : LinLib) (run : RootRun) (c : Bool) :
    LInv (s.solve lib run c).1 := by
  unfold AState.solve
  have cur : ∀ (u : AState) (e : Option PyErr), Ready u →
      LInv (if c = true then stepS AState.genCurrent (u, e) else (u, e)).1 := by
    intro u e hu
    split
    · exact (stepS_keep (fun _ _ => genCurrent_keep) u hu e).linv
    · exact hu.linv
  cases hp : s.prepare with
  | error e =>
    have : stepS AState.prepare (s, none) = (s, some e) := by simp only [stepS, hp]
    rw [this]
    simp only [stepS, ite_self]
    exact hi
  | ok t =>
    obtain ⟨R, hmt⟩ := prepare_keep hi hp
    have : stepS AState.prepare (s, none) = (t, none) := by simp only [stepS, hp]
    rw [this]
    simp only
    by_cases hm : s.opts.mfreeq = true
    · simp only [hm, if_true]
      cases hf : t.solveFree run with
      | error e =>
        rw [show stepS (fun s => s.solveFree run) (t, none) = (t, some e) by simp only [stepS, hf]]
        exact cur t _ R
      | ok u =>
        rw [show stepS (fun s => s.solveFree run) (t, none) = (u, none) by simp only [stepS, hf]]
        exact cur u _ (solveFree_keep R (hmt.trans hm) hf)
    · have hm : s.opts.mfreeq = false := by simpa using hm
      simp only [hm, Bool.false_eq_true, if_false]
      cases hf : t.generate with
      | error e =>
        rw [show stepS AState.generate (t, none) = (t, some e) by simp only [stepS, hf]]
        exact cur t _ R
      | ok u =>
        rw [show stepS AState.generate (t, none) = (u, none) by simp only [stepS, hf]]
        have Ru := generate_keep R (hmt.trans hm) hf
        have hmu : u.opts.mfreeq = false := by rw [generate_opts hf, hmt, hm]
        cases hg : u.solveKern lib with
        | error e =>
          rw [show stepS (fun s => s.solveKern lib) (u, none) = (u, some e) by simp only [stepS, hg]]
          exact cur u _ Ru
        | ok w =>
          rw [show stepS (fun s => s.solveKern lib) (u, none) = (w, none) by simp only [stepS, hg]]
          exact cur w _ (solveKern_keep Ru hmu hg)

theorem fresh_inv (o : Opts) (v : View) (ap : Appr) (size : View → Nat) (k : Bool) :
    LInv (AState.fresh o v ap size k) := by
  intro h
  simp [AState.fresh] at h

theorem op_inv {s : AState} (hi : LInv s) (o : AOp) (ho : o.plain = true) : LInv (s.op o) := by
  cases o with
  | symq b =>
    simp only [AState.op]
    split
    · exact hi
    · intro h; simp at h
  | normRow i =>
    intro h1 h2
    have r := hi h1 h2
    refine ⟨?_, r.handler, r.phi0, r.cur, r.dphi, r.kern, r.bvec, r.nv⟩
    exact (prepareSolver_normRow s.opts i).trans (by rw [r.opts]; rfl)
  | solmethod m =>
    intro h1 h2
    have r := hi h1 h2
    obtain ⟨e1, e2, -, -⟩ := prepareSolver_fields { s.opts with solmethod := m }
    have e1' : (s.op (.solmethod m)).opts.symq = s.opts.symq := e1
    have e2' : (s.op (.solmethod m)).opts.mfreeq = s.opts.mfreeq := e2
    have hr : (s.op (.solmethod m)).rows = s.rows := rows_eq e1' rfl rfl
    refine ⟨prepareSolver_idem _, ?_, r.phi0, r.cur, ?_, ?_, ?_, ?_⟩
    · rw [e2']; exact r.handler
    · rw [e2']; exact r.dphi
    · rw [e2', hr]; exact r.kern
    · rw [e2', hr]; exact r.bvec
    · rw [e2']; exact r.nv
  | mfreeq b => simp [AOp.plain] at ho
  | phi0Init p =>
    intro h1 h2
    have r := hi h1 h2
    refine ⟨?_, r.handler, r.phi0, r.cur, r.dphi, r.kern, r.bvec, r.nv⟩
    exact (prepareSolver_phi0Init s.opts p).trans (by rw [r.opts]; rfl)
  | params ap =>
    intro h1 h2
    have r := hi h1 h2
    exact ⟨r.opts, r.handler, r.phi0, r.cur, r.dphi, r.kern, r.bvec, r.nv⟩
  | states v => intro _ h; simp [AState.op] at h
  | silent v => simp [AOp.plain] at ho
  | solve lib run c => exact solve_inv hi lib run c

theorem ops_inv {s : AState} (hi : LInv s) (os : List AOp) (ho : ∀ o ∈ os, o.plain = true) :
    LInv (os.foldl AState.op s) := by
  induction os generalizing s with
  | nil => exact hi
  | cons o os ih =>
    exact ih (op_inv hi o (ho o (by simp))) (fun o' h => ho o' (by simp [h]))

/-! ### What the class fixes -/

theorem stepS_size {f : AState → Py AState}
    (hf : ∀ s t, f s = .ok t → t.size = s.size ∧ t.useKh = s.useKh) (r : AState × Option PyErr) :
    (stepS f r).1.size = r.1.size ∧ (stepS f r).1.useKh = r.1.useKh := by
  unfold stepS
  cases r.2 with
  | some e => exact ⟨rfl, rfl⟩
  | none =>
    simp only
    cases h : f r.1 with
    | ok t => exact hf r.1 t h
    | error e => exact ⟨rfl, rfl⟩

theorem prepare_size {s t : AState} (h : s.prepare = .ok t) :
    t.size = s.size ∧ t.useKh = s.useKh := by
  unfold AState.prepare at h
  split at h
  · unfold AState.clean at h
    obtain ⟨_, -, h⟩ := bind_ok h
    split at h
    · rw [← pure_ok h]; exact ⟨rfl, rfl⟩
    · obtain ⟨_, -, h⟩ := bind_ok h
      obtain ⟨_, -, h⟩ := bind_ok h
      rw [← pure_ok h]; exact ⟨rfl, rfl⟩
  · obtain ⟨u, hu, h⟩ := bind_ok h
    rw [← pure_ok h]
    unfold AState.prepareArrays at hu
    simp only at hu
    split at hu
    · rw [← pure_ok hu]; exact ⟨rfl, rfl⟩
    · obtain ⟨_, -, hu⟩ := bind_ok hu
      rw [← pure_ok hu]; exact ⟨rfl, rfl⟩

theorem generate_size {s t : AState} (h : s.generate = .ok t) :
    t.size = s.size ∧ t.useKh = s.useKh := by
  unfold AState.generate at h
  obtain ⟨_, -, h⟩ := bind_ok h
  obtain ⟨hd, -, h⟩ := bind_ok h
  split at h
  · obtain ⟨_, -, h⟩ := bind_ok h
    obtain ⟨_, -, h⟩ := bind_ok h
    obtain ⟨_, -, h⟩ := bind_ok h
    rw [← pure_ok h]; exact ⟨rfl, rfl⟩
  · obtain ⟨_, -, h⟩ := bind_ok h
    obtain ⟨_, -, h⟩ := bind_ok h
    rw [← pure_ok h]; exact ⟨rfl, rfl⟩

theorem solveKern_size {s t : AState} {lib : LinLib} (h : s.solveKern lib = .ok t) :
    t.size = s.size ∧ t.useKh = s.useKh := by
  unfold AState.solveKern at h
  obtain ⟨k0, -, h⟩ := bind_ok h
  obtain ⟨p, -, h⟩ := bind_ok h
  obtain ⟨kb, -, h⟩ := bind_ok h
  obtain ⟨-, -, -, f4, f5, -⟩ := finish_fields s p (s.runSolver lib kb.1 kb.2)
  simp only at h
  split at h
  · obtain ⟨_, -, h⟩ := bind_ok h
    obtain ⟨_, -, h⟩ := bind_ok h
    rw [← pure_ok h]; exact ⟨f4, f5⟩
  · rw [← pure_ok h]; exact ⟨f4, f5⟩

theorem runTrials_size (s : AState) (ts : List Vec) :
    (s.runTrials ts).1.size = s.size ∧ (s.runTrials ts).1.useKh = s.useKh := by
  induction ts generalizing s with
  | nil => exact ⟨rfl, rfl⟩
  | cons t ts ih =>
    rw [AState.runTrials]
    cases h : s.genVec t with
    | error e => exact ⟨rfl, rfl⟩
    | ok r =>
      have hr : r.1.size = s.size ∧ r.1.useKh = s.useKh := by
        unfold AState.genVec at h
        obtain ⟨_, -, h⟩ := bind_ok h
        split at h
        · simp at h
        · obtain ⟨_, -, h⟩ := bind_ok h
          obtain ⟨_, -, h⟩ := bind_ok h
          rw [← pure_ok h]; exact ⟨rfl, rfl⟩
      have := ih r.1
      exact ⟨this.1.trans hr.1, this.2.trans hr.2⟩

theorem solveFree_size {s t : AState} {run : RootRun} (h : s.solveFree run = .ok t) :
    t.size = s.size ∧ t.useKh = s.useKh := by
  unfold AState.solveFree at h
  obtain ⟨p, -, h⟩ := bind_ok h
  have := runTrials_size s run.trials
  simp only at h
  split at h
  · rw [← pure_ok h]; exact this
  · split at h
    · rw [← pure_ok h]; exact this
    · rw [← pure_ok h]; exact this

theorem genCurrent_size {s t : AState} (h : s.genCurrent = .ok t) :
    t.size = s.size ∧ t.useKh = s.useKh := by
  unfold AState.genCurrent at h
  obtain ⟨p, -, h⟩ := bind_ok h
  obtain ⟨hd, -, h⟩ := bind_ok h
  obtain ⟨old, -, h⟩ := bind_ok h
  obtain ⟨evs, -, h⟩ := bind_ok h
  rw [← pure_ok h]
  exact ⟨rfl, rfl⟩

theorem solve_size (s : AState) (lib : LinLib) (run : RootRun) (c : Bool) :
    (s.solve lib run c).1.size = s.size ∧ (s.solve lib run c).1.useKh = s.useKh := by
  unfold AState.solve
  have h1 := stepS_size (fun _ _ => prepare_size) (s, none)
  have h2 : ∀ r, (stepS (fun s => s.solveFree run) r).1.size = r.1.size ∧ _ :=
    fun r => stepS_size (fun _ _ => solveFree_size) r
  have h3 : ∀ r, (stepS (fun s => s.solveKern lib) r).1.size = r.1.size ∧ _ :=
    fun r => stepS_size (fun _ _ => solveKern_size) r
  have h4 := fun r => stepS_size (f := AState.generate) (fun _ _ => generate_size) r
  have h5 := fun r => stepS_size (f := AState.genCurrent) (fun _ _ => genCurrent_size) r
  simp only
  split <;> split <;> simp [h1, h2, h3, h4, h5]

theorem op_size (s : AState) (o : AOp) : (s.op o).size = s.size ∧ (s.op o).useKh = s.useKh := by
  cases o with
  | symq b => simp only [AState.op]; split <;> exact ⟨rfl, rfl⟩
  | solve lib run c => exact solve_size s lib run c
  | _ => exact ⟨rfl, rfl⟩

theorem ops_size (s : AState) (os : List AOp) :
    (os.foldl AState.op s).size = s.size ∧ (os.foldl AState.op s).useKh = s.useKh := by
  induction os generalizing s with
  | nil => exact ⟨rfl, rfl⟩
  | cons o os ih =>
    have h1 := ih (s.op o)
    have h2 := op_size s o
    exact ⟨h1.1.trans h2.1, h1.2.trans h2.2⟩

theorem Reached.inv {size : View → Nat} {k : Bool} {s : AState} (h : Reached size k s) :
    LInv s ∧ s.size = size ∧ s.useKh = k := by
  obtain ⟨o, v, ap, ops, ho, rfl⟩ := h
  exact ⟨ops_inv (fresh_inv o v ap size k) ops ho, ops_size _ ops⟩

end

end Verif
