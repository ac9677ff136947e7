import Verif.Lemmas.Neumann2Iter
import Verif.Props.Neumann2Kern

/-!
C27: in the 2vN approach the trace and the particle current are conserved at every iteration.
C39: what the iterations store and that they can be continued.
-/

namespace Verif

open Finset

noncomputable section

namespace VN2

/-- Histories of an approach object: new, restarted, `solve` with any arguments (also when it raises), parameters of the system
changed, the considered states changed, options changed. `symq` and `mfreeq` decide which arrays are made; they are changed only
after a restart. -/
inductive Hist (num : Num) : St → Prop where
  | new (o : Opts) (sys : Sys) : Hist num (.fresh o sys)
  | restart {s : St} : Hist num s → Hist num s.restart
  | solve {s : St} (restartq : Bool) (niter : Option Nat) : Hist num s → Hist num (s.solve num restartq niter).1
  | params {s : St} (sys : Sys) : Hist num s → sys.v = s.sys.v → Hist num { s with sys := sys }
  | states {s : St} (sys : Sys) : Hist num s → Hist num { s with sys := sys, changed := true }
  | opts {s : St} (o : Opts) : Hist num s → (o.symq = s.opts.symq ∧ o.mfreeq = s.opts.mfreeq) ∨ s.prepared = false →
      Hist num { s with opts := o }

/-! ### Invariants -/

theorem Inv.restart {s : St} (h : Inv s) : Inv s.restart :=
  ⟨fun _ => rfl, fun hp => by simp [St.restart] at hp, fun hp => by simp [St.restart] at hp, h.grid⟩

/-- `Inv`, and the zeroth iteration has been made. -/
def Inv2 (s : St) : Prop := Inv s ∧ s.zeroth = false

theorem inv_makeGrid {s t : St} (h : Inv s) (e : (if s.zeroth then s.makeGrid else pure s) = .ok t) : Inv t := by
  by_cases hz : s.zeroth = true
  · rw [if_pos hz] at e
    rcases makeGrid_inv e (h.zeroth hz) with rfl | ⟨n, _, rfl⟩
    · exact h
    · exact ⟨h.zeroth, h.fits, h.mfree, Or.inr ⟨n, rfl⟩⟩
  · rw [if_neg hz] at e
    simp only [py_pure, Except.ok.injEq] at e
    rw [← e]; exact h

theorem inv_extend {s t : St} (h : Inv s) (e : (if s.zeroth then s.extend else pure s) = .ok t) : Inv t := by
  by_cases hz : s.zeroth = true
  · rw [if_pos hz] at e
    obtain ⟨x, rfl⟩ := extend_inv e
    exact ⟨h.zeroth, h.fits, h.mfree, h.grid⟩
  · rw [if_neg hz] at e
    simp only [py_pure, Except.ok.injEq] at e
    rw [← e]; exact h

theorem inv_prepareKern {s t : St} (h : Inv s) (e : s.prepareKern = .ok t) : Inv t := by
  obtain ⟨a, p⟩ := prepareKern_inv h e
  refine ⟨?_, ?_, ?_, ?_⟩
  · rw [p.zeroth, p.niter]; exact h.zeroth
  · intro _ _ a' k ha hk
    rw [p.arrs] at ha
    obtain rfl := Option.some.inj ha
    have := p.size k hk
    rw [p.sys]
    unfold kernRows at this ⊢
    rw [p.symq]
    exact this
  · intro _ _ hm a' ha
    rw [p.arrs] at ha
    obtain rfl := Option.some.inj ha
    exact p.mfree (by rw [← p.mfreeq]; exact hm)
  · rw [p.grid, p.dband]; exact h.grid

theorem inv_iterate {num : Num} {s t : St} (h : Inv s) (e : s.iterate num = .ok t) : Inv2 t := by
  obtain ⟨d, i, rfl⟩ := iterate_inv e
  exact ⟨⟨fun hz => by simp at hz, h.fits, h.mfree, h.grid⟩, rfl⟩

theorem inv_integrate {s t : St} (h : Inv2 s) (e : s.integrate = .ok t) : Inv2 t := by
  rcases ha : s.arrs with _ | a
  · exfalso
    unfold St.integrate at e
    obtain ⟨_, _, e⟩ := bind_inv e
    obtain ⟨_, _, e⟩ := bind_inv e
    obtain ⟨a, h', e⟩ := bind_inv e
    rw [attr_inv h'] at ha
    simp at ha
  · obtain ⟨p, pp, epp, rfl⟩ := integrate_inv ha e
    refine ⟨⟨fun hz => ?_, ?_, ?_, h.1.grid⟩, h.2⟩
    · simp only at hz; rw [h.2] at hz; simp at hz
    · intro hp hc a' k ha' hk
      obtain rfl := Option.some.inj ha'
      exact h.1.fits hp hc a k ha hk
    · intro hp hc hm a' ha'
      obtain rfl := Option.some.inj ha'
      exact h.1.mfree hp hc hm a ha

theorem inv_genKern {s t : St} (h : Inv2 s) (e : s.genKern = .ok t) : Inv2 t := by
  rcases ha : s.arrs with _ | a
  · exfalso
    unfold St.genKern at e
    obtain ⟨a, h', e⟩ := bind_inv e
    rw [attr_inv h'] at ha
    simp at ha
  · obtain ⟨k, m, hk, hm, rfl⟩ := genKern_inv ha e
    refine ⟨⟨fun hz => ?_, ?_, ?_, h.1.grid⟩, h.2⟩
    · simp only at hz; rw [h.2] at hz; simp at hz
    · intro hp hc a' k' ha' hk'
      obtain rfl := Option.some.inj ha'
      obtain rfl := Option.some.inj hk'
      have := h.1.fits hp hc a k ha hk
      obtain ⟨r1, r2⟩ : m.rows = k.1.rows ∧ m.cols = k.1.cols := by
        unfold genKern at hm
        obtain ⟨sh, _, hm⟩ := bind_inv hm
        obtain ⟨ops, _, hm⟩ := bind_inv hm
        exact runs_size hm
      simp only
      rw [r1, r2]
      exact this
    · intro hp hc hm a' ha'
      have := h.1.mfree hp hc hm a ha
      rw [hk] at this
      simp at this

theorem inv_solveKern {num : Num} {s t : St} (h : Inv2 s) (e : s.solveKern num = .ok t) : Inv2 t := by
  rcases ha : s.arrs with _ | a
  · exfalso
    unfold St.solveKern at e
    obtain ⟨a, h', e⟩ := bind_inv e
    rw [attr_inv h'] at ha
    simp at ha
  · rcases hk : a.kern with _ | k
    · exfalso
      unfold St.solveKern at e
      obtain ⟨a', h', e⟩ := bind_inv e
      rw [attr_inv h'] at ha
      obtain rfl := Option.some.inj ha
      obtain ⟨k, h', e⟩ := bind_inv e
      rw [attr_inv h'] at hk
      simp at hk
    · obtain ⟨m, b, x, φ, y, q, rfl, r1, r2, _, r3, _⟩ := solveKern_inv ha hk e
      refine ⟨⟨fun hz => ?_, ?_, ?_, h.1.grid⟩, h.2⟩
      · simp only at hz; rw [h.2] at hz; simp at hz
      · intro hp hc a' k' ha' hk'
        obtain rfl := Option.some.inj ha'
        obtain rfl := Option.some.inj hk'
        have := h.1.fits hp hc a k ha hk
        simp only
        rw [r1, r2, r3]
        exact this
      · intro hp hc hm a' ha'
        have := h.1.mfree hp hc hm a ha
        rw [hk] at this
        simp at this

theorem inv_genCurrent {s t : St} (h : Inv2 s) (e : s.genCurrent = .ok t) : Inv2 t := by
  rcases ha : s.arrs with _ | a
  · exfalso
    unfold St.genCurrent at e
    obtain ⟨a, h', e⟩ := bind_inv e
    rw [attr_inv h'] at ha
    simp at ha
  · obtain ⟨evs, _, rfl⟩ := genCurrent_inv ha e
    refine ⟨⟨fun hz => ?_, ?_, ?_, h.1.grid⟩, h.2⟩
    · simp only at hz; rw [h.2] at hz; simp at hz
    · intro hp hc a' k ha' hk
      obtain rfl := Option.some.inj ha'
      exact h.1.fits hp hc a k ha hk
    · intro hp hc hm a' ha'
      obtain rfl := Option.some.inj ha'
      exact h.1.mfree hp hc hm a ha

theorem inv_record {s t : St} (h : Inv2 s) (e : s.record = .ok t) : Inv2 t := by
  rcases ha : s.arrs with _ | a
  · exfalso
    unfold St.record at e
    obtain ⟨a, h', e⟩ := bind_inv e
    rw [attr_inv h'] at ha
    simp at ha
  · obtain rfl := record_inv ha e
    exact ⟨⟨h.1.zeroth, h.1.fits, h.1.mfree, h.1.grid⟩, h.2⟩

/-- `P` holds if nothing was raised, `Inv` always. -/
def Res (P : St → Prop) (r : St × Option PyErr) : Prop := (r.2 = none → P r.1) ∧ Inv r.1

theorem res_step {P Q : St → Prop} {f : St → Py St} (hf : ∀ s t, P s → f s = .ok t → Q t) (hQ : ∀ s, Q s → Inv s)
    {r : St × Option PyErr} (h : Res P r) : Res Q (step f r) := by
  obtain ⟨s, e⟩ := r
  rcases e with _ | e
  · rcases hs : f s with x | t
    · rw [step_error hs]
      exact ⟨fun h' => by simp at h', h.2⟩
    · rw [step_ok hs]
      have := hf s t (h.1 rfl) hs
      exact ⟨fun _ => this, hQ t this⟩
  · exact ⟨fun h' => by simp [step] at h', h.2⟩

theorem inv_iteration (num : Num) {r : St × Option PyErr} (h : Inv r.1) : Inv (St.iteration num r).1 := by
  have i1 : ∀ s, Inv s → Inv s := fun _ h => h
  have i2 : ∀ s, Inv2 s → Inv s := fun _ h => h.1
  have h0 : Res Inv r := ⟨fun _ => h, h⟩
  have h1 := res_step (fun _ _ h e => inv_makeGrid h e) i1 h0
  have h2 := res_step (fun _ _ h e => inv_extend h e) i1 h1
  have h3 := res_step (fun _ _ h e => inv_prepareKern h e) i1 h2
  have h4 := res_step (Q := Inv2) (f := St.iterate num) (fun _ _ h e => inv_iterate h e) i2 h3
  have h5 := res_step (fun _ _ h e => inv_integrate h e) i2 h4
  have h6 := res_step (fun _ _ h e => inv_genKern h e) i2 h5
  have h7 := res_step (f := St.solveKern num) (fun _ _ h e => inv_solveKern h e) i2 h6
  have h8 := res_step (fun _ _ h e => inv_genCurrent h e) i2 h7
  have h9 := res_step (fun _ _ h e => inv_record h e) i2 h8
  exact h9.2

theorem inv_iterations (num : Num) (n : Nat) {r : St × Option PyErr} (h : Inv r.1) :
    Inv ((St.iteration num)^[n] r).1 := by
  induction n generalizing r with
  | zero => exact h
  | succ n ih => rw [Function.iterate_succ_apply]; exact ih (inv_iteration num h)

theorem Hist.inv {num : Num} {s : St} (h : Hist num s) : Inv s := by
  induction h with
  | new o sys => exact ⟨fun _ => rfl, fun hp => by simp [St.fresh] at hp, fun hp => by simp [St.fresh] at hp, Or.inl ⟨rfl, rfl⟩⟩
  | restart _ ih => exact ih.restart
  | @solve s r n _ ih =>
    have hi : Inv (if r then s.restart else s) := by
      split
      · exact ih.restart
      · exact ih
    unfold St.solve
    rcases n with _ | n
    · exact hi
    · exact inv_iterations num n hi
  | params sys _ hv ih =>
    refine ⟨ih.zeroth, ?_, ih.mfree, ih.grid⟩
    intro hp hc a k ha hk
    simp only
    rw [hv]
    exact ih.fits hp hc a k ha hk
  | states sys _ ih =>
    exact ⟨ih.zeroth, fun _ hc => by simp at hc, fun _ hc => by simp at hc, ih.grid⟩
  | @opts s o _ ho ih =>
    rcases ho with ⟨h1, h2⟩ | hp
    · refine ⟨ih.zeroth, ?_, ?_, ih.grid⟩
      · intro hp hc a k ha hk
        have := ih.fits hp hc a k ha hk
        unfold kernRows at this ⊢
        simp only [h1]
        exact this
      · intro hp hc hm a ha
        exact ih.mfree hp hc (by rw [← h2]; exact hm) a ha
    · exact ⟨ih.zeroth, fun hp' => by simp [hp] at hp', fun hp' => by simp [hp] at hp', ih.grid⟩

/-! ### One iteration -/

/-- A solution that is reported as a success is what the routine returned. -/
theorem solver_finish {n : Nat} {old : Option CVec} {r : Option (Option CVec)} {x : Option CVec} {φ : CVec}
    (hr : r = x.map some) (hφ : φ = (finish n old r).2.1) (hy : some (finish n old r).2.2 = some true) : x = some φ := by
  subst hr
  rcases x with _ | x
  · simp [finish] at hy
  · simp only [Option.map_some, finish] at hφ hy
    by_cases h : x.size = n
    · rw [if_pos h] at hφ
      rw [hφ]
    · rw [if_neg h] at hy
      simp at hy

/-- What a completed iteration does. -/
theorem iteration_facts {num : Num} {s s' : St} (hs : Inv s) (e : St.iteration num (s, none) = (s', none)) :
    ∃ (a : Arrs) (K0 Kg K : CMat) (b nv : CVec) (evs : List CEv) (q : CMat × CVec),
      s'.arrs = some a ∧ a.kern = some (K, b, nv) ∧ (∀ r j, K0.val r j = 0) ∧ K0.rows = kernRows s.opts s.sys.v ∧
      genKern s.sys.v s.sys.E s.sys.T a.pp K0 = .ok Kg ∧
      (∀ r j, r < s.sys.v.ndm0 → K.val r j = Kg.val r j) ∧
      a.phi1 = dotP s.sys.v a.pp a.phi0 ∧ a.cur = evs ∧
      genCurrent s.sys.v s.sys.T (dotP s.sys.v a.pp a.phi0) (dotP s.sys.v a.epp a.phi0) = .ok evs ∧
      s'.sys = s.sys ∧ s'.niter = s.niter + 1 ∧ s'.iters = s.iters ++ [⟨s'.niter, a.phi0, a.phi1, a.cur⟩] ∧
      s'.asked = s.asked ++ [q] ∧ s'.zeroth = false ∧ (s.zeroth = false → s'.grid = s.grid ∧ s'.ext = s.ext) ∧
      s.opts.mfreeq = false ∧ normVec s.sys.v = .ok nv ∧
      (∃ r0, pyIdx (kernRows s.opts s.sys.v) (if s.opts.symq then s.opts.normRow else -1) = .ok r0 ∧
        q.1.rows = kernRows s.opts s.sys.v ∧ q.1.cols = s.sys.v.ndm0 ∧ q.2.size = kernRows s.opts s.sys.v ∧
        (∀ r j, q.1.val r j = if r = r0 then nv.val j else Kg.val r j) ∧
        ∀ j, q.2.val j = if j = r0 then 1 else 0) ∧
      (s'.success = some true → s'.opts.solmethod = some "solve" → num.solve q.1 q.2 = some a.phi0) ∧
      (s'.success = some true → s'.opts.solmethod = some "lsqr" → num.lstsq q.1 q.2 = some a.phi0) := by
  obtain ⟨s1, s2, s3, s4, s5, s6, s7, s8, e1, e2, e3, e4, e5, e6, e7, e8, e9⟩ := iteration_inv e
  have i1 := inv_makeGrid hs e1
  have i2 := inv_extend i1 e2
  obtain ⟨a3, p⟩ := prepareKern_inv i2 e3
  obtain ⟨d, iv, h4⟩ := iterate_inv e4
  have ha4 : s4.arrs = some a3 := by rw [h4]; exact p.arrs
  obtain ⟨p5, pp, epp, h5⟩ := integrate_inv ha4 e5
  have ha5 : s5.arrs = some { a3 with pp := pp, epp := epp } := by rw [h5]
  obtain ⟨k, m, hk, hm, h6⟩ := genKern_inv ha5 e6
  have ha6 : s6.arrs = some { a3 with pp := pp, epp := epp, kern := some (m, k.2) } := by rw [h6]
  obtain ⟨m7, b7, x7, φ7, z7, q7, h7, r1, r2, hval, _, r3, r4, g3, g4, g5, g6, g7, g8, g9, g10, g11⟩ :=
    solveKern_inv ha6 rfl e7
  have ha7 : s7.arrs = some { a3 with pp := pp, epp := epp, kern := some (m7, b7, k.2.2), phi0 := φ7 } := by rw [h7]
  obtain ⟨evs, hevs, h8⟩ := genCurrent_inv ha7 e8
  have ha8 : s8.arrs = some { a3 with pp := pp, epp := epp, kern := some (m7, b7, k.2.2), phi0 := φ7,
                                      phi1 := dotP s7.sys.v pp φ7, hphi1 := dotP s7.sys.v epp φ7,
                                      cur := a3.cur ++ evs } := by rw [h8]
  have h9 := record_inv ha8 e9
  -- the system stays
  have f1 : s1.sys = s.sys ∧ s1.niter = s.niter ∧ s1.iters = s.iters ∧ s1.asked = s.asked ∧ s1.opts = s.opts ∧
      (s.zeroth = false → s1.zeroth = false ∧ s1.grid = s.grid ∧ s1.ext = s.ext) := by
    by_cases hz : s.zeroth = true
    · rw [if_pos hz] at e1
      rcases makeGrid_inv e1 (hs.zeroth hz) with rfl | ⟨n, _, rfl⟩
      · exact ⟨rfl, rfl, rfl, rfl, rfl, fun h => ⟨h, rfl, rfl⟩⟩
      · exact ⟨rfl, rfl, rfl, rfl, rfl, fun h => by rw [h] at hz; simp at hz⟩
    · rw [if_neg hz] at e1
      simp only [py_pure, Except.ok.injEq] at e1
      subst e1
      exact ⟨rfl, rfl, rfl, rfl, rfl, fun h => ⟨h, rfl, rfl⟩⟩
  have f2 : s2.sys = s1.sys ∧ s2.niter = s1.niter ∧ s2.iters = s1.iters ∧ s2.asked = s1.asked ∧ s2.opts = s1.opts ∧
      (s1.zeroth = false → s2.zeroth = false ∧ s2.grid = s1.grid ∧ s2.ext = s1.ext) := by
    by_cases hz : s1.zeroth = true
    · rw [if_pos hz] at e2
      obtain ⟨x, rfl⟩ := extend_inv e2
      exact ⟨rfl, rfl, rfl, rfl, rfl, fun h => by rw [h] at hz; simp at hz⟩
    · rw [if_neg hz] at e2
      simp only [py_pure, Except.ok.injEq] at e2
      subst e2
      exact ⟨rfl, rfl, rfl, rfl, rfl, fun h => ⟨h, rfl, rfl⟩⟩
  have y3 : s3.sys = s.sys := by rw [p.sys, f2.1, f1.1]
  have y4 : s4.sys = s.sys := by rw [h4]; exact y3
  have y5 : s5.sys = s.sys := by rw [h5]; exact y4
  have y6 : s6.sys = s.sys := by rw [h6]; exact y5
  have y7 : s7.sys = s.sys := by rw [h7]; exact y6
  have y8 : s8.sys = s.sys := by rw [h8]; exact y7
  have y9 : s'.sys = s.sys := by rw [h9]; exact y8
  have o6 : s6.opts.symq = s.opts.symq := by
    rw [h6]; simp only; rw [h5]; simp only; rw [h4]; simp only; rw [p.symq, f2.2.2.2.2.1, f1.2.2.2.2.1]
  have hsize := p.size k hk
  have hsize' : k.1.rows = kernRows s.opts s.sys.v := by rw [hsize.1, f2.2.2.2.2.1, f1.2.2.2.2.1, f2.1, f1.1]
  have hmrows : m.rows = k.1.rows := by
    unfold genKern at hm
    obtain ⟨sh, _, hm⟩ := bind_inv hm
    obtain ⟨ops, _, hm⟩ := bind_inv hm
    exact (runs_size hm).1
  rw [y5] at hm
  rw [y7] at hevs
  have hn9 : s'.niter = s.niter + 1 := by
    rw [h9]; simp only; rw [h8]; simp only; rw [h7]; simp only; rw [h6]; simp only; rw [h5]; simp only; rw [h4]; simp only
    rw [p.niter, f2.2.1, f1.2.1]
  have ha9 : s'.arrs = some { a3 with pp := pp, epp := epp, kern := some (m7, b7, k.2.2), phi0 := φ7,
                                      phi1 := dotP s7.sys.v pp φ7, hphi1 := dotP s7.sys.v epp φ7,
                                      cur := a3.cur ++ evs } := by rw [h9]; exact ha8
  refine ⟨{ a3 with pp := pp, epp := epp, kern := some (m7, b7, k.2.2), phi0 := φ7,
                    phi1 := dotP s7.sys.v pp φ7, hphi1 := dotP s7.sys.v epp φ7,
                    cur := a3.cur ++ evs }, k.1, m, m7, b7, k.2.2, evs, q7, ha9, rfl, p.zero k hk, hsize', hm, ?_, ?_, ?_, hevs, y9,
    hn9, ?_, ?_, ?_, ?_, ?_, ?_, ?_, ?_, ?_⟩
  · intro r j hr
    refine hval r j fun hq => ?_
    simp only at hq ⊢
    rw [hmrows, hsize', kernRows, ← o6, hq]
    simp only [Bool.false_eq_true, if_false]
    omega
  · simp only; rw [y7]
  · simp only; rw [p.cur]; simp
  · have hn8 : s8.niter = s'.niter := by rw [h9]
    have hi8 : s8.iters = s.iters := by
      rw [h8]; simp only; rw [h7]; simp only; rw [h6]; simp only; rw [h5]; simp only; rw [h4]; simp only
      rw [p.iters, f2.2.2.1, f1.2.2.1]
    rw [h9]
    simp only
    rw [hi8]
  · rw [h9]; simp only; rw [h8]; simp only; rw [h7]; simp only; rw [h6]; simp only; rw [h5]; simp only; rw [h4]; simp only
    rw [p.asked, f2.2.2.2.1, f1.2.2.2.1]
  · rw [h9]; simp only; rw [h8]; simp only; rw [h7]; simp only; rw [h6]; simp only; rw [h5]; simp only; rw [h4]
  · intro hz
    obtain ⟨g1, g2, g3⟩ := f1.2.2.2.2.2 hz
    obtain ⟨g4, g5, g6⟩ := f2.2.2.2.2.2 g1
    have hg : s'.grid = s3.grid ∧ s'.ext = s3.ext := by
      rw [h9]; simp only; rw [h8]; simp only; rw [h7]; simp only; rw [h6]; simp only; rw [h5]; simp only; rw [h4]
      exact ⟨rfl, rfl⟩
    rw [hg.1, hg.2, p.grid, p.ext, g5, g6, g2, g3]
    exact ⟨rfl, rfl⟩
  · by_contra hm'
    have hmf := p.mfree (by rw [f2.2.2.2.2.1, f1.2.2.2.2.1]; simpa using hm')
    have : a3.kern = some k := hk
    rw [hmf] at this
    simp at this
  · rw [hsize.2.2.2.symm, f2.1, f1.1]
  · have o6' : s6.opts.normRow = s.opts.normRow := by
      rw [h6]; simp only; rw [h5]; simp only; rw [h4]; simp only; rw [p.normRow, f2.2.2.2.2.1, f1.2.2.2.2.1]
    have hb : k.2.1.size = kernRows s.opts s.sys.v := by rw [hsize.2.2.1, f2.2.2.2.2.1, f1.2.2.2.2.1, f2.1, f1.1]
    have hmcols : m.cols = s.sys.v.ndm0 := by
      unfold genKern at hm
      obtain ⟨sh, _, hm⟩ := bind_inv hm
      obtain ⟨ops, _, hm⟩ := bind_inv hm
      rw [(runs_size hm).2, hsize.2.1, f2.1, f1.1]
    simp only [o6, o6', hmrows, hsize', hb] at g3 g4 g5 g7
    have : r3 = r4 := by
      rw [g3] at g4
      exact Except.ok.inj g4
    subst this
    refine ⟨r3, g3, g5, by rw [g6]; exact hmcols, g7, g8, ?_⟩
    intro j
    rw [g9, p.bzero k hk]
  · have hs9 : s'.success = z7 ∧ s'.opts = s6.opts := by
      rw [h9]; simp only; rw [h8]; simp only; rw [h7]; exact ⟨rfl, rfl⟩
    rw [hs9.1, hs9.2, g11]
    intro hy hm'
    refine (solver_finish ?_ g10 hy).trans rfl
    unfold St.runSolver
    rw [if_pos hm']
  · have hs9 : s'.success = z7 ∧ s'.opts = s6.opts := by
      rw [h9]; simp only; rw [h8]; simp only; rw [h7]; exact ⟨rfl, rfl⟩
    rw [hs9.1, hs9.2, g11]
    intro hy hm'
    refine (solver_finish ?_ g10 hy).trans rfl
    unfold St.runSolver
    rw [if_neg (by rw [hm']; simp), if_pos hm']

/-! ### C27 -/

/-- C27: for all first order elements the kernel is generated without an exception and in each of its columns the rows of the
diagonal elements sum to zero. -/
theorem c27_trace {v : View} {lab ix1 : Nat → Nat → Nat → Nat} (h : VOkC v lab ix1) (E : Nat → ℝ)
    (T : Nat → Nat → Nat → ℂ) (P : C3) :
    ∃ K, genKern v E T P (CMat.zeros v.ndm0 v.ndm0) = .ok K ∧
      ∀ j, j < v.ndm0 → ∑ i ∈ range v.npauli, K.val i j = 0 := by
  obtain ⟨K, e⟩ := genKern_ok h E T P (K := CMat.zeros v.ndm0 v.ndm0) le_rfl le_rfl
  exact ⟨K, e, fun j hj => trace_of_run h e (fun _ _ => rfl) hj⟩

/-- C27: the lead currents sum to zero in every stationary state that is a Hermitian matrix, for all first order elements. -/
theorem c27_current {v : View} {lab ix1 : Nat → Nat → Nat → Nat} (h : VOkC v lab ix1) (E : Nat → ℝ)
    {T : Nat → Nat → Nat → ℂ} (hT : HermT T) (P Q : C3) {K : CMat}
    (e : genKern v E T P (CMat.zeros v.ndm0 v.ndm0) = .ok K) {φ : CVec} (hφ : HermV v lab φ.val)
    (hs : Stationary v K φ.val) :
    ∃ evs, genCurrent v T (dotP v P φ) (dotP v Q φ) = .ok evs ∧ ∑ l ∈ range v.nleads, current evs l = 0 := by
  obtain ⟨evs, hevs, _⟩ := genCurrent_ok h T (dotP v P φ) (dotP v Q φ)
  exact ⟨evs, hevs, current_of_run h e (fun _ _ => rfl) hT hφ
    (fun i hi => hs i (lt_of_lt_of_le hi h.np_le)) hevs⟩

/-- A stationary state in which a current flows from one lead to the other: four states, first order elements that differ in
sign between the leads. -/
example : ∃ (v : View) (lab ix1 : Nat → Nat → Nat → Nat) (T : Nat → Nat → Nat → ℂ) (P : C3) (K : CMat) (φ : CVec),
    VOkC v lab ix1 ∧ HermT T ∧ genKern v (fun _ => 0) T P (CMat.zeros v.ndm0 v.ndm0) = .ok K ∧ HermV v lab φ.val ∧
    Stationary v K φ.val ∧ dotP v P φ 0 0 = Complex.I ∧ dotP v P φ 1 0 = -Complex.I := by
  obtain ⟨d, _, hv, hs, hp, hn⟩ := viewC_example 2
  obtain ⟨P, hP⟩ : ∃ P : C3, P = fun l _ j => if j = 0 then (if l = 0 then Complex.I else -Complex.I) else 0 := ⟨_, rfl⟩
  obtain ⟨K, e⟩ := genKern_ok hv (fun _ => 0) (fun _ _ _ => 1) P (K := CMat.zeros (d.view 2).ndm0 (d.view 2).ndm0) le_rfl le_rfl
  have hn' : (d.view 2).ndm0 = 6 := hn
  have hl : (d.view 2).nleads = 2 := rfl
  have dot : ∀ l cb, dotP (d.view 2) P ⟨(d.view 2).ndm0, fun _ => 1⟩ l cb = if l = 0 then Complex.I else -Complex.I := by
    intro l cb
    unfold dotP
    rw [hP, hn']
    simp [Finset.sum_range_succ]
  refine ⟨d.view 2, d.lab0, d.lab1, fun _ _ _ => 1, P, K, ⟨(d.view 2).ndm0, fun _ => 1⟩, hv, fun _ _ _ => by simp, e,
    fun _ _ _ _ _ => by simp, ?_, by rw [dot]; simp, by rw [dot]; simp⟩
  intro i hi
  obtain ⟨c, b, bp, hb, hbp, rfl⟩ := hv.lab_surj i hi
  have := genKern_act hv e (fun _ _ => rfl) (φ := fun _ => 1) (ψ := fun _ => 1) (fun _ _ _ _ _ => by simp) hb hbp
  rw [this]
  simp only [dot, hl]
  simp [Finset.sum_range_succ]

/-- C27: if there is only one normalised stationary state, it is a Hermitian matrix. -/
theorem c27_hermitian {v : View} {lab ix1 : Nat → Nat → Nat → Nat} (h : VOkC v lab ix1) (E : Nat → ℝ)
    {T : Nat → Nat → Nat → ℂ} (hT : HermT T) (P : C3) {K : CMat}
    (e : genKern v E T P (CMat.zeros v.ndm0 v.ndm0) = .ok K) {φ : Nat → ℂ} (hs : Stationary v K φ)
    (hn : ∑ i ∈ range v.npauli, φ i = 1)
    (hu : ∀ ψ : Nat → ℂ, Stationary v K ψ → ∑ i ∈ range v.npauli, ψ i = 1 → ∀ i, i < v.ndm0 → ψ i = φ i) :
    HermV v lab φ := by
  obtain ⟨ψ, hψ⟩ := adjoint_exists h φ
  have h1 := adjoint_stationary h e (fun _ _ => rfl) hT hψ hs
  have h2 : ∑ i ∈ range v.npauli, ψ i = 1 := by
    have : ∑ i ∈ range v.npauli, ψ i = (starRingEnd ℂ) (∑ i ∈ range v.npauli, φ i) := by
      rw [h.sum_pop, h.sum_pop, map_sum]
      refine sum_congr rfl fun q _ => ?_
      rw [map_sum]
      exact sum_congr rfl fun b hb => hψ q b b (h.mem_R.1 hb) (h.mem_R.1 hb)
    rw [this, hn, map_one]
  intro c b bp hb hbp
  rw [← hu ψ h1 h2 _ (h.lab_lt c bp b hbp hb), hψ c bp b hbp hb]

/-- One single particle state: the normalised stationary state is unique. -/
example : ∃ (v : View) (lab ix1 : Nat → Nat → Nat → Nat) (T : Nat → Nat → Nat → ℂ) (P : C3) (K : CMat) (φ : Nat → ℂ),
    VOkC v lab ix1 ∧ HermT T ∧ genKern v (fun b => b) T P (CMat.zeros v.ndm0 v.ndm0) = .ok K ∧ Stationary v K φ ∧
    ∑ i ∈ range v.npauli, φ i = 1 ∧
    ∀ ψ : Nat → ℂ, Stationary v K ψ → ∑ i ∈ range v.npauli, ψ i = 1 → ∀ i, i < v.ndm0 → ψ i = φ i := by
  obtain ⟨d, _, hv, hs, hp, hn, hc, _⟩ := viewC_example1 1
  have r0 : (d.view 1).row 0 = [0] := by simp [View.row, DM.view, hs]
  have r1 : (d.view 1).row 1 = [1] := by simp [View.row, DM.view, hs]
  have r2 : (d.view 1).row 2 = [] := by simp [View.row, DM.view, hs]
  have R0 : (d.view 1).R 0 = {0} := by simp [View.R, r0]
  have R1 : (d.view 1).R 1 = {1} := by simp [View.R, r1]
  have R2 : (d.view 1).R 2 = ∅ := by simp [View.R, r2]
  have L0 : (d.view 1).Lo 0 = ∅ := by simp [View.Lo, View.low]
  have L1 : (d.view 1).Lo 1 = {0} := by simp [View.Lo, View.low, r0]
  have hn' : (d.view 1).ndm0 = 2 := hn
  have hp' : (d.view 1).npauli = 2 := hp
  have hc' : (d.view 1).ncharge = 2 := hc
  have hl : (d.view 1).nleads = 1 := rfl
  have m0 : 0 ∈ (d.view 1).row 0 := by simp [r0]
  have m1 : 1 ∈ (d.view 1).row 1 := by simp [r1]
  obtain ⟨P, hP⟩ : ∃ P : C3, P = fun _ _ j => if j = 0 then Complex.I else -Complex.I := ⟨_, rfl⟩
  obtain ⟨K, e⟩ := genKern_ok hv (fun b => (b : ℝ)) (fun _ _ _ => 1) P (K := CMat.zeros (d.view 1).ndm0 (d.view 1).ndm0) le_rfl le_rfl
  have dot : ∀ (φ : Nat → ℂ) l cb, dotP (d.view 1) P ⟨(d.view 1).ndm0, φ⟩ l cb = Complex.I * (φ 0 - φ 1) := by
    intro φ l cb
    unfold dotP
    rw [hP, hn']
    simp [Finset.sum_range_succ]
    ring
  have act : ∀ (φ ψ : Nat → ℂ), (∀ c b bp, b ∈ (d.view 1).row c → bp ∈ (d.view 1).row c →
      ψ (d.lab0 c b bp) = (starRingEnd ℂ) (φ (d.lab0 c bp b))) → ψ 0 = (starRingEnd ℂ) (φ 0) → ψ 1 = (starRingEnd ℂ) (φ 1) →
      ∑ j ∈ range (d.view 1).ndm0, K.val (d.lab0 0 0 0) j * φ j = 2 * Complex.I * (φ 0 - φ 1) ∧
      ∑ j ∈ range (d.view 1).ndm0, K.val (d.lab0 1 1 1) j * φ j = -(2 * Complex.I * (φ 0 - φ 1)) := by
    intro φ ψ hψ h0 h1
    rw [genKern_act hv e (fun _ _ => rfl) hψ m0 m0, genKern_act hv e (fun _ _ => rfl) hψ m1 m1]
    simp only [dot, hl, R1, R2, L0, L1, zero_add, Nat.reduceAdd, h0, h1]
    simp
    constructor <;> ring
  have diag : ∀ i, i < 2 → i = d.lab0 0 0 0 ∨ i = d.lab0 1 1 1 := by
    intro i hi
    obtain ⟨c, b, bp, hb, hbp, rfl⟩ := hv.lab_surj i (by omega)
    have := hv.row_lt hb
    rw [hc'] at this
    have : c = 0 ∨ c = 1 := by omega
    rcases this with rfl | rfl
    · rw [r0] at hb hbp
      simp only [List.mem_singleton] at hb hbp
      subst hb hbp
      simp
    · rw [r1] at hb hbp
      simp only [List.mem_singleton] at hb hbp
      subst hb hbp
      simp
  have adj : ∀ φ ψ : Nat → ℂ, (∀ c b bp, b ∈ (d.view 1).row c → bp ∈ (d.view 1).row c →
      ψ (d.lab0 c b bp) = (starRingEnd ℂ) (φ (d.lab0 c bp b))) → ∀ i, i < 2 → ψ i = (starRingEnd ℂ) (φ i) := by
    intro φ ψ hψ i hi
    rcases diag i hi with h | h
    · rw [h]; exact hψ 0 0 0 m0 m0
    · rw [h]; exact hψ 1 1 1 m1 m1
  refine ⟨d.view 1, d.lab0, d.lab1, fun _ _ _ => 1, P, K, fun _ => 1 / 2, hv, fun _ _ _ => by simp, e, ?_, ?_, ?_⟩
  · intro i hi
    have hc : (1 / 2 : ℂ) = (starRingEnd ℂ) (1 / 2) := by
      rw [show (1 / 2 : ℂ) = ((1 / 2 : ℝ) : ℂ) by push_cast; rfl, Complex.conj_ofReal]
    have := act (fun _ => 1 / 2) (fun _ => 1 / 2) (fun _ _ _ _ _ => hc) hc hc
    rcases diag i (by omega) with h | h
    · rw [h, this.1]; ring
    · rw [h, this.2]; ring
  · rw [hp']; simp [Finset.sum_range_succ]
  · intro ψ hst hnorm i hi
    obtain ⟨χ, hχ⟩ := adjoint_exists hv ψ
    have h1 := (act ψ χ hχ (adj ψ χ hχ 0 (by omega)) (adj ψ χ hχ 1 (by omega))).1
    rw [hst _ (hv.lab_lt 0 0 0 m0 m0)] at h1
    have h2 : ψ 0 = ψ 1 := by
      have : ψ 0 - ψ 1 = 0 := by
        rcases mul_eq_zero.1 h1.symm with h | h
        · simp at h
        · exact h
      exact sub_eq_zero.1 this
    rw [hp'] at hnorm
    simp only [Finset.sum_range_succ, Finset.sum_range_zero, zero_add, h2] at hnorm
    have h3 : ψ 1 = 1 / 2 := by linear_combination hnorm / 2
    have : i = 0 ∨ i = 1 := by omega
    rcases this with rfl | rfl
    · rw [h2, h3]
    · exact h3

/-- C27: at every iteration, after any history: the rows of the diagonal elements of the kernel sum to zero, and if the
solution is Hermitian and annihilated by the kernel, the currents of the iteration sum to zero. -/
theorem c27_iteration {num : Num} {s s' : St} (hs : Hist num s) {lab ix1 : Nat → Nat → Nat → Nat}
    (h : VOkC s.sys.v lab ix1) (e : St.iteration num (s, none) = (s', none)) :
    ∃ (a : Arrs) (K : CMat) (b nv : CVec) (r : Rec), s'.arrs = some a ∧ a.kern = some (K, b, nv) ∧
      s'.iters = s.iters ++ [r] ∧ r.phi0 = a.phi0 ∧
      (∀ j, j < s.sys.v.ndm0 → ∑ i ∈ range s.sys.v.npauli, K.val i j = 0) ∧
      (HermT s.sys.T → HermV s.sys.v lab r.phi0.val → Stationary s.sys.v K r.phi0.val →
        ∑ l ∈ range s.sys.v.nleads, current r.cur l = 0) := by
  obtain ⟨a, K0, Kg, K, b, nv, evs, q, f1, f2, f3, f4, f5, f6, f7, f8, f9, f10, f11, f12, _⟩ :=
    iteration_facts hs.inv e
  refine ⟨a, K, b, nv, _, f1, f2, f12, rfl, ?_, ?_⟩
  · intro j hj
    rw [← trace_of_run h f5 f3 hj]
    refine sum_congr rfl fun i hi => f6 i j ?_
    exact lt_of_lt_of_le (mem_range.1 hi) h.np_le
  · intro hT hφ hst
    simp only at hφ hst ⊢
    rw [f8]
    refine current_of_run h f5 f3 hT hφ ?_ f9
    intro i hi
    have hi' := lt_of_lt_of_le hi h.np_le
    rw [← hst i hi']
    exact sum_congr rfl fun j _ => by rw [f6 i j hi']

/-! ### C27: the solution -/

/-- `ψ` solves the equations with the matrix `q.1` and the right-hand side `q.2`. -/
def Solves (q : CMat × CVec) (ψ : Nat → ℂ) : Prop :=
  ∀ i, i < q.1.rows → ∑ j ∈ range q.1.cols, q.1.val i j * ψ j = q.2.val i

theorem foldlM_sum {α β : Type} {f : β → α → Py β} {g : β → ℂ} {w : α → ℂ} {P : β → Prop} {l : List α}
    (h : ∀ a ∈ l, ∀ s, P s → ∀ t, f s a = .ok t → P t ∧ g t = g s + w a) {s t : β} (e : l.foldlM f s = .ok t)
    (hs : P s) : P t ∧ g t = g s + (l.map w).sum := by
  induction l generalizing s with
  | nil =>
    simp only [List.foldlM_nil, py_pure, Except.ok.injEq] at e
    subst e
    exact ⟨hs, by simp⟩
  | cons a l ih =>
    rw [List.foldlM_cons] at e
    obtain ⟨u, hu, e⟩ := bind_inv e
    obtain ⟨pu, gu⟩ := h a (by simp) s hs u hu
    obtain ⟨pt, gt⟩ := ih (fun x hx => h x (by simp [hx])) e pu
    refine ⟨pt, ?_⟩
    rw [gt, gu, List.map_cons, List.sum_cons, add_assoc]

/-- The vector `norm_vec` sums the populations. -/
theorem normVec_sum {v : View} {lab ix1 : Nat → Nat → Nat → Nat} (h : VOkC v lab ix1) {nv : CVec}
    (e : normVec v = .ok nv) (ψ : Nat → ℂ) :
    ∑ j ∈ range v.ndm0, nv.val j * ψ j = ∑ i ∈ range v.npauli, ψ i := by
  unfold normVec at e
  have H := foldlM_sum (P := fun x : CVec => x.size = v.ndm0) (g := fun x => ∑ j ∈ range v.ndm0, x.val j * ψ j)
    (w := fun c => ((v.row c).map fun b => ψ (lab c b b)).sum) (fun c hc x hx y hy => by
      rw [h.states (List.mem_range.1 hc).le] at hy
      simp only [py_bind_ok] at hy
      refine foldlM_sum (P := fun x : CVec => x.size = v.ndm0) (g := fun x => ∑ j ∈ range v.ndm0, x.val j * ψ j)
        (w := fun b => ψ (lab c b b)) (fun b hb x hx y hy => ?_) hy hx
      have hl := h.lab_lt c b b hb hb
      rw [h.ind0 c b b hb hb, py_bind_ok, CVec.add, pyIdx_ok (by omega) (by rw [hx]; omega)] at hy
      simp only [py_bind_ok, py_pure, Except.ok.injEq] at hy
      subst hy
      refine ⟨hx, ?_⟩
      simp only [Int.toNat_natCast]
      rw [← sum_erase_add _ _ (mem_range.2 hl), ← sum_erase_add (a := lab c b b) (range v.ndm0) (fun j => x.val j * ψ j)
        (mem_range.2 hl), if_pos rfl, add_mul, one_mul, ← add_assoc]
      congr 2
      refine sum_congr rfl fun j hj => ?_
      rw [if_neg (mem_erase.1 hj).1]) e rfl
  rw [H.2, h.sum_pop, ← List.sum_toFinset _ List.nodup_range, List.toFinset_range]
  simp only [CVec.zeros, zero_mul, sum_const_zero, zero_add]
  refine sum_congr rfl fun q _ => ?_
  rw [View.R, List.sum_toFinset _ (h.nodup q)]

/-- C27: at every iteration, after any history, the solver is handed the last of the systems `asked`. Its solutions are the
normalised stationary states of the kernel, and the solution it returns is the density matrix of the iteration. -/
theorem c27_solution {num : Num} {s s' : St} (hs : Hist num s) {lab ix1 : Nat → Nat → Nat → Nat}
    (h : VOkC s.sys.v lab ix1) (hrow : s.opts.symq = true → ∃ r, pyIdx s.sys.v.ndm0 s.opts.normRow = .ok r ∧ r < s.sys.v.npauli)
    (e : St.iteration num (s, none) = (s', none)) :
    ∃ (a : Arrs) (K : CMat) (b nv : CVec) (r : Rec) (q : CMat × CVec), s'.arrs = some a ∧ a.kern = some (K, b, nv) ∧
      s'.iters = s.iters ++ [r] ∧ r.phi0 = a.phi0 ∧ s'.asked = s.asked ++ [q] ∧
      (∀ ψ, Solves q ψ ↔ Stationary s.sys.v K ψ ∧ ∑ i ∈ range s.sys.v.npauli, ψ i = 1) ∧
      (s'.success = some true → s'.opts.solmethod = some "solve" → num.solve q.1 q.2 = some r.phi0) ∧
      (s'.success = some true → s'.opts.solmethod = some "lsqr" → num.lstsq q.1 q.2 = some r.phi0) := by
  obtain ⟨a, K0, Kg, K, b, nv, evs, q, f1, f2, f3, f4, f5, f6, f7, f8, f9, f10, f11, f12, f13, -, -, -, f14,
    ⟨r0, g1, g2, g3, -, g4, g5⟩, f15, f16⟩ := iteration_facts hs.inv e
  refine ⟨a, K, b, nv, _, q, f1, f2, f12, rfl, f13, ?_, f15, f16⟩
  intro ψ
  have hst : Stationary s.sys.v K ψ ↔ ∀ i, i < s.sys.v.ndm0 → ∑ j ∈ range s.sys.v.ndm0, Kg.val i j * ψ j = 0 := by
    unfold Stationary
    refine forall_congr' fun i => forall_congr' fun hi => ?_
    rw [sum_congr rfl fun j _ => by rw [f6 i j hi]]
  have hnv := normVec_sum h f14 ψ
  have row : ∀ i, ∑ j ∈ range s.sys.v.ndm0, q.1.val i j * ψ j =
      if i = r0 then ∑ i ∈ range s.sys.v.npauli, ψ i else ∑ j ∈ range s.sys.v.ndm0, Kg.val i j * ψ j := by
    intro i
    by_cases hi : i = r0
    · rw [if_pos hi, ← hnv]
      exact sum_congr rfl fun j _ => by rw [g4, if_pos hi]
    · rw [if_neg hi]
      exact sum_congr rfl fun j _ => by rw [g4, if_neg hi]
  unfold Solves
  rw [g2, g3, hst]
  simp only [row, g5]
  unfold kernRows at g1 ⊢
  by_cases hq : s.opts.symq = true
  · rw [if_pos hq] at g1 ⊢
    rw [if_pos hq] at g1
    obtain ⟨r, hr, hrp⟩ := hrow hq
    rw [g1] at hr
    obtain rfl := Except.ok.inj hr
    have hrn := lt_of_lt_of_le hrp h.np_le
    constructor
    · intro H
      have h1 : ∀ i, i < s.sys.v.ndm0 → i ≠ r0 → ∑ j ∈ range s.sys.v.ndm0, Kg.val i j * ψ j = 0 := by
        intro i hi hne
        have := H i hi
        rwa [if_neg hne, if_neg hne] at this
      have h2 := H r0 hrn
      rw [if_pos rfl, if_pos rfl] at h2
      refine ⟨fun i hi => ?_, h2⟩
      by_cases hne : i = r0
      · subst hne
        have tot : ∑ i ∈ range s.sys.v.npauli, ∑ j ∈ range s.sys.v.ndm0, Kg.val i j * ψ j = 0 := by
          rw [sum_comm]
          refine sum_eq_zero fun j hj => ?_
          rw [← sum_mul, trace_of_run h f5 f3 (mem_range.1 hj), zero_mul]
        rw [← add_sum_erase _ _ (mem_range.2 hrp), sum_eq_zero (s := (range s.sys.v.npauli).erase i), add_zero] at tot
        · exact tot
        · intro k hk
          obtain ⟨k1, k2⟩ := mem_erase.1 hk
          exact h1 k (lt_of_lt_of_le (mem_range.1 k2) h.np_le) k1
      · exact h1 i hi hne
    · rintro ⟨H1, H2⟩ i hi
      by_cases hne : i = r0
      · rw [if_pos hne, if_pos hne, H2]
      · rw [if_neg hne, if_neg hne, H1 i hi]
  · rw [if_neg hq] at g1 ⊢
    rw [if_neg hq] at g1
    have hr : r0 = s.sys.v.ndm0 := by
      have := pyIdx_neg (len := s.sys.v.ndm0 + 1) (k := 1) (by omega) (by omega)
      rw [show (-((1 : Nat) : Int)) = -1 by rfl, g1] at this
      have := Except.ok.inj this
      omega
    subst hr
    constructor
    · intro H
      refine ⟨fun i hi => ?_, ?_⟩
      · have := H i (by omega)
        rwa [if_neg (by omega), if_neg (by omega)] at this
      · have := H s.sys.v.ndm0 (by omega)
        rwa [if_pos rfl, if_pos rfl] at this
    · rintro ⟨H1, H2⟩ i hi
      by_cases hne : i = s.sys.v.ndm0
      · rw [if_pos hne, if_pos hne, H2]
      · rw [if_neg hne, if_neg hne, H1 i (by omega)]

/-- C27: if the equations of an iteration have one solution and the solver finds it, the currents of the iteration sum to
zero and the populations to one. -/
theorem c27_conserved {num : Num} {s s' : St} (hs : Hist num s) {lab ix1 : Nat → Nat → Nat → Nat}
    (h : VOkC s.sys.v lab ix1) (hrow : s.opts.symq = true → ∃ r, pyIdx s.sys.v.ndm0 s.opts.normRow = .ok r ∧ r < s.sys.v.npauli)
    (hT : HermT s.sys.T) (e : St.iteration num (s, none) = (s', none)) :
    ∃ (r : Rec) (q : CMat × CVec), s'.iters = s.iters ++ [r] ∧ s'.asked = s.asked ++ [q] ∧
      (Solves q r.phi0.val → (∀ ψ, Solves q ψ → ∀ i, i < s.sys.v.ndm0 → ψ i = r.phi0.val i) →
        ∑ l ∈ range s.sys.v.nleads, current r.cur l = 0 ∧ ∑ i ∈ range s.sys.v.npauli, r.phi0.val i = 1 ∧
          HermV s.sys.v lab r.phi0.val) := by
  obtain ⟨a, K, b, nv, r, q, g1, g2, g3, g4, g5, g6, -⟩ := c27_solution hs h hrow e
  obtain ⟨a', K', b', nv', r', k1, k2, k3, k4, -, k6⟩ := c27_iteration hs h e
  rw [k1] at g1
  obtain rfl := Option.some.inj g1
  rw [k2] at g2
  obtain ⟨rfl, -⟩ := Prod.mk.inj (Option.some.inj g2)
  rw [g3] at k3
  obtain rfl : r = r' := by simpa using k3
  refine ⟨r, q, g3, g5, fun hsol huniq => ?_⟩
  obtain ⟨st, nm⟩ := (g6 _).1 hsol
  obtain ⟨a0, K0, Kg, K1, b1, nv1, evs, q1, f1, f2, f3, f4, f5, f6, _⟩ := iteration_facts hs.inv e
  rw [k1] at f1
  obtain rfl := Option.some.inj f1
  rw [k2] at f2
  obtain ⟨rfl, -⟩ := Prod.mk.inj (Option.some.inj f2)
  have hK : ∀ ψ, Stationary s.sys.v K' ψ ↔ Stationary s.sys.v Kg ψ := by
    intro ψ
    unfold Stationary
    refine forall_congr' fun i => forall_congr' fun hi => ?_
    rw [sum_congr rfl fun j _ => by rw [f6 i j hi]]
  have hH : HermV s.sys.v lab r.phi0.val := by
    obtain ⟨χ, hχ⟩ := adjoint_exists h r.phi0.val
    have h1 := adjoint_stationary h f5 f3 hT hχ ((hK _).1 st)
    have h2 : ∑ i ∈ range s.sys.v.npauli, χ i = 1 := by
      have : ∑ i ∈ range s.sys.v.npauli, χ i = (starRingEnd ℂ) (∑ i ∈ range s.sys.v.npauli, r.phi0.val i) := by
        rw [h.sum_pop, h.sum_pop, map_sum]
        refine sum_congr rfl fun q _ => ?_
        rw [map_sum]
        exact sum_congr rfl fun b hb => hχ q b b (h.mem_R.1 hb) (h.mem_R.1 hb)
      rw [this, nm, map_one]
    have h3 := huniq χ ((g6 χ).2 ⟨(hK _).2 h1, h2⟩)
    intro c b bp hb hbp
    rw [← h3 _ (h.lab_lt c bp b hbp hb), hχ c bp b hbp hb]
  exact ⟨k6 hT hH st, nm, hH⟩

/-! ### C39 -/

theorem iterations_facts {num : Num} {n : Nat} {s s' : St} (hs : Inv s)
    (e : (St.iteration num)^[n] (s, none) = (s', none)) :
    s'.niter = s.niter + n ∧ (∃ rs : List Rec, s'.iters = s.iters ++ rs ∧ rs.length = n ∧
      ∀ i (hi : i < rs.length), rs[i].niter = s.niter + 1 + i) ∧
    ∃ qs : List (CMat × CVec), s'.asked = s.asked ++ qs ∧ qs.length = n := by
  induction n generalizing s with
  | zero =>
    simp only [Function.iterate_zero, id_eq, Prod.mk.injEq, and_true] at e
    subst e
    exact ⟨by simp, ⟨[], by simp⟩, ⟨[], by simp⟩⟩
  | succ n ih =>
    rw [Function.iterate_succ_apply] at e
    rcases h1 : St.iteration num (s, none) with ⟨t, _ | x⟩
    · rw [h1] at e
      have hi : Inv t := by
        have := inv_iteration num (r := (s, none)) hs
        rw [h1] at this
        exact this
      obtain ⟨a, K0, Kg, K, b, nv, evs, q, _, _, _, _, _, _, _, _, _, _, g1, g2, g3, _⟩ := iteration_facts hs h1
      obtain ⟨k1, ⟨rs, k2, k3, k4⟩, qs, k5, k6⟩ := ih hi e
      refine ⟨by rw [k1, g1]; push_cast; ring, ⟨⟨t.niter, a.phi0, a.phi1, a.cur⟩ :: rs, ?_, by simp [k3], ?_⟩,
        q :: qs, ?_, by simp [k6]⟩
      · rw [k2, g2]; simp
      · intro i hi'
        rcases i with _ | i
        · simp [g1]
        · simp only [List.getElem_cons_succ]
          rw [k4 i (by simpa using hi'), g1]
          push_cast; ring
      · rw [k5, g3]; simp
    · rw [h1, iterate_err] at e
      simp at e

/-- C39: `solve(niter=k)` that does not raise, after any history: `k` systems of equations were handed to the solver, there are
`k` records, numbered from zero, and `niter` is `k - 1`. -/
theorem c39_count {num : Num} {s s' : St} (hs : Hist num s) {k : Nat} (e : s.solve num true (some k) = (s', none)) :
    s'.niter = (k : Int) - 1 ∧ s'.iters.length = k ∧ (∀ i (hi : i < s'.iters.length), s'.iters[i].niter = i) ∧
    ∃ qs : List (CMat × CVec), s'.asked = s.asked ++ qs ∧ qs.length = k := by
  have e' : (St.iteration num)^[k] (s.restart, none) = (s', none) := e
  obtain ⟨h1, ⟨rs, h2, h3, h4⟩, qs, h5, h6⟩ := iterations_facts hs.inv.restart e'
  have h2' : s'.iters = rs := by rw [h2]; simp [St.restart]
  refine ⟨by rw [h1]; simp [St.restart]; ring, by rw [h2', h3], ?_, qs, h5, h6⟩
  intro i hi
  have hi' : i < rs.length := by rw [← h2']; exact hi
  have := h4 i hi'
  simp only [h2']
  rw [this]
  simp [St.restart]

/-- C39: no iterations are made for `k = 0`, and `ValueError` is raised if the number is missing. -/
theorem c39_zero (num : Num) (s : St) : s.solve num true (some 0) = (s.restart, none) ∧
    s.restart.iters = [] ∧ s.restart.niter = -1 ∧ s.solve num true none = (s.restart, some .value) ∧
    s.solve num false none = (s, some .value) := ⟨rfl, rfl, rfl, rfl, rfl⟩

/-- C39: continuing by `m` iterations gives exactly what one run of `k + m` iterations gives. -/
theorem c39_continue {num : Num} {s s' : St} {k : Nat} (m : Nat) (e : s.solve num true (some k) = (s', none)) :
    s'.solve num false (some m) = s.solve num true (some (k + m)) := by
  have e' : (St.iteration num)^[k] (s.restart, none) = (s', none) := e
  change (St.iteration num)^[m] (s', none) = (St.iteration num)^[k + m] (s.restart, none)
  rw [Nat.add_comm, Function.iterate_add_apply, e']

/-- C39: the same from any state, and in any number of portions. -/
theorem c39_portions {num : Num} {s s' : St} {r : Bool} {k : Nat} (m : Nat) (e : s.solve num r (some k) = (s', none)) :
    s'.solve num false (some m) = s.solve num r (some (k + m)) := by
  have e' : (St.iteration num)^[k] ((if r then s.restart else s), none) = (s', none) := e
  change (St.iteration num)^[m] (s', none) = (St.iteration num)^[k + m] ((if r then s.restart else s), none)
  rw [Nat.add_comm, Function.iterate_add_apply, e']

end VN2

end

end Verif
