import Verif.Props.Neumann2
import Verif.Props.Neumann2Grid

/-!
C39: a restarted calculation succeeds and does not depend on what was done before.
C60: which grid is used.
-/

namespace Verif

open Finset

noncomputable section

namespace VN2

/-! ### Steps that succeed -/

theorem foldlM_exists {α β : Type} {f : β → α → Py β} {l : List α} {P : β → Prop}
    (h : ∀ x ∈ l, ∀ s, P s → ∃ t, f s x = .ok t ∧ P t) {s : β} (hs : P s) : ∃ t, l.foldlM f s = .ok t ∧ P t := by
  induction l generalizing s with
  | nil => exact ⟨s, rfl, hs⟩
  | cons a l ih =>
    obtain ⟨t, ht, pt⟩ := h a (by simp) s hs
    obtain ⟨u, hu, pu⟩ := ih (fun x hx => h x (by simp [hx])) pt
    exact ⟨u, by rw [List.foldlM_cons, ht, py_bind_ok, hu], pu⟩

theorem normVec_ok {v : View} {lab ix1 : Nat → Nat → Nat → Nat} (h : VOkC v lab ix1) :
    ∃ x, normVec v = .ok x ∧ x.size = v.ndm0 := by
  unfold normVec
  refine foldlM_exists (P := fun x : CVec => x.size = v.ndm0) ?_ rfl
  intro c hc x hx
  rw [h.states (List.mem_range.1 hc).le]
  simp only [py_bind_ok]
  refine foldlM_exists (P := fun x : CVec => x.size = v.ndm0) ?_ hx
  intro b hb x hx
  rw [h.ind0 c b b hb hb, py_bind_ok, CVec.add, pyIdx_ok (by omega) (by rw [hx]; have := h.lab_lt c b b hb hb; omega)]
  exact ⟨_, rfl, hx⟩

theorem phi1Phi0_ok {grid : List ℝ} (hg : 2 ≤ grid.length) (p : C4) (PQ : C3 × C3) :
    ∃ r, phi1Phi0 grid p PQ = .ok r := by
  unfold phi1Phi0
  have key : ∀ i : Nat, i < grid.length → ∃ y, pyGet grid (i : Int) = .ok y := by
    intro i hi
    rw [pyGet_nat _ hi]
    exact ⟨_, rfl⟩
  suffices h : ∀ i ∈ List.range grid.length, ∀ PQ : C3 × C3, ∃ t : C3 × C3, (do
      let w ← dx grid i
      let e ← pyGet grid i
      pure (fun l cb j => PQ.1 l cb j + 1 / 2 * w * p i l cb j,
        fun l cb j => PQ.2 l cb j + 1 / 2 * w * e * p i l cb j) : Py (C3 × C3)) = .ok t by
    obtain ⟨t, ht, _⟩ := foldlM_exists (P := fun _ : C3 × C3 => True) (s := PQ) (l := List.range grid.length)
      (fun i hi PQ _ => by obtain ⟨t, ht⟩ := h i hi PQ; exact ⟨t, ht, trivial⟩) trivial
    exact ⟨t, ht⟩
  · intro i hi PQ
    have hi := List.mem_range.1 hi
    obtain ⟨y, hy⟩ := key i hi
    have hd : ∃ w, dx grid i = .ok w := by
      unfold dx
      split
      · rename_i h0
        obtain ⟨z, hz⟩ := key (i + 1) (by omega)
        push_cast at hz
        rw [hz, hy]
        exact ⟨_, rfl⟩
      · rename_i h0
        obtain ⟨z', hz'⟩ := key (i - 1) (by omega)
        rw [show ((i - 1 : Nat) : Int) = (i : Int) - 1 by omega] at hz'
        split
        · rw [hy, hz']
          exact ⟨_, rfl⟩
        · obtain ⟨z, hz⟩ := key (i + 1) (by omega)
          push_cast at hz
          rw [hz, hz']
          exact ⟨_, rfl⟩
    obtain ⟨w, hw⟩ := hd
    rw [hw, hy]
    exact ⟨_, rfl⟩

/-- In the zeroth iteration the grid is made from the present band and number of points. -/
theorem makeGrid_ok {s : St} (hs : Inv s) (hz : s.niter = -1) (hg : s.grid ≠ []) {n : Nat} (hk : s.sys.kpnt = some n)
    (hn : 2 ≤ n) (hl : 0 < s.sys.v.nleads) :
    s.makeGrid = .ok { s with dband := s.sys.band, grid := linspace s.sys.band.1 s.sys.band.2 n } := by
  classical
  have hpos : 0 < s.grid.length := List.length_pos_iff.2 hg
  unfold St.makeGrid
  rw [hk]
  simp only
  rw [if_pos hl]
  have g0 : ∃ y, pyGet s.grid 0 = .ok y := by
    have := pyGet_nat s.grid (k := 0) hpos
    exact ⟨_, this⟩
  have gl : ∃ y, pyGet s.grid (-1) = .ok y := by
    unfold pyGet
    have := pyIdx_neg (len := s.grid.length) (k := 1) (by omega) (by omega)
    rw [show (-((1 : Nat) : Int)) = -1 by rfl] at this
    rw [this]
    simp only
    rw [List.getElem?_eq_getElem (by omega)]
    exact ⟨_, rfl⟩
  obtain ⟨y0, h0⟩ := g0
  obtain ⟨yl, hl'⟩ := gl
  rw [h0, hl']
  simp only [py_bind_ok]
  split
  · rw [if_neg (by simpa using hz)]
    rfl
  · rename_i hc
    push Not at hc
    obtain ⟨c1, c2, c3⟩ := hc
    rcases hs.grid with ⟨hg', _⟩ | ⟨m, hm⟩
    · rw [hg'] at c3
      simp at c3
      omega
    · rw [hm, linspace_length] at c3
      subst c3
      have e1 : y0 = s.dband.1 := by
        rw [hm, linspace_first (by omega)] at h0
        exact (Except.ok.inj h0).symm
      have e2 : yl = s.dband.2 := by
        rw [hm, linspace_last hn] at hl'
        exact (Except.ok.inj hl').symm
      have hd : s.dband = s.sys.band := by
        ext
        · rw [← e1, c1]
        · rw [← e2, c2]
      have : s = { s with dband := s.sys.band, grid := linspace s.sys.band.1 s.sys.band.2 m } := by
        rw [← hd, ← hm]
      rw [← this]
      rfl

/-- The surroundings of a calculation: the indexing object is as it should be, there are leads with a common band that is
not empty, at least two grid points, and the numerical routines for the integral equation return. -/
structure Ctx (num : Num) (y : Sys) (n : Nat) (lab ix1 : Nat → Nat → Nat → Nat) : Prop where
  ok : VOkC y.v lab ix1
  leads : 0 < y.v.nleads
  kpnt : y.kpnt = some n
  two : 2 ≤ n
  band : y.band.1 < y.band.2
  loc : ∀ g x, ∃ r, num.loc y g x = .ok r
  itr : ∀ g x d i, ∃ r, num.itr y g x d i = .ok r

/-- The same, where the routines only need to work for the grids in `M`. -/
structure CtxOn (num : Num) (y : Sys) (n : Nat) (lab ix1 : Nat → Nat → Nat → Nat) (M : List ℝ → Ext → Prop) : Prop where
  ok : VOkC y.v lab ix1
  leads : 0 < y.v.nleads
  kpnt : y.kpnt = some n
  two : 2 ≤ n
  band : y.band.1 < y.band.2
  loc : ∀ g x, M g x → ∃ r, num.loc y g x = .ok r
  itr : ∀ g x d i, M g x → ∃ r, num.itr y g x d i = .ok r

theorem Ctx.on {num : Num} {y : Sys} {n : Nat} {lab ix1 : Nat → Nat → Nat → Nat} (c : Ctx num y n lab ix1) :
    CtxOn num y n lab ix1 fun _ _ => True :=
  ⟨c.ok, c.leads, c.kpnt, c.two, c.band, fun g x _ => c.loc g x, fun g x d i _ => c.itr g x d i⟩

/-- Options for which the equations can be written down: not matrix-free, the normalisation row exists. -/
structure OptOk (o : Opts) (v : View) : Prop where
  mfreeq : o.mfreeq = false
  row : o.symq = true → -(v.ndm0 : Int) ≤ o.normRow ∧ o.normRow < v.ndm0

theorem OptOk.prepareSolver {o : Opts} {v : View} (h : OptOk o v) : OptOk o.prepareSolver v := by
  obtain ⟨q1, q2, q3⟩ := prepareSolver_symq o
  exact ⟨by rw [q2]; exact h.mfreeq, by rw [q1, q3]; exact h.row⟩

/-- The equations are there. -/
def HasKern (s : St) : Prop :=
  ∃ a k, s.arrs = some a ∧ a.kern = some k ∧ k.1.rows = kernRows s.opts s.sys.v ∧ k.1.cols = s.sys.v.ndm0 ∧
    k.2.1.size = kernRows s.opts s.sys.v

/-- Ready for `iterate`. -/
structure Ready (y : Sys) (s : St) : Prop where
  sys : s.sys = y
  opts : OptOk s.opts y.v
  prepared : s.prepared = true
  changed : s.changed = false
  grid : 2 ≤ s.grid.length
  phi1k : ∃ p, s.phi1k = some p
  delta : s.zeroth = true ∨ ∃ d i, s.delta = some d ∧ s.inv = some i
  kern : HasKern s

/-- After an iteration. -/
def Done (y : Sys) (s : St) : Prop := Ready y s ∧ s.zeroth = false

theorem iterate_ok {num : Num} {y : Sys} {n : Nat} {lab ix1 : Nat → Nat → Nat → Nat} {M : List ℝ → Ext → Prop}
    (c : CtxOn num y n lab ix1 M) {s : St}
    (h : Ready y s) (hM : M s.grid s.ext) : ∃ t, s.iterate num = .ok t ∧ Ready y t ∧ t.zeroth = false ∧ (∃ d, t.delta = some d) ∧
      t.grid = s.grid ∧ t.ext = s.ext ∧ t.iters = s.iters := by
  unfold St.iterate
  by_cases hz : s.zeroth = true
  · obtain ⟨r, hr⟩ := c.loc s.grid s.ext hM
    rw [← h.sys] at hr
    rw [if_pos hz, hr, py_bind_ok]
    exact ⟨_, rfl, ⟨h.sys, h.opts, h.prepared, h.changed, h.grid, h.phi1k, Or.inr ⟨_, _, rfl, rfl⟩, h.kern⟩, rfl, ⟨_, rfl⟩, rfl, rfl, rfl⟩
  · rcases h.delta with hd | ⟨d, i, hd, hi⟩
    · exact absurd hd hz
    · obtain ⟨r, hr⟩ := c.itr s.grid s.ext d i hM
      have ad : attr s.delta = .ok d := by rw [hd]; rfl
      have ai : attr s.inv = .ok i := by rw [hi]; rfl
      rw [← h.sys] at hr
      rw [if_neg hz, ad, py_bind_ok, ai, py_bind_ok, hr, py_bind_ok]
      exact ⟨_, rfl, ⟨h.sys, h.opts, h.prepared, h.changed, h.grid, h.phi1k, Or.inr ⟨_, _, rfl, hi⟩, h.kern⟩, by simpa using hz,
        ⟨_, rfl⟩, rfl, rfl, rfl⟩

theorem integrate_ok {y : Sys} {s : St} (h : Done y s) :
    ∃ t, s.integrate = .ok t ∧ Done y t ∧ t.grid = s.grid ∧ t.ext = s.ext ∧ t.iters = s.iters := by
  obtain ⟨h, hz⟩ := h
  obtain ⟨a, k, ha, hk, k1, k2, k3⟩ := h.kern
  obtain ⟨p, hp⟩ := h.phi1k
  rcases h.delta with hd | ⟨d, i, hd, hi⟩
  · rw [hz] at hd; simp at hd
  · obtain ⟨r, hr⟩ := phi1Phi0_ok h.grid (fun k l cb j => p k l cb j + d k l cb j) (a.pp, a.epp)
    have ad : attr s.delta = .ok d := by rw [hd]; rfl
    have ap : attr s.phi1k = .ok p := by rw [hp]; rfl
    have aa : attr s.arrs = .ok a := by rw [ha]; rfl
    unfold St.integrate
    rw [ap, py_bind_ok, ad, py_bind_ok, aa, py_bind_ok]
    simp only
    rw [hr, py_bind_ok]
    exact ⟨_, rfl, ⟨⟨h.sys, h.opts, h.prepared, h.changed, h.grid, ⟨_, rfl⟩, Or.inr ⟨_, _, hd, hi⟩,
      ⟨_, k, rfl, hk, k1, k2, k3⟩⟩, hz⟩, rfl, rfl, rfl⟩

theorem stGenKern_ok {num : Num} {y : Sys} {n : Nat} {lab ix1 : Nat → Nat → Nat → Nat} {M : List ℝ → Ext → Prop}
    (c : CtxOn num y n lab ix1 M) {s : St}
    (h : Done y s) : ∃ t, s.genKern = .ok t ∧ Done y t ∧ t.grid = s.grid ∧ t.ext = s.ext ∧ t.iters = s.iters := by
  obtain ⟨h, hz⟩ := h
  obtain ⟨a, k, ha, hk, k1, k2, k3⟩ := h.kern
  have hrows : s.sys.v.ndm0 ≤ k.1.rows := by
    rw [k1]; unfold kernRows; split <;> omega
  have ok : VOkC s.sys.v lab ix1 := by rw [h.sys]; exact c.ok
  obtain ⟨m, hm⟩ := genKern_ok ok s.sys.E s.sys.T a.pp hrows k2.ge
  obtain ⟨r1, r2⟩ : m.rows = k.1.rows ∧ m.cols = k.1.cols := by
    unfold genKern at hm
    obtain ⟨sh, _, hm⟩ := bind_inv hm
    obtain ⟨ops, _, hm⟩ := bind_inv hm
    exact runs_size hm
  have aa : attr s.arrs = .ok a := by rw [ha]; rfl
  unfold St.genKern
  rw [aa, py_bind_ok, hk]
  simp only
  rw [hm, py_bind_ok]
  exact ⟨_, rfl, ⟨⟨h.sys, h.opts, h.prepared, h.changed, h.grid, h.phi1k, h.delta,
      ⟨_, _, rfl, rfl, r1.trans k1, r2.trans k2, k3⟩⟩, hz⟩, rfl, rfl, rfl⟩

theorem pyIdx_total {n : Nat} {i : Int} (h0 : -(n : Int) ≤ i) (h1 : i < n) : ∃ k, pyIdx n i = .ok k := by
  unfold pyIdx
  split
  · exact ⟨_, rfl⟩
  · split
    · exact ⟨_, rfl⟩
    · omega

theorem solveKern_ok (num : Num) {y : Sys} {s : St} (h : Done y s) :
    ∃ t, s.solveKern num = .ok t ∧ Done y t ∧ t.grid = s.grid ∧ t.ext = s.ext ∧ t.iters = s.iters := by
  obtain ⟨h, hz⟩ := h
  obtain ⟨a, k, ha, hk, k1, k2, k3⟩ := h.kern
  have aa : attr s.arrs = .ok a := by rw [ha]; rfl
  have ak : attr a.kern = .ok k := by rw [hk]; rfl
  obtain ⟨i, hi⟩ : ∃ i, pyIdx k.1.rows (if s.opts.symq then s.opts.normRow else -1) = .ok i := by
    rw [k1]
    unfold kernRows
    by_cases hq : s.opts.symq = true
    · rw [if_pos hq, if_pos hq, h.sys]
      exact pyIdx_total (h.opts.row hq).1 (h.opts.row hq).2
    · rw [if_neg hq, if_neg hq]
      exact pyIdx_total (by push_cast; omega) (by push_cast; omega)
  have hi' : pyIdx k.2.1.size (if s.opts.symq then s.opts.normRow else -1) = .ok i := by rw [k3, ← k1]; exact hi
  have key : ∃ t, s.solveKern num = .ok t := by
    unfold St.solveKern
    rw [aa, py_bind_ok, ak, py_bind_ok]
    simp only [CMat.setRow, CVec.put, hi, hi', py_bind_ok, py_pure]
    unfold restore
    by_cases hq : s.opts.symq = true
    · rw [if_pos hq]
      rw [if_pos hq] at hi
      simp only [CMat.getRow, CMat.setRow, hi, py_bind_ok, py_pure]
      exact ⟨_, rfl⟩
    · rw [if_neg hq]
      exact ⟨_, rfl⟩
  obtain ⟨t, ht⟩ := key
  obtain ⟨m, b, x, φ, u, q, rfl, r1, r2, _, _⟩ := solveKern_inv ha hk ht
  have hb : b.size = k.2.1.size := by
    unfold St.solveKern at ht
    rw [aa, py_bind_ok, ak, py_bind_ok] at ht
    obtain ⟨m', _, ht⟩ := bind_inv ht
    obtain ⟨b', hb', ht⟩ := bind_inv ht
    obtain ⟨m'', _, ht⟩ := bind_inv ht
    simp only [py_pure, Except.ok.injEq] at ht
    have := congrArg St.arrs ht
    simp only [Option.some.injEq, Arrs.mk.injEq, Prod.mk.injEq] at this
    rw [← this.2.2.1.2.1]
    unfold CVec.put at hb'
    rw [hi'] at hb'
    simp only [py_bind_ok, py_pure, Except.ok.injEq] at hb'
    rw [← hb']
  exact ⟨_, ht, ⟨⟨h.sys, h.opts, h.prepared, h.changed, h.grid, h.phi1k, h.delta,
      ⟨_, _, rfl, rfl, r1.trans k1, r2.trans k2, hb.trans k3⟩⟩, hz⟩, rfl, rfl, rfl⟩

theorem stGenCurrent_ok {num : Num} {y : Sys} {n : Nat} {lab ix1 : Nat → Nat → Nat → Nat} {M : List ℝ → Ext → Prop}
    (c : CtxOn num y n lab ix1 M) {s : St}
    (h : Done y s) : ∃ t, s.genCurrent = .ok t ∧ Done y t ∧ t.grid = s.grid ∧ t.ext = s.ext ∧ t.iters = s.iters := by
  obtain ⟨h, hz⟩ := h
  obtain ⟨a, k, ha, hk, k1, k2, k3⟩ := h.kern
  have aa : attr s.arrs = .ok a := by rw [ha]; rfl
  have ok : VOkC s.sys.v lab ix1 := by rw [h.sys]; exact c.ok
  obtain ⟨evs, he, _⟩ := genCurrent_ok ok s.sys.T (dotP s.sys.v a.pp a.phi0) (dotP s.sys.v a.epp a.phi0)
  unfold St.genCurrent
  rw [aa, py_bind_ok]
  simp only
  rw [he, py_bind_ok]
  exact ⟨_, rfl, ⟨⟨h.sys, h.opts, h.prepared, h.changed, h.grid, h.phi1k, h.delta,
      ⟨_, k, rfl, hk, k1, k2, k3⟩⟩, hz⟩, rfl, rfl, rfl⟩

theorem record_ok {y : Sys} {s : St} (h : Done y s) :
    ∃ t, s.record = .ok t ∧ Done y t ∧ t.grid = s.grid ∧ t.ext = s.ext := by
  obtain ⟨h, hz⟩ := h
  obtain ⟨a, k, ha, hk, k1, k2, k3⟩ := h.kern
  have aa : attr s.arrs = .ok a := by rw [ha]; rfl
  unfold St.record
  rw [aa, py_bind_ok]
  exact ⟨_, rfl, ⟨⟨h.sys, h.opts, h.prepared, h.changed, h.grid, h.phi1k, h.delta,
      ⟨_, k, ha, hk, k1, k2, k3⟩⟩, hz⟩, rfl, rfl⟩

/-- The steps from `iterate` on. -/
theorem tail_ok {num : Num} {y : Sys} {n : Nat} {lab ix1 : Nat → Nat → Nat → Nat} {M : List ℝ → Ext → Prop}
    (c : CtxOn num y n lab ix1 M) {s : St}
    (h : Ready y s) (hM : M s.grid s.ext) : ∃ t, (List.foldl (fun r f => step f r) (s, none) [St.iterate num, St.integrate, St.genKern, St.solveKern num,
      St.genCurrent, St.record]) = (t, none) ∧ Done y t ∧ t.grid = s.grid ∧ t.ext = s.ext := by
  obtain ⟨s1, e1, r1, z1, _, g1, x1, i1⟩ := iterate_ok c h hM
  obtain ⟨s2, e2, r2, g2, x2, i2⟩ := integrate_ok ⟨r1, z1⟩
  obtain ⟨s3, e3, r3, g3, x3, i3⟩ := stGenKern_ok c r2
  obtain ⟨s4, e4, r4, g4, x4, i4⟩ := solveKern_ok num r3
  obtain ⟨s5, e5, r5, g5, x5, i5⟩ := stGenCurrent_ok c r4
  obtain ⟨s6, e6, r6, g6, x6⟩ := record_ok r5
  refine ⟨s6, ?_, r6, by rw [g6, g5, g4, g3, g2, g1], by rw [x6, x5, x4, x3, x2, x1]⟩
  simp only [List.foldl_cons, List.foldl_nil]
  rw [step_ok e1, step_ok e2, step_ok e3, step_ok e4, step_ok e5, step_ok e6]

/-- A further iteration. -/
theorem iteration_next {num : Num} {y : Sys} {n : Nat} {lab ix1 : Nat → Nat → Nat → Nat} {M : List ℝ → Ext → Prop}
    (c : CtxOn num y n lab ix1 M) {s : St}
    (h : Done y s) (hM : M s.grid s.ext) : ∃ t, St.iteration num (s, none) = (t, none) ∧ Done y t ∧ t.grid = s.grid ∧ t.ext = s.ext := by
  obtain ⟨h, hz⟩ := h
  obtain ⟨a, k, ha, hk, k1, k2, k3⟩ := h.kern
  have aa : attr s.arrs = .ok a := by rw [ha]; rfl
  have ak : attr a.kern = .ok k := by rw [hk]; rfl
  have hm : s.opts.mfreeq = false := h.opts.mfreeq
  have e3 : ∃ t, s.prepareKern = .ok t ∧ Ready y t ∧ t.grid = s.grid ∧ t.ext = s.ext := by
    unfold St.prepareKern
    rw [if_pos (by simp [h.prepared, h.changed])]
    unfold St.cleanArrays
    rw [aa, py_bind_ok]
    unfold cleanKern
    rw [if_neg (by simp [hm]), ak, py_bind_ok]
    simp only [py_pure, py_bind_ok]
    exact ⟨_, rfl, ⟨h.sys, h.opts, h.prepared, h.changed, h.grid, h.phi1k, h.delta, ⟨_, _, rfl, rfl, k1, k2, k3⟩⟩, rfl, rfl⟩
  obtain ⟨t, e3, r3, g3, x3⟩ := e3
  obtain ⟨u, hu, ru, gu, xu⟩ := tail_ok c r3 (by rw [g3, x3]; exact hM)
  refine ⟨u, ?_, ru, gu.trans g3, xu.trans x3⟩
  unfold St.iteration steps
  rw [List.foldl_cons, step_ok (s' := s) (by simp [hz]), List.foldl_cons, step_ok (s' := s) (by simp [hz]),
    List.foldl_cons, step_ok e3]
  exact hu

/-- The first iteration. -/
theorem iteration_first {num : Num} {y : Sys} {n : Nat} {lab ix1 : Nat → Nat → Nat → Nat} {M : List ℝ → Ext → Prop}
    (c : CtxOn num y n lab ix1 M) {s : St}
    (hs : Inv s) (hy : s.sys = y) (ho : OptOk s.opts y.v) (hz : s.zeroth = true) (hp : s.prepared = false) (hg : s.grid ≠ [])
    (hM : ∀ x : Ext, extended y.v y.E y.band.1 y.band.2 n y.extFct = .ok (x.grid, x.left, x.right) → M (linspace y.band.1 y.band.2 n) x) :
    ∃ t, St.iteration num (s, none) = (t, none) ∧ Done y t ∧ t.grid = linspace y.band.1 y.band.2 n ∧
      extended y.v y.E y.band.1 y.band.2 n y.extFct = .ok (t.ext.grid, t.ext.left, t.ext.right) := by
  subst hy
  have e1 := makeGrid_ok hs (hs.zeroth hz) hg c.kpnt c.two c.leads
  obtain ⟨L, hL⟩ : ∃ L, emList s.sys.v s.sys.E s.sys.band.1 s.sys.band.2 = .ok L := ⟨_, emList_ok c.ok _ _ _⟩
  obtain ⟨r, hr⟩ : ∃ r, gridExt (linspace s.sys.band.1 s.sys.band.2 n) s.sys.band.1 s.sys.band.2 (lmin L) (lmax L) s.sys.extFct = .ok r :=
    ⟨_, gridExt_eq c.two c.band⟩
  obtain ⟨s1, hs1⟩ : ∃ s1 : St, s1 = { s with dband := s.sys.band, grid := linspace s.sys.band.1 s.sys.band.2 n } := ⟨_, rfl⟩
  rw [← hs1] at e1
  obtain ⟨s2, hs2⟩ : ∃ s2 : St, s2 = { s1 with ext := ⟨r.1, r.2.1, r.2.2⟩ } := ⟨_, rfl⟩
  have e2 : s1.extend = .ok s2 := by
    unfold St.extend
    rw [hs2, hs1]
    simp only
    rw [hL, py_bind_ok, hr, py_bind_ok]
    rfl
  have z1 : s1.zeroth = true := by rw [hs1]; exact hz
  have z2 : s2.zeroth = true := by rw [hs2]; exact z1
  have p2 : s2.prepared = false := by rw [hs2, hs1]; exact hp
  have y2 : s2.sys = s.sys := by rw [hs2, hs1]
  have o2 : s2.opts = s.opts := by rw [hs2, hs1]
  have g2 : s2.grid = linspace s.sys.band.1 s.sys.band.2 n := by rw [hs2, hs1]
  have e3 : ∃ t, s2.prepareKern = .ok t ∧ Ready s.sys t ∧ t.grid = s2.grid ∧ t.ext = s2.ext := by
    obtain ⟨nv, hnv, _⟩ := normVec_ok c.ok
    unfold St.prepareKern
    rw [if_neg (by simp [p2])]
    unfold St.prepareArrays makeKern
    rw [← y2] at hnv
    rw [if_neg (by simp [o2, ho.mfreeq]), hnv]
    simp only [py_pure, py_bind_ok]
    rw [if_pos z2]
    obtain ⟨q1, q2, q3⟩ := prepareSolver_symq s2.opts
    refine ⟨_, rfl, ⟨y2, by simp only [o2]; exact ho.prepareSolver, rfl, rfl, ?_, ⟨_, rfl⟩, Or.inl z2, ⟨_, _, rfl, rfl, ?_, ?_, ?_⟩⟩, rfl, rfl⟩
    · simp only; rw [g2, linspace_length]; exact c.two
    · unfold kernRows; simp only [q1]; rfl
    · rfl
    · unfold kernRows; simp only [q1]; rfl
  obtain ⟨t, e3, r3, g3, x3⟩ := e3
  obtain ⟨u, hu, ru, gu, xu⟩ := tail_ok c r3 (by
    rw [g3, x3, g2, hs2]
    refine hM _ ?_
    unfold extended
    rw [hL, py_bind_ok, hr])
  refine ⟨u, ?_, ru, by rw [gu, g3, g2], ?_⟩
  · unfold St.iteration steps
    rw [List.foldl_cons, step_ok (s' := s1) (by rw [if_pos hz]; exact e1), List.foldl_cons,
      step_ok (s' := s2) (by rw [if_pos z1]; exact e2), List.foldl_cons, step_ok e3]
    exact hu
  · rw [xu, x3, hs2]
    unfold extended
    rw [hL, py_bind_ok, hr]

theorem iterations_next {num : Num} {y : Sys} {n : Nat} {lab ix1 : Nat → Nat → Nat → Nat} {M : List ℝ → Ext → Prop}
    (c : CtxOn num y n lab ix1 M) {s : St}
    (h : Done y s) (hM : M s.grid s.ext) (k : Nat) :
    ∃ t, (St.iteration num)^[k] (s, none) = (t, none) ∧ Done y t ∧ t.grid = s.grid ∧ t.ext = s.ext := by
  induction k generalizing s with
  | zero => exact ⟨s, rfl, h, rfl, rfl⟩
  | succ k ih =>
    obtain ⟨t, e, ht, g, x⟩ := iteration_next c h hM
    obtain ⟨u, e', hu, g', x'⟩ := ih ht (by rw [g, x]; exact hM)
    exact ⟨u, by rw [Function.iterate_succ_apply, e, e'], hu, g'.trans g, x'.trans x⟩

/-- C39, C60, for routines that need to work for the grid of the calculation only. -/
theorem c39_success_on {num : Num} {s : St} (hs : Hist num s) {n : Nat} {lab ix1 : Nat → Nat → Nat → Nat} {M : List ℝ → Ext → Prop}
    (c : CtxOn num s.sys n lab ix1 M) (ho : OptOk s.opts s.sys.v) (hg : s.grid ≠ [])
    (hM : ∀ x : Ext, extended s.sys.v s.sys.E s.sys.band.1 s.sys.band.2 n s.sys.extFct = .ok (x.grid, x.left, x.right) →
      M (linspace s.sys.band.1 s.sys.band.2 n) x) (k : Nat) :
    ∃ s', s.solve num true (some (k + 1)) = (s', none) ∧ Done s.sys s' ∧
      s'.grid = linspace s.sys.band.1 s.sys.band.2 n ∧
      extended s.sys.v s.sys.E s.sys.band.1 s.sys.band.2 n s.sys.extFct = .ok (s'.ext.grid, s'.ext.left, s'.ext.right) := by
  obtain ⟨t, e, ht, g, x⟩ := iteration_first (s := s.restart) c hs.inv.restart rfl ho rfl rfl hg hM
  obtain ⟨u, e', hu, g', x'⟩ := iterations_next c ht (by rw [g]; exact hM _ x) k
  refine ⟨u, ?_, hu, g'.trans g, by rw [x']; exact x⟩
  change (St.iteration num)^[k + 1] (s.restart, none) = _
  rw [Function.iterate_succ_apply, e, e']

/-- C39, C60: after any history that has not left an empty grid, a restarted calculation with `k + 1` iterations raises nothing
and uses the grid of the present band and number of points, extended. -/
theorem c39_success {num : Num} {s : St} (hs : Hist num s) {n : Nat} {lab ix1 : Nat → Nat → Nat → Nat}
    (c : Ctx num s.sys n lab ix1) (ho : OptOk s.opts s.sys.v) (hg : s.grid ≠ []) (k : Nat) :
    ∃ s', s.solve num true (some (k + 1)) = (s', none) ∧ Done s.sys s' ∧
      s'.grid = linspace s.sys.band.1 s.sys.band.2 n ∧
      extended s.sys.v s.sys.E s.sys.band.1 s.sys.band.2 n s.sys.extFct = .ok (s'.ext.grid, s'.ext.left, s'.ext.right) :=
  c39_success_on hs c.on ho hg (fun _ _ => trivial) k

/-! ### Independence of the history -/

/-- Another value of `success` and of the list of equations handed over. -/
def St.put (s : St) (x : Option Bool) (q : List (CMat × CVec)) : St := { s with success := x, asked := q }

/-- A step that does not look at them. -/
def Cong (f : St → Py St) : Prop := ∀ s x q, (∃ e, f s = .error e ∧ f (s.put x q) = .error e) ∨
  ∃ s' x' q', f s = .ok s' ∧ f (s.put x q) = .ok (s'.put x' q')

theorem Cong.bind {α : Type} {m : St → Py α} {g : α → St → Py St} (hm : ∀ s x q, m (s.put x q) = m s) (hg : ∀ a, Cong (g a)) :
    Cong fun s => m s >>= fun a => g a s := by
  intro s x q
  simp only [hm]
  rcases m s with e | a
  · exact Or.inl ⟨e, rfl, rfl⟩
  · exact hg a s x q

theorem Cong.ret {h : St → St} (hh : ∀ s x q, ∃ x' q', h (s.put x q) = (h s).put x' q') : Cong fun s => pure (h s) := by
  intro s x q
  obtain ⟨x', q', e⟩ := hh s x q
  exact Or.inr ⟨h s, x', q', rfl, congrArg pure e⟩

theorem Cong.ite {b : St → Bool} {f g : St → Py St} (hb : ∀ s x q, b (s.put x q) = b s) (hf : Cong f) (hg : Cong g) :
    Cong fun s => if b s then f s else g s := by
  intro s x q
  simp only [hb]
  cases b s
  · exact hg s x q
  · exact hf s x q

theorem cong_err (e : PyErr) : Cong fun _ => .error e := fun _ _ _ => Or.inl ⟨e, rfl, rfl⟩

open Classical in
theorem cong_makeGrid : Cong St.makeGrid := by
  intro s x q
  unfold St.makeGrid
  have e1 : (s.put x q).sys = s.sys := rfl
  have e2 : (s.put x q).grid = s.grid := rfl
  have e3 : (s.put x q).niter = s.niter := rfl
  rw [e1, e2, e3]
  cases s.sys.kpnt with
  | none => exact Or.inl ⟨_, rfl, rfl⟩
  | some n =>
    simp only
    split
    · cases pyGet s.grid 0 with
      | error e => exact Or.inl ⟨e, rfl, rfl⟩
      | ok g0 =>
        cases pyGet s.grid (-1) with
        | error e => exact Or.inl ⟨e, rfl, rfl⟩
        | ok gl =>
          simp only [py_bind_ok]
          split
          · split
            · exact Or.inr ⟨_, x, q, rfl, rfl⟩
            · exact Or.inr ⟨_, x, q, rfl, rfl⟩
          · exact Or.inr ⟨_, x, q, rfl, rfl⟩
    · exact Or.inr ⟨_, x, q, rfl, rfl⟩

theorem cong_extend : Cong St.extend :=
  Cong.bind (fun _ _ _ => rfl) fun _ => Cong.bind (fun _ _ _ => rfl) fun _ => Cong.ret fun _ x q => ⟨x, q, rfl⟩

theorem cong_prepareArrays : Cong St.prepareArrays := by
  unfold St.prepareArrays
  refine Cong.bind (fun _ _ _ => rfl) fun k => Cong.ret fun s x q => ⟨x, q, ?_⟩
  simp only
  have : (s.put x q).zeroth = s.zeroth := rfl
  rw [this]
  split <;> rfl

theorem cong_cleanArrays : Cong St.cleanArrays :=
  Cong.bind (fun _ _ _ => rfl) fun _ => Cong.bind (fun _ _ _ => rfl) fun _ => Cong.ret fun _ x q => ⟨x, q, rfl⟩

theorem cong_prepareKern : Cong St.prepareKern := by
  unfold St.prepareKern
  refine Cong.ite (b := fun s => s.prepared && !s.changed) (fun _ _ _ => rfl) cong_cleanArrays ?_
  intro s x q
  rcases cong_prepareArrays s x q with ⟨e, h1, h2⟩ | ⟨s', x', q', h1, h2⟩
  · exact Or.inl ⟨e, by simp only [h1]; rfl, by simp only [h2]; rfl⟩
  · refine Or.inr ⟨{ s' with opts := s'.opts.prepareSolver, changed := false, prepared := true }, x', q', ?_, ?_⟩
    · simp only [h1]; rfl
    · simp only [h2]; rfl

theorem cong_iterate (num : Num) : Cong (St.iterate num) := by
  unfold St.iterate
  refine Cong.ite (b := fun s => s.zeroth) (fun _ _ _ => rfl) ?_ ?_
  · exact Cong.bind (fun _ _ _ => rfl) fun _ => Cong.ret fun _ x q => ⟨x, q, rfl⟩
  · exact Cong.bind (fun _ _ _ => rfl) fun _ => Cong.bind (fun _ _ _ => rfl) fun _ =>
      Cong.bind (fun _ _ _ => rfl) fun _ => Cong.ret fun _ x q => ⟨x, q, rfl⟩

theorem cong_integrate : Cong St.integrate :=
  Cong.bind (fun _ _ _ => rfl) fun _ => Cong.bind (fun _ _ _ => rfl) fun _ => Cong.bind (fun _ _ _ => rfl) fun _ =>
    Cong.bind (fun _ _ _ => rfl) fun _ => Cong.ret fun _ x q => ⟨x, q, rfl⟩

theorem cong_genKern : Cong St.genKern := by
  unfold St.genKern
  refine Cong.bind (fun _ _ _ => rfl) fun a => ?_
  rcases a.kern with _ | k
  · exact cong_err _
  · exact Cong.bind (fun _ _ _ => rfl) fun _ => Cong.ret fun _ x q => ⟨x, q, rfl⟩

theorem cong_solveKern (num : Num) : Cong (St.solveKern num) :=
  Cong.bind (fun _ _ _ => rfl) fun _ => Cong.bind (fun _ _ _ => rfl) fun _ => Cong.bind (fun _ _ _ => rfl) fun _ =>
    Cong.bind (fun _ _ _ => rfl) fun _ => Cong.bind (fun _ _ _ => rfl) fun _ => Cong.ret fun _ _ q => ⟨_, q ++ [_], rfl⟩

theorem cong_genCurrent : Cong St.genCurrent :=
  Cong.bind (fun _ _ _ => rfl) fun _ => Cong.bind (fun _ _ _ => rfl) fun _ => Cong.ret fun _ x q => ⟨x, q, rfl⟩

theorem cong_record : Cong St.record :=
  Cong.bind (fun _ _ _ => rfl) fun _ => Cong.ret fun _ x q => ⟨x, q, rfl⟩

theorem cong_id : Cong fun s => pure s := Cong.ret fun _ x q => ⟨x, q, rfl⟩

theorem cong_steps (num : Num) : ∀ f ∈ steps num, Cong f := by
  intro f hf
  simp only [steps, List.mem_cons, List.not_mem_nil, or_false] at hf
  rcases hf with rfl | rfl | rfl | rfl | rfl | rfl | rfl | rfl | rfl
  · exact Cong.ite (b := fun s => s.zeroth) (fun _ _ _ => rfl) cong_makeGrid cong_id
  · exact Cong.ite (b := fun s => s.zeroth) (fun _ _ _ => rfl) cong_extend cong_id
  · exact cong_prepareKern
  · exact cong_iterate num
  · exact cong_integrate
  · exact cong_genKern
  · exact cong_solveKern num
  · exact cong_genCurrent
  · exact cong_record

/-- Two results that agree up to `success` and the list of equations. -/
def Alike (r r' : St × Option PyErr) : Prop := r'.2 = r.2 ∧ ∃ x q, r'.1 = r.1.put x q

theorem alike_step {f : St → Py St} (hf : Cong f) {r r' : St × Option PyErr} (h : Alike r r') : Alike (step f r) (step f r') := by
  obtain ⟨s, e⟩ := r
  obtain ⟨s', e'⟩ := r'
  obtain ⟨h1, x, q, h2⟩ := h
  simp only at h1 h2
  subst h1 h2
  rcases e' with _ | e'
  · rcases hf s x q with ⟨e, h1, h2⟩ | ⟨t, x', q', h1, h2⟩
    · rw [step_error h1, step_error h2]
      exact ⟨rfl, x, q, rfl⟩
    · rw [step_ok h1, step_ok h2]
      exact ⟨rfl, x', q', rfl⟩
  · exact ⟨rfl, x, q, rfl⟩

theorem alike_foldl {fs : List (St → Py St)} (hf : ∀ f ∈ fs, Cong f) {r r' : St × Option PyErr} (h : Alike r r') :
    Alike (fs.foldl (fun r f => step f r) r) (fs.foldl (fun r f => step f r) r') := by
  induction fs generalizing r r' with
  | nil => exact h
  | cons f fs ih => exact ih (fun g hg => hf g (by simp [hg])) (alike_step (hf f (by simp)) h)

theorem alike_iterations (num : Num) (k : Nat) {r r' : St × Option PyErr} (h : Alike r r') :
    Alike ((St.iteration num)^[k] r) ((St.iteration num)^[k] r') := by
  induction k generalizing r r' with
  | zero => exact h
  | succ k ih =>
    rw [Function.iterate_succ_apply, Function.iterate_succ_apply]
    exact ih (alike_foldl (cong_steps num) h)

/-- C39: a restarted calculation does not depend on the history (calculations, changed parameters, restarts, errors): it
raises the same error or none, and gives the same records and arrays, as that of a new object. -/
theorem c39_restart {num : Num} {s : St} (hs : Hist num s) {n : Nat} (hk : s.sys.kpnt = some n) (hn : 2 ≤ n)
    (hl : 0 < s.sys.v.nleads) (hg : s.grid ≠ []) (k : Nat) :
    (s.solve num true (some k)).2 = ((St.fresh s.opts s.sys).solve num true (some k)).2 ∧
    (s.solve num true (some k)).1.iters = ((St.fresh s.opts s.sys).solve num true (some k)).1.iters ∧
    (s.solve num true (some k)).1.arrs = ((St.fresh s.opts s.sys).solve num true (some k)).1.arrs := by
  rcases k with _ | k
  · exact ⟨rfl, rfl, rfl⟩
  obtain ⟨A0, hA0⟩ : ∃ A0 : St, A0 = s.restart := ⟨_, rfl⟩
  obtain ⟨B0, hB0⟩ : ∃ B0 : St, B0 = (St.fresh s.opts s.sys).restart := ⟨_, rfl⟩
  have iA : Inv A0 := by rw [hA0]; exact hs.inv.restart
  have iB : Inv B0 := by rw [hB0]; exact (Hist.new (num := num) s.opts s.sys).inv.restart
  have eA := makeGrid_ok (s := A0) iA (by rw [hA0]; rfl) (by rw [hA0]; exact hg) (n := n) (by rw [hA0]; exact hk) hn
    (by rw [hA0]; exact hl)
  have eB := makeGrid_ok (s := B0) iB (by rw [hB0]; rfl) (by rw [hB0]; simp [St.fresh, St.restart]) (n := n)
    (by rw [hB0]; exact hk) hn (by rw [hB0]; exact hl)
  obtain ⟨A1, hA1⟩ : ∃ A1 : St, A1 = { A0 with dband := A0.sys.band, grid := linspace A0.sys.band.1 A0.sys.band.2 n } := ⟨_, rfl⟩
  obtain ⟨B1, hB1⟩ : ∃ B1 : St, B1 = { B0 with dband := B0.sys.band, grid := linspace B0.sys.band.1 B0.sys.band.2 n } := ⟨_, rfl⟩
  rw [← hA1] at eA
  rw [← hB1] at eB
  have zA : A0.zeroth = true := by rw [hA0]; rfl
  have zB : B0.zeroth = true := by rw [hB0]; rfl
  have zA1 : A1.zeroth = true := by rw [hA1]; exact zA
  have zB1 : B1.zeroth = true := by rw [hB1]; exact zB
  have hAB : A1 = { B1 with changed := s.changed, ext := s.ext, success := s.success, asked := s.asked } := by
    rw [hA1, hB1, hA0, hB0]; rfl
  have goal : Alike ((St.iteration num)^[k + 1] (B0, none)) ((St.iteration num)^[k + 1] (A0, none)) ∨
      ∃ (X Y : St) (e : PyErr), (St.iteration num)^[k + 1] (A0, none) = (X, some e) ∧
        (St.iteration num)^[k + 1] (B0, none) = (Y, some e) ∧ X.iters = Y.iters ∧ X.arrs = Y.arrs := by
    have run : ∀ (X Y Z : St), X.zeroth = true → Y.zeroth = true → X.makeGrid = .ok Y → Y.extend = .ok Z →
        St.iteration num (X, none) = ((steps num).drop 2).foldl (fun r f => step f r) (Z, none) := by
      intro X Y Z zX zY e1 e2
      unfold St.iteration steps
      rw [List.foldl_cons, step_ok (s' := Y) (by rw [if_pos zX]; exact e1), List.foldl_cons,
        step_ok (s' := Z) (by rw [if_pos zY]; exact e2)]
      rfl
    have runErr : ∀ (X Y : St) (e : PyErr), X.zeroth = true → Y.zeroth = true → X.makeGrid = .ok Y → Y.extend = .error e →
        (St.iteration num)^[k + 1] (X, none) = (Y, some e) := by
      intro X Y e zX zY e1 e2
      rw [Function.iterate_succ_apply]
      have : St.iteration num (X, none) = (Y, some e) := by
        unfold St.iteration steps
        rw [List.foldl_cons, step_ok (s' := Y) (by rw [if_pos zX]; exact e1), List.foldl_cons,
          step_error (e := e) (by rw [if_pos zY]; exact e2)]
        exact foldl_err _ Y e
      rw [this, iterate_err]
    rcases hx : B1.extend with e | B2
    · refine Or.inr ⟨A1, B1, e, runErr A0 A1 e zA zA1 eA ?_, runErr B0 B1 e zB zB1 eB hx, by rw [hAB], by rw [hAB]⟩
      unfold St.extend at hx ⊢
      rw [hAB]
      simp only
      rcases hL : emList B1.sys.v B1.sys.E B1.dband.1 B1.dband.2 with e' | L
      · rw [hL] at hx
        exact hx
      · rw [hL, py_bind_ok] at hx
        rw [py_bind_ok]
        rcases hr : gridExt B1.grid B1.dband.1 B1.dband.2 (lmin L) (lmax L) B1.sys.extFct with e' | r
        · rw [hr] at hx
          exact hx
        · rw [hr, py_bind_ok] at hx
          simp at hx
    · obtain ⟨A2, hA2, hAB2⟩ : ∃ A2, A1.extend = .ok A2 ∧
          A2 = { B2 with changed := s.changed, success := s.success, asked := s.asked } := by
        unfold St.extend at hx ⊢
        obtain ⟨L, hL, hx⟩ := bind_inv hx
        obtain ⟨r, hr, hx⟩ := bind_inv hx
        simp only [py_pure, Except.ok.injEq] at hx
        rw [hAB]
        simp only
        rw [hL, py_bind_ok, hr, py_bind_ok]
        exact ⟨_, rfl, by rw [← hx]⟩
      have pB : B2.prepared = false := by
        obtain ⟨y, rfl⟩ := extend_inv hx
        rw [hB1, hB0]; rfl
      have pA : A2.prepared = false := by rw [hAB2]; exact pB
      rw [Function.iterate_succ_apply, Function.iterate_succ_apply, run A0 A1 A2 zA zA1 eA hA2, run B0 B1 B2 zB zB1 eB hx]
      have hd : (steps num).drop 2 = St.prepareKern :: (steps num).drop 3 := rfl
      rw [hd, List.foldl_cons, List.foldl_cons]
      have key : ∀ X : St, X.prepared = false → X.prepareKern = X.prepareArrays >>= fun t =>
            pure { t with opts := t.opts.prepareSolver, changed := false, prepared := true } := by
        intro X hX
        unfold St.prepareKern
        rw [if_neg (by simp [hX])]
      have kA := key A2 pA
      have kB := key B2 pB
      unfold St.prepareArrays at kA kB
      rw [hAB2] at kA
      simp only at kA
      rw [← hAB2] at kA
      rcases hm : makeKern B2.opts B2.sys.v with e | kk
      · right
        rw [hm] at kA kB
        refine ⟨A2, B2, e, ?_, ?_, by rw [hAB2], by rw [hAB2]⟩
        · rw [step_error kA, foldl_err, iterate_err]
        · rw [step_error kB, foldl_err, iterate_err]
      · left
        rw [hm] at kA kB
        simp only [py_bind_ok, py_pure] at kA kB
        rw [step_ok kA, step_ok kB]
        refine alike_iterations num k (alike_foldl (fun f hf => cong_steps num f (List.mem_of_mem_drop hf)) ⟨rfl, s.success, s.asked, ?_⟩)
        by_cases hz : B2.zeroth = true
        · simp only [hz, if_true]; rfl
        · simp only [hz]; rfl
  have uA : s.solve num true (some (k + 1)) = (St.iteration num)^[k + 1] (A0, none) := by rw [hA0]; rfl
  have uB : (St.fresh s.opts s.sys).solve num true (some (k + 1)) = (St.iteration num)^[k + 1] (B0, none) := by rw [hB0]; rfl
  rw [uA, uB]
  rcases goal with ⟨g1, x, q, g2⟩ | ⟨X, Y, e, g1, g2, g3, g4⟩
  · rw [g1, g2]
    exact ⟨rfl, rfl, rfl⟩
  · rw [g1, g2]
    exact ⟨rfl, g3, g4⟩

/-! ### Calculations that fail, and grids that are kept -/

/-- C39: in matrix-free mode no calculation with at least one iteration succeeds, after any history. -/
theorem c39_mfree {num : Num} {s : St} (hs : Hist num s) (hm : s.opts.mfreeq = true) (k : Nat) :
    (s.solve num true (some (k + 1))).2 ≠ none := by
  intro h
  have hr : (St.iteration num)^[k] (St.iteration num (s.restart, none)) = s.solve num true (some (k + 1)) := by
    change _ = (St.iteration num)^[k + 1] (s.restart, none)
    rw [Function.iterate_succ_apply]
  rcases h1 : St.iteration num (s.restart, none) with ⟨t, _ | x⟩
  · obtain ⟨a, K0, Kg, K, b, nv, evs, q, _, _, _, _, _, _, _, _, _, _, _, _, _, _, _, g, _⟩ := iteration_facts hs.inv.restart h1
    have : s.opts.mfreeq = false := g
    rw [hm] at this
    simp at this
  · rw [h1, iterate_err] at hr
    rw [← hr] at h
    simp at h

/-- C39: once a calculation with `kpnt=0` was tried, every later restarted one raises, whatever the parameters are: the empty
grid is kept by `restart` and its first element is read. -/
theorem c39_kpnt_zero {num : Num} (o : Opts) {y : Sys} {lab ix1 : Nat → Nat → Nat → Nat} (h : VOkC y.v lab ix1)
    (hl : 0 < y.v.nleads) (hk : y.kpnt = some 0) :
    ∃ t, (St.fresh o y).solve num true (some 1) = (t, some .index) ∧
      ∀ (y' : Sys) (n : Nat), 0 < y'.v.nleads → y'.kpnt = some n → ∀ k,
        (({ t with sys := y' } : St).solve num true (some (k + 1))).2 = some .index := by
  classical
  have e1 : (St.fresh o y).restart.makeGrid
      = .ok { (St.fresh o y).restart with dband := y.band, grid := [] } := by
    unfold St.makeGrid
    change (match y.kpnt with | none => _ | some n => _) = _
    rw [hk]
    simp only
    rw [if_pos (show 0 < (St.fresh o y).restart.sys.v.nleads from hl)]
    have g0 : pyGet (St.fresh o y).restart.grid 0 = .ok 0 := rfl
    have g1 : pyGet (St.fresh o y).restart.grid (-1) = .ok 0 := rfl
    rw [g0, g1]
    simp only [py_bind_ok]
    rw [if_pos (Or.inr (Or.inr (by simp [St.fresh, St.restart])))]
    rw [if_neg (by simp [St.restart])]
    rfl
  have e2 : St.extend { (St.fresh o y).restart with dband := y.band, grid := [] } = .error .index := by
    unfold St.extend
    change (emList y.v y.E y.band.1 y.band.2 >>= _) = _
    rw [emList_ok h, py_bind_ok]
    rfl
  refine ⟨{ (St.fresh o y).restart with dband := y.band, grid := [] }, ?_, ?_⟩
  · change St.iteration num ((St.fresh o y).restart, none) = _
    unfold St.iteration steps
    rw [List.foldl_cons, step_ok (by exact e1), List.foldl_cons, step_error (by exact e2)]
    exact foldl_err _ _ _
  · intro y' n hl' hk' k
    obtain ⟨t, ht⟩ : ∃ t : St, t = St.restart { (St.fresh o y).restart with dband := y.band, grid := [], sys := y' } := ⟨_, rfl⟩
    change ((St.iteration num)^[k + 1] (St.restart { (St.fresh o y).restart with dband := y.band, grid := [], sys := y' }, none)).2 = _
    rw [← ht]
    have e3 : t.makeGrid = .error .index := by
      unfold St.makeGrid
      rw [ht]
      change (match y'.kpnt with | none => _ | some n => _) = _
      rw [hk']
      simp only
      exact if_pos hl'
    have : St.iteration num (t, none) = (t, some .index) := by
      unfold St.iteration steps
      rw [List.foldl_cons, step_error (e := .index) (by rw [if_pos (by rw [ht]; rfl)]; exact e3)]
      exact foldl_err _ _ _
    rw [Function.iterate_succ_apply, this, iterate_err]

/-- C60 fails: after a calculation on one grid, iterations that are continued with another band or another number of points (and
the same states) raise nothing and stay on the old grid. -/
theorem c60_ignored {num : Num} {s : St} (hs : Hist num s) {n : Nat} {lab ix1 : Nat → Nat → Nat → Nat}
    (c : Ctx num s.sys n lab ix1) (ho : OptOk s.opts s.sys.v) (hg : s.grid ≠ []) {y' : Sys} {n' : Nat}
    (hv : y'.v = s.sys.v) (c' : Ctx num y' n' lab ix1) (k m : Nat) :
    ∃ s' s'', s.solve num true (some (k + 1)) = (s', none) ∧
      ({ s' with sys := y' } : St).solve num false (some (m + 1)) = (s'', none) ∧
      s'.grid = linspace s.sys.band.1 s.sys.band.2 n ∧ s''.grid = linspace s.sys.band.1 s.sys.band.2 n ∧
      s''.iters.length = k + m + 2 := by
  obtain ⟨s', e, ⟨r, hz⟩, g, _⟩ := c39_success hs c ho hg k
  have hd : Done y' { s' with sys := y' } := by
    obtain ⟨a, kk, ha, hk, k1, k2, k3⟩ := r.kern
    refine ⟨⟨rfl, by rw [hv]; exact r.opts, r.prepared, r.changed, r.grid, r.phi1k, r.delta, ⟨a, kk, ha, hk, ?_, ?_, ?_⟩⟩, hz⟩
    · simp only [hv]; rw [k1, r.sys]
    · simp only [hv]; rw [k2, r.sys]
    · simp only [hv]; rw [k3, r.sys]
  obtain ⟨s'', e'', _, g'', _⟩ := iterations_next c'.on hd trivial (m + 1)
  refine ⟨s', s'', e, e'', g, g''.trans g, ?_⟩
  have hist : Hist num s' := by
    have := hs.solve true (some (k + 1))
    rw [e] at this
    exact this
  have hist' : Hist num { s' with sys := y' } := hist.params y' (by rw [hv, r.sys])
  obtain ⟨_, ⟨rs, h2, h3, _⟩, _⟩ := iterations_facts hist'.inv e''
  rw [h2, List.length_append, h3, (c39_count hs e).2.1]
  omega

/-- C60, for calculations that are restarted: the grid is that of the present parameters, after any history. Missing: continued
calculations, see `c60_ignored`. -/
theorem c60_restart_partial {num : Num} {s : St} (hs : Hist num s) {n : Nat} {lab ix1 : Nat → Nat → Nat → Nat}
    (c : Ctx num s.sys n lab ix1) (ho : OptOk s.opts s.sys.v) (hg : s.grid ≠ []) (k : Nat) :
    ∃ s', s.solve num true (some (k + 1)) = (s', none) ∧ s'.grid.length = n ∧
      pyGet s'.grid 0 = .ok s.sys.band.1 ∧ pyGet s'.grid (-1) = .ok s.sys.band.2 := by
  obtain ⟨s', e, _, g, _⟩ := c39_success hs c ho hg k
  refine ⟨s', e, ?_⟩
  rw [g]
  exact ⟨linspace_length _ _ _, linspace_first (by have := c.two; omega), linspace_last c.two⟩

/-! ### A concrete system -/

/-- Numerical routines for the examples: the first order elements are constants and the solver returns zeros. -/
def exNum : Num where
  loc _ _ _ := .ok (fun _ _ _ _ => 1, fun _ _ _ _ => 1)
  itr _ _ _ d _ := .ok d
  solve _ b := some (CVec.zeros b.size)
  lstsq _ b := some (CVec.zeros b.size)

/-- Parameters for the examples: a band from -5 to 5. -/
def exSys (v : View) (n : Nat) : Sys :=
  ⟨v, fun b => b, fun _ _ _ => 1, fun _ => 0, fun _ => 1, [(-5, 5), (-5, 5)], some n, 11 / 10⟩

theorem exSys_band (v : View) (n : Nat) : (exSys v n).band = (-5, 5) := by
  simp [Sys.band, exSys, lmin, lmax]

theorem exCtx (n : Nat) (hn : 2 ≤ n) : ∃ (v : View) (lab ix1 : Nat → Nat → Nat → Nat), v.ndm0 = 6 ∧
    Ctx exNum (exSys v n) n lab ix1 := by
  obtain ⟨d, _, hv, hs, hp, hn0⟩ := viewC_example 2
  refine ⟨d.view 2, d.lab0, d.lab1, hn0, ⟨hv, ?_, rfl, hn, ?_, fun _ _ => ⟨_, rfl⟩, fun _ _ _ _ => ⟨_, rfl⟩⟩⟩
  · simp [exSys, DM.view]
  · rw [exSys_band]; norm_num

/-- A new object meets the hypotheses of the theorems of this file. -/
theorem exHist (n : Nat) (hn : 2 ≤ n) : ∃ (o : Opts) (y : Sys) (lab ix1 : Nat → Nat → Nat → Nat),
    Hist exNum (.fresh o y) ∧ Ctx exNum y n lab ix1 ∧ OptOk o y.v ∧ (St.fresh o y).grid ≠ [] ∧ o.symq = true := by
  obtain ⟨v, lab, ix1, hv, hc⟩ := exCtx n hn
  exact ⟨⟨true, false, 0, some "solve", none⟩, exSys v n, lab, ix1, .new _ _, hc, ⟨rfl, fun _ => by
    change -(v.ndm0 : Int) ≤ 0 ∧ (0 : Int) < v.ndm0
    omega⟩, by simp [St.fresh], rfl⟩

/-- Three iterations of a new object, then two more. -/
example : ∃ s s' s'' : St, Hist exNum s ∧ s.solve exNum true (some 3) = (s', none) ∧ s'.iters.length = 3 ∧ s'.niter = 2 ∧
    s'.solve exNum false (some 2) = (s'', none) ∧ s''.iters.length = 5 ∧
    s'.solve exNum false (some 2) = s.solve exNum true (some 5) := by
  obtain ⟨o, y, lab, ix1, hh, hc, ho, hg, _⟩ := exHist 7 (by norm_num)
  obtain ⟨s', e, _⟩ := c39_success hh hc ho hg 2
  obtain ⟨s'', e', _⟩ := c39_success hh hc ho hg 4
  have h3 := c39_count hh e
  have h5 := c39_count hh e'
  have hcont := c39_continue 2 e
  refine ⟨_, s', s'', hh, e, h3.2.1, by rw [h3.1]; norm_num, ?_, h5.2.1, hcont⟩
  rw [hcont]
  exact e'

/-- An iteration as in `c27_iteration`. -/
example : ∃ (s s' : St) (lab ix1 : Nat → Nat → Nat → Nat), Hist exNum s ∧ VOkC s.sys.v lab ix1 ∧
    St.iteration exNum (s, none) = (s', none) := by
  obtain ⟨o, y, lab, ix1, hh, hc, ho, hg, _⟩ := exHist 7 (by norm_num)
  obtain ⟨t, e, _⟩ := iteration_first hc.on hh.inv rfl ho rfl rfl hg (fun _ _ => trivial)
  exact ⟨_, t, lab, ix1, hh, hc.ok, e⟩

/-- An iteration as in `c27_solution` and `c27_conserved`, with the first population replaced. -/
example : ∃ (s s' : St) (lab ix1 : Nat → Nat → Nat → Nat), Hist exNum s ∧ VOkC s.sys.v lab ix1 ∧
    s.opts.symq = true ∧ (∃ r, pyIdx s.sys.v.ndm0 s.opts.normRow = .ok r ∧ r < s.sys.v.npauli) ∧ HermT s.sys.T ∧
    St.iteration exNum (s, none) = (s', none) := by
  obtain ⟨d, _, hv, hs, hp, hn0⟩ := viewC_example 2
  have hc : Ctx exNum (exSys (d.view 2) 7) 7 d.lab0 d.lab1 := by
    refine ⟨hv, ?_, rfl, by norm_num, ?_, fun _ _ => ⟨_, rfl⟩, fun _ _ _ _ => ⟨_, rfl⟩⟩
    · simp [exSys, DM.view]
    · rw [exSys_band]; norm_num
  have hn : (d.view 2).ndm0 = 6 := hn0
  have hp' : (d.view 2).npauli = 4 := hp
  have hh : Hist exNum (.fresh ⟨true, false, 0, some "solve", none⟩ (exSys (d.view 2) 7)) := .new _ _
  obtain ⟨t, e, _⟩ := iteration_first hc.on hh.inv rfl ⟨rfl, fun _ => by
    change -((d.view 2).ndm0 : Int) ≤ 0 ∧ (0 : Int) < (d.view 2).ndm0
    omega⟩ rfl rfl (by simp [St.fresh]) (fun _ _ => trivial)
  refine ⟨_, t, d.lab0, d.lab1, hh, hv, rfl, ⟨0, ?_, ?_⟩, fun _ _ _ => by simp [St.fresh, exSys], e⟩
  · change pyIdx (d.view 2).ndm0 0 = _
    rw [hn]; rfl
  · change 0 < (d.view 2).npauli
    omega

/-- `c39_restart` for an object that has been used. -/
example : ∃ s s' : St, Hist exNum s ∧ s.iters.length = 4 ∧
    (s.solve exNum true (some 2)).1.iters = ((St.fresh s.opts s.sys).solve exNum true (some 2)).1.iters ∧
    s.solve exNum true (some 2) = (s', none) := by
  obtain ⟨o, y, lab, ix1, hh, hc, ho, hg, _⟩ := exHist 7 (by norm_num)
  obtain ⟨s', e, ⟨r, _⟩, g, _⟩ := c39_success hh hc ho hg 3
  have hist : Hist exNum s' := by
    have := hh.solve true (some 4)
    rw [e] at this
    exact this
  have hg' : s'.grid ≠ [] := by
    rw [g]
    intro h
    have := congrArg List.length h
    rw [linspace_length] at this
    simp at this
  have hc' : Ctx exNum s'.sys 7 lab ix1 := by rw [r.sys]; exact hc
  obtain ⟨s'', e', _⟩ := c39_success hist hc' (by rw [r.sys]; exact r.opts) hg' 1
  exact ⟨s', s'', hist, (c39_count hh e).2.1, (c39_restart hist hc'.kpnt (by norm_num) hc'.leads hg' 2).2.1, e'⟩

/-- `c60_ignored`: 7 points, then 20. -/
example : ∃ (s : St) (y' : Sys), y'.kpnt = some 20 ∧ ∃ s' s'', s.solve exNum true (some 1) = (s', none) ∧
    ({ s' with sys := y' } : St).solve exNum false (some 1) = (s'', none) ∧ s''.grid.length = 7 := by
  obtain ⟨v, lab, ix1, hv, hc⟩ := exCtx 7 (by norm_num)
  have hc' : Ctx exNum (exSys v 20) 20 lab ix1 :=
    ⟨hc.ok, hc.leads, rfl, by norm_num, by rw [exSys_band]; norm_num, fun _ _ => ⟨_, rfl⟩, fun _ _ _ _ => ⟨_, rfl⟩⟩
  obtain ⟨s', s'', e, e', _, g, _⟩ := c60_ignored (s := .fresh ⟨true, false, 0, some "solve", none⟩ (exSys v 7)) (.new _ _) hc
    ⟨rfl, fun _ => by
      change -(v.ndm0 : Int) ≤ 0 ∧ (0 : Int) < v.ndm0
      omega⟩ (by simp [St.fresh]) (y' := exSys v 20) rfl hc' 0 0
  exact ⟨_, _, rfl, s', s'', e, e', by rw [g, linspace_length]⟩

/-- `c39_mfree`, `c39_kpnt_zero`. -/
example : ∃ (o : Opts) (y : Sys) (lab ix1 : Nat → Nat → Nat → Nat), o.mfreeq = true ∧ Hist exNum (.fresh o y) ∧
    VOkC y.v lab ix1 ∧ 0 < y.v.nleads ∧ y.kpnt = some 0 := by
  obtain ⟨v, lab, ix1, hv, hc⟩ := exCtx 7 (by norm_num)
  exact ⟨⟨true, true, 0, none, none⟩, exSys v 0, lab, ix1, rfl, .new _ _, hc.ok, hc.leads, rfl⟩

end VN2

end

end Verif
