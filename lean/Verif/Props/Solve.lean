import Verif.Lemmas.Appr

/-!
Properties of the solution of the equations: C22 (second part), C30, C31, C34, C46, C49.
-/

namespace Verif

noncomputable section

open Finset

/-! ### C34: every solve starts from clean arrays -/

/-- **C34**, matrix mode. Let `s` be the state of an approach object after any history of
option changes, parameter changes, changes of the considered states that set `states_changed`,
and solves. Then `solve` behaves as for a new object `f` with the same options and parameters:
it raises the same exception or none, and leaves the same kernel, right-hand side, solution,
success flag and currents. The linear solver `lib` is arbitrary, so the system handed to it is
the same too.

Excluded are histories with assignments to `mfreeq` and with changes of the indexing object
that do not set `states_changed`; for these see `c34_mfreeq_false` and `c34_silent_false`. -/
theorem c34_clean_matrix_partial {size : View → Nat} {useKh : Bool} {s : AState}
    (hs0 : Reached size useKh s) (lib : LinLib) (run : RootRun) (c : Bool)
    (hm : s.opts.mfreeq = false)
    (hs : s.opts.prepareSolver.solmethod = some "solve" ∨
      s.opts.prepareSolver.solmethod = some "lsqr") :
    let f := AState.fresh s.opts s.v s.ap s.size s.useKh
    (s.solve lib run c).2 = (f.solve lib run c).2 ∧
    ((s.solve lib run c).2 = none →
      (s.solve lib run c).1.kern = (f.solve lib run c).1.kern ∧
      (s.solve lib run c).1.bvec = (f.solve lib run c).1.bvec ∧
      (s.solve lib run c).1.phi0 = (f.solve lib run c).1.phi0 ∧
      (s.solve lib run c).1.success = (f.solve lib run c).1.success ∧
      (s.solve lib run c).1.cur = (f.solve lib run c).1.cur) := by
  intro f
  have hi : LInv s := hs0.inv.1
  have hf : LInv f := fresh_inv s.opts s.v s.ap s.size s.useKh
  obtain ⟨t, e, g, -, -, -, -, -, -, k⟩ := solve_matrix hi hm hs lib run c
  obtain ⟨t', e', g', -, -, -, -, -, -, k'⟩ := solve_matrix hf hm hs lib run c
  rw [g, g']
  have hrf : Ref.solve f.opts.prepareSolver f.v f.ap (f.size f.v) lib c
      = Ref.solve s.opts.prepareSolver s.v s.ap (s.size s.v) lib c := rfl
  rw [hrf] at k'
  cases hr : Ref.solve s.opts.prepareSolver s.v s.ap (s.size s.v) lib c with
  | error x =>
    rw [hr] at k k'
    simp only at k k'
    subst k k'
    exact ⟨rfl, by simp⟩
  | ok r =>
    rw [hr] at k k'
    simp only at k k'
    obtain ⟨a1, a2, a3, a4, a5, a6, -⟩ := k
    obtain ⟨b1, b2, b3, b4, b5, b6, -⟩ := k'
    exact ⟨a1.trans b1.symm, fun _ => ⟨a2.trans b2.symm, a3.trans b3.symm, a4.trans b4.symm,
      a5.trans b5.symm, a6.trans b6.symm⟩⟩

/-- **C34**, matrix-free mode, for root finders that evaluate the function at least once. -/
theorem c34_clean_free_partial {size : View → Nat} {useKh : Bool} {s : AState}
    (hs0 : Reached size useKh s) (lib : LinLib) (run : RootRun) (c : Bool)
    (hm : s.opts.mfreeq = true) (hr : run.trials ≠ []) :
    let f := AState.fresh s.opts s.v s.ap s.size s.useKh
    (s.solve lib run c).2 = (f.solve lib run c).2 ∧
    ((s.solve lib run c).2 = none →
      (s.solve lib run c).1.phi0 = (f.solve lib run c).1.phi0 ∧
      (s.solve lib run c).1.success = (f.solve lib run c).1.success ∧
      (s.solve lib run c).1.cur = (f.solve lib run c).1.cur) := by
  intro f
  obtain ⟨t, ts, ht⟩ : ∃ t ts, run.trials = t :: ts := by
    cases h : run.trials with
    | nil => exact absurd h hr
    | cons t ts => exact ⟨t, ts, rfl⟩
  have hi : LInv s := hs0.inv.1
  have hf : LInv f := fresh_inv s.opts s.v s.ap s.size s.useKh
  obtain ⟨u, e, g, -, -, -, -, -, -, k⟩ := solve_free hi hm lib run ht c
  obtain ⟨u', e', g', -, -, -, -, -, -, k'⟩ := solve_free hf hm lib run ht c
  rw [g, g']
  have hrf : Ref.solveFree f.opts.normRow f.v f.ap (f.size f.v) f.useKh t ts run.out c
      = Ref.solveFree s.opts.normRow s.v s.ap (s.size s.v) s.useKh t ts run.out c := rfl
  rw [hrf] at k'
  cases hr : Ref.solveFree s.opts.normRow s.v s.ap (s.size s.v) s.useKh t ts run.out c with
  | error x =>
    rw [hr] at k k'
    simp only at k k'
    subst k k'
    exact ⟨rfl, by simp⟩
  | ok r =>
    rw [hr] at k k'
    simp only at k k'
    obtain ⟨a1, a2, a3, a4⟩ := k
    obtain ⟨b1, b2, b3, b4⟩ := k'
    exact ⟨a1.trans b1.symm, fun _ => ⟨a2.trans b2.symm, a3.trans b3.symm, a4.trans b4.symm⟩⟩

/-! ### C31: the replaced equation does not matter -/

theorem sys_dims {K S : Mat} {b0 nv b : Vec} {i : Int} (hg : Ref.sys K b0 nv i = .ok (S, b)) :
    S.rows = K.rows ∧ S.cols = K.cols ∧ b.size = b0.size := by
  unfold Ref.sys Mat.setRow Vec.put at hg
  cases h1 : pyIdx K.rows i with
  | error e => rw [h1] at hg; cases hg
  | ok r =>
    rw [h1] at hg
    simp only [py_bind_ok] at hg
    split at hg
    · cases h2 : pyIdx b0.size i with
      | error e => rw [h2] at hg; cases hg
      | ok r' =>
        rw [h2] at hg
        cases hg
        exact ⟨rfl, rfl, rfl⟩
    · cases hg

theorem sys_square {n : Nat} {K : Mat} (hr : K.rows = n) (hc : K.cols = n) {nv : Vec}
    (hn : nv.size = n) {i : Int} {r : Nat} (hi : pyIdx n i = .ok r) :
    ∃ S b, Ref.sys K (Vec.zeros n) nv i = .ok (S, b) ∧
      (∀ p j, S.val p j = if p = r then nv.val j else K.val p j) ∧
      ∀ p, b.val p = if p = r then 1 else 0 := by
  unfold Ref.sys Mat.setRow Vec.put
  rw [hr, hi]
  simp only [py_bind_ok, hc, hn, if_true, py_pure, Vec.zeros, hi]
  exact ⟨_, _, rfl, fun _ _ => rfl, fun _ => rfl⟩

theorem sys_last {n : Nat} {K : Mat} (hr : K.rows = n + 1) (hc : K.cols = n) {nv : Vec}
    (hn : nv.size = n) :
    ∃ S b, Ref.sys K (Vec.zeros (n + 1)) nv (-1) = .ok (S, b) ∧
      (∀ p j, S.val p j = if p = n then nv.val j else K.val p j) ∧
      ∀ p, b.val p = if p = n then 1 else 0 := by
  have hi : pyIdx (n + 1) (-1) = .ok n := by
    have := pyIdx_neg (len := n + 1) (k := 1) (by omega) (by omega)
    simpa using this
  unfold Ref.sys Mat.setRow Vec.put
  rw [hr, hi]
  simp only [py_bind_ok, hc, hn, if_true, py_pure, Vec.zeros, hi]
  exact ⟨_, _, rfl, fun _ _ => rfl, fun _ => rfl⟩

/-- **C31**. Let the norm vector annihilate the kernel from the left, and let `norm_row` point
to a row in which the norm vector does not vanish. Then the square system handed to the solver
has the same solutions as all equations `kern·φ = 0` together with the normalisation. -/
theorem c31_square {n : Nat} {K : Mat} (hr : K.rows = n) (hc : K.cols = n) {nv : Vec}
    (hn : nv.size = n) (hz : ∀ j, j < n → ∑ i ∈ range n, nv.val i * K.val i j = 0)
    {normRow : Int} {r : Nat} (hi : pyIdx n normRow = .ok r) (hv : nv.val r ≠ 0) :
    ∃ S b, Ref.sys K (Vec.zeros n) nv normRow = .ok (S, b) ∧ ∀ φ : Nat → ℝ,
      (∀ p, p < n → ∑ j ∈ range n, S.val p j * φ j = b.val p) ↔
      ((∀ p, p < n → ∑ j ∈ range n, K.val p j * φ j = 0) ∧ ∑ j ∈ range n, nv.val j * φ j = 1) := by
  obtain ⟨S, b, g, hS, hb⟩ := sys_square hr hc hn hi
  have hrn : r < n := pyIdx_ok_lt hi
  refine ⟨S, b, g, fun φ => ⟨fun hφ => ?_, fun ⟨h1, h2⟩ p hp => ?_⟩⟩
  · have other : ∀ p, p < n → p ≠ r → ∑ j ∈ range n, K.val p j * φ j = 0 := by
      intro p hp hpr
      have := hφ p hp
      simp only [hS, hb, if_neg hpr] at this
      exact this
    have hnorm : ∑ j ∈ range n, nv.val j * φ j = 1 := by
      have := hφ r hrn
      simp only [hS, hb, if_true] at this
      exact this
    refine ⟨fun p hp => ?_, hnorm⟩
    by_cases hpr : p = r
    · subst hpr
      have tot : ∑ i ∈ range n, nv.val i * ∑ j ∈ range n, K.val i j * φ j = 0 := by
        simp only [mul_sum]
        rw [sum_comm]
        apply sum_eq_zero
        intro j hj
        have := hz j (mem_range.1 hj)
        calc ∑ i ∈ range n, nv.val i * (K.val i j * φ j)
            = (∑ i ∈ range n, nv.val i * K.val i j) * φ j := by
              rw [sum_mul]; exact sum_congr rfl fun i _ => by ring
          _ = 0 := by rw [this, zero_mul]
      rw [sum_eq_single_of_mem p (mem_range.2 hp)
        (fun i hi' hne => by rw [other i (mem_range.1 hi') hne, mul_zero])] at tot
      exact (mul_eq_zero.1 tot).resolve_left hv
    · exact other p hp hpr
  · by_cases hpr : p = r
    · simp only [hS, hb, hpr, if_true]; exact h2
    · simp only [hS, hb, if_neg hpr]; exact h1 p hp

/-- The same for the overdetermined system used when `symq` is false. -/
theorem c31_overdetermined {n : Nat} {K : Mat} (hr : K.rows = n + 1) (hc : K.cols = n) {nv : Vec}
    (hn : nv.size = n) :
    ∃ S b, Ref.sys K (Vec.zeros (n + 1)) nv (-1) = .ok (S, b) ∧ ∀ φ : Nat → ℝ,
      (∀ p, p < n + 1 → ∑ j ∈ range n, S.val p j * φ j = b.val p) ↔
      ((∀ p, p < n → ∑ j ∈ range n, K.val p j * φ j = 0) ∧ ∑ j ∈ range n, nv.val j * φ j = 1) := by
  obtain ⟨S, b, g, hS, hb⟩ := sys_last hr hc hn
  refine ⟨S, b, g, fun φ => ⟨fun hφ => ⟨fun p hp => ?_, ?_⟩, fun ⟨h1, h2⟩ p hp => ?_⟩⟩
  · have := hφ p (by omega)
    simp only [hS, hb, if_neg (show p ≠ n by omega)] at this
    exact this
  · have := hφ n (by omega)
    simp only [hS, hb, if_true] at this
    exact this
  · by_cases hpr : p = n
    · simp only [hS, hb, hpr, if_true]; exact h2
    · simp only [hS, hb, if_neg hpr]; exact h1 p (by omega)

section
variable {v : View} {la : Lab} (h : VOk v la)
include h

theorem pop_norm {n : Nat} {nv : Vec} (hn : v.npauli ≤ n)
    (e : ∀ i, nv.val i = if i < v.npauli then 1 else 0) (φ : Nat → ℝ) :
    ∑ j ∈ range n, nv.val j * φ j = ∑ j ∈ range v.npauli, φ j := by
  have : ∀ i, nv.val i * φ i = if i < v.npauli then φ i else 0 := by
    intro i; rw [e]; split <;> simp
  rw [sum_congr rfl fun i _ => this i, ← sum_filter]
  congr 1
  ext i
  simp only [mem_range, mem_filter]
  omega

/-- The reference computation for an approach on an object that labels a density matrix. -/
theorem ref_solve {ap : Appr} {n : Nat} (W : Works v ap n) (o : Opts)
    (hrow : o.symq = true → ∃ r, pyIdx n o.normRow = .ok r ∧ r < v.npauli) (lib : LinLib)
    (c : Bool) :
    ∃ K S b evs, (do let cs ← ap.calls v; v.runKern (Mat.zeros (Ref.rows o n) n) cs) = .ok K ∧
      (S.rows = Ref.rows o n ∧ S.cols = n ∧ b.size = Ref.rows o n) ∧
      (∀ φ : Nat → ℝ, (∀ p, p < Ref.rows o n → ∑ j ∈ range n, S.val p j * φ j = b.val p) ↔
        ((∀ p, p < n → ∑ j ∈ range n, K.val p j * φ j = 0) ∧ ∑ j ∈ range v.npauli, φ j = 1)) ∧
      Ref.currents ap v (Ref.result n (Ref.answer o lib S b)).1 c = .ok evs ∧
      Ref.solve o v ap n lib c = .ok ⟨if o.symq then K else S, b,
        (Ref.result n (Ref.answer o lib S b)).1, (Ref.result n (Ref.answer o lib S b)).2, evs⟩ := by
  obtain ⟨cs, L, gc, A, hcons⟩ := W.calls
  have hle : n ≤ Ref.rows o n := by unfold Ref.rows; split <;> omega
  obtain ⟨K, gK, hr, hc, hL⟩ := (A cs (.refl cs)).kern (Ref.rows o n) hle
  obtain ⟨nv, gn, hns, hnv⟩ := genNormVec_ok h n W.np_le
  have hz : ∀ j, j < n → ∑ i ∈ range n, nv.val i * K.val i j = 0 := by
    intro j hj
    rw [pop_norm h W.np_le hnv, ← hcons (fun k => if k = j then 1 else 0)]
    refine sum_congr rfl fun i _ => ?_
    rw [K.val_eq_app (by omega), hL]
  have sysok : ∃ S b, Ref.sys K (Vec.zeros (Ref.rows o n)) nv (Ref.pos o) = .ok (S, b) ∧
      ∀ φ : Nat → ℝ, (∀ p, p < Ref.rows o n → ∑ j ∈ range n, S.val p j * φ j = b.val p) ↔
        ((∀ p, p < n → ∑ j ∈ range n, K.val p j * φ j = 0) ∧ ∑ j ∈ range n, nv.val j * φ j = 1) := by
    cases hsy : o.symq with
    | true =>
      obtain ⟨r, hr1, hr2⟩ := hrow hsy
      have e1 : Ref.rows o n = n := by simp [Ref.rows, hsy]
      have e2 : Ref.pos o = o.normRow := by simp [Ref.pos, hsy]
      rw [e1] at hr ⊢
      rw [e2]
      exact c31_square hr hc hns hz hr1 (by rw [hnv, if_pos hr2]; exact one_ne_zero)
    | false =>
      have e1 : Ref.rows o n = n + 1 := by simp [Ref.rows, hsy]
      have e2 : Ref.pos o = -1 := by simp [Ref.pos, hsy]
      rw [e1] at hr ⊢
      rw [e2]
      exact c31_overdetermined hr hc hns
  obtain ⟨S, b, gs, heq⟩ := sysok
  simp only [pop_norm h W.np_le hnv] at heq
  have hsz : (Ref.result n (Ref.answer o lib S b)).1.size = n := by
    unfold Ref.result
    split
    · rfl
    · split
      · assumption
      · rfl
  have hcur : ∃ evs, Ref.currents ap v (Ref.result n (Ref.answer o lib S b)).1 c = .ok evs := by
    unfold Ref.currents
    cases c with
    | false => exact ⟨[], rfl⟩
    | true =>
      obtain ⟨evs, g, -⟩ := W.cur _ hsz
      exact ⟨evs, g⟩
  obtain ⟨evs, gev⟩ := hcur
  have gk : (do let cs ← ap.calls v; v.runKern (Mat.zeros (Ref.rows o n) n) cs) = .ok K := by
    rw [gc]; exact gK
  have dims := sys_dims gs
  refine ⟨K, S, b, evs, gk, ⟨dims.1.trans hr, dims.2.1.trans hc, dims.2.2⟩, heq, gev, ?_⟩
  unfold Ref.solve
  rw [gn, gk]
  simp only [py_bind_ok]
  rw [gs]
  simp only [py_bind_ok]
  rw [gev]
  rfl

/-- What `solve` leaves behind in matrix mode, in terms of the assembled kernel. -/
theorem solve_out {s : AState} (hi : LInv s) (hv : s.v = v) (W : Works v s.ap (s.size v))
    (hm : s.opts.mfreeq = false)
    (hs : s.opts.prepareSolver.solmethod = some "solve" ∨
      s.opts.prepareSolver.solmethod = some "lsqr")
    (hrow : s.opts.symq = true → ∃ r, pyIdx (s.size v) s.opts.normRow = .ok r ∧ r < v.npauli)
    (lib : LinLib) (run : RootRun) (c : Bool) :
    ∃ K S b, (do let cs ← s.ap.calls v; v.runKern (Mat.zeros s.rows (s.size v)) cs) = .ok K ∧
      (S.rows = s.rows ∧ S.cols = s.size v ∧ b.size = s.rows) ∧
      (∀ φ : Nat → ℝ, (∀ p, p < s.rows → ∑ j ∈ range (s.size v), S.val p j * φ j = b.val p) ↔
        ((∀ p, p < s.size v → ∑ j ∈ range (s.size v), K.val p j * φ j = 0) ∧
          ∑ j ∈ range v.npauli, φ j = 1)) ∧
      (s.solve lib run c).2 = none ∧
      (s.solve lib run c).1.kern = some (if s.opts.symq then K else S) ∧
      (s.solve lib run c).1.bvec = some b ∧
      (s.solve lib run c).1.phi0
        = some (Ref.result (s.size v) (Ref.answer s.opts.prepareSolver lib S b)).1 ∧
      (s.solve lib run c).1.success
        = some (Ref.result (s.size v) (Ref.answer s.opts.prepareSolver lib S b)).2 ∧
      ∃ evs, Ref.currents s.ap v
          (Ref.result (s.size v) (Ref.answer s.opts.prepareSolver lib S b)).1 c = .ok evs ∧
        (s.solve lib run c).1.cur = some evs := by
  subst hv
  obtain ⟨o1, o2, o3, o4⟩ := prepareSolver_fields s.opts
  obtain ⟨t, e, g, -, -, -, -, -, -, k⟩ := solve_matrix hi hm hs lib run c
  obtain ⟨K, S, b, evs, gk, dims, heq, gev, hR⟩ := ref_solve h W s.opts.prepareSolver
    (by rw [o1, o3]; exact hrow) lib c
  have hrows : Ref.rows s.opts.prepareSolver (s.size s.v) = s.rows := by
    unfold Ref.rows AState.rows; rw [o1]
  rw [hR] at k
  simp only at k
  obtain ⟨k1, k2, k3, k4, k5, k6, -⟩ := k
  rw [hrows] at gk heq dims
  rw [g]
  rw [o1] at k2
  exact ⟨K, S, b, gk, dims, heq, k1, k2, k3, k4, k5, evs, gev, k6⟩

theorem solve_cases {s : AState} (hi : LInv s) (hv : s.v = v) (W : Works v s.ap (s.size v))
    (hm : s.opts.mfreeq = false)
    (hs : s.opts.prepareSolver.solmethod = some "solve" ∨
      s.opts.prepareSolver.solmethod = some "lsqr")
    (hrow : s.opts.symq = true → ∃ r, pyIdx (s.size v) s.opts.normRow = .ok r ∧ r < v.npauli)
    (lib : LinLib) (run : RootRun) :
    (s.solve lib run true).2 = none ∧
    ((∀ K b, lib.solve K b = none ∧ lib.lstsq K b = none) →
      (s.solve lib run true).1.success = some false ∧
      (s.solve lib run true).1.phi0 = some (Vec.zeros (s.size v)) ∧
      ∃ evs, (s.solve lib run true).1.cur = some evs ∧
        ∀ l, l < v.nleads → current evs l = 0 ∧ energyCurrent evs l = 0) ∧
    ∀ x : Vec, x.size = s.size v →
      (∀ K b, lib.solve K b = some x ∧ lib.lstsq K b = some x) →
      (s.solve lib run true).1.success = some true ∧
      (s.solve lib run true).1.phi0 = some x ∧
      ∃ evs, (s.solve lib run true).1.cur = some evs ∧ s.ap.cur v x = .ok evs := by
  obtain ⟨K, S, b, -, -, -, k1, -, -, k4, k5, evs, gev, k6⟩ :=
    solve_out h hi hv W hm hs hrow lib run true
  refine ⟨k1, fun hnone => ?_, fun x hx hsome => ?_⟩
  · have ha : Ref.answer s.opts.prepareSolver lib S b = none := by
      unfold Ref.answer; split
      · exact (hnone S b).1
      · exact (hnone S b).2
    rw [ha] at k4 k5 gev
    simp only [Ref.result] at k4 k5 gev
    refine ⟨k5, k4, evs, k6, ?_⟩
    simp only [Ref.currents, if_true] at gev
    obtain ⟨evs', g', h0⟩ := W.cur (Vec.zeros (s.size v)) rfl
    rw [gev] at g'
    simp only [Except.ok.injEq] at g'
    subst g'
    exact h0 rfl
  · have ha : Ref.answer s.opts.prepareSolver lib S b = some x := by
      unfold Ref.answer; split
      · exact (hsome S b).1
      · exact (hsome S b).2
    rw [ha] at k4 k5 gev
    simp only [Ref.result, hx, if_true] at k4 k5 gev
    simp only [Ref.currents, if_true] at gev
    exact ⟨k5, k4, evs, k6, gev⟩

/-- **C31** for an approach object after any history (as in C34) in matrix mode: the system
handed to the solver has exactly the solutions of all equations of the kernel together with the
normalisation, for every `norm_row` that is a population row, and whatever the solver does, the
attribute `kern` contains the kernel again afterwards (for the square system; the other one has
the normalisation in its additional last row). -/
theorem c31_solve (k : Kind) (num : NumLib) (E : Nat → ℝ) (L : Leads) {s : AState}
    (hs0 : Reached k.size k.useKh s) (hv : s.v = v) (hap : s.ap = k.ap num E L)
    (hm : s.opts.mfreeq = false)
    (hs : s.opts.prepareSolver.solmethod = some "solve" ∨
      s.opts.prepareSolver.solmethod = some "lsqr")
    (hrow : s.opts.symq = true → ∃ r, pyIdx (k.size v) s.opts.normRow = .ok r ∧ r < v.npauli)
    (lib : LinLib) (run : RootRun) (c : Bool) :
    ∃ K S b, v.assemble (k.size v) s.opts.symq ((k.ap num E L).calls v) = .ok K ∧
      (∀ φ : Nat → ℝ, (∀ p, p < Ref.rows s.opts (k.size v) →
          ∑ j ∈ range (k.size v), S.val p j * φ j = b.val p) ↔
        ((∀ p, p < k.size v → ∑ j ∈ range (k.size v), K.val p j * φ j = 0) ∧
          ∑ j ∈ range v.npauli, φ j = 1)) ∧
      (s.solve lib run c).2 = none ∧
      (s.solve lib run c).1.kern = some (if s.opts.symq then K else S) ∧
      (s.solve lib run c).1.phi0
        = some (Ref.result (k.size v) (Ref.answer s.opts.prepareSolver lib S b)).1 ∧
      (s.solve lib run c).1.success
        = some (Ref.result (k.size v) (Ref.answer s.opts.prepareSolver lib S b)).2 ∧
      (S.rows = Ref.rows s.opts (k.size v) ∧ S.cols = k.size v ∧ b.size = Ref.rows s.opts (k.size v)) ∧
      ∃ evs, Ref.currents (k.ap num E L) v
          (Ref.result (k.size v) (Ref.answer s.opts.prepareSolver lib S b)).1 c = .ok evs ∧
        (s.solve lib run c).1.cur = some evs := by
  obtain ⟨hi, hsz, -⟩ := hs0.inv
  have W : Works v s.ap (s.size v) := by rw [hap, hsz]; exact k.works h num E L
  have hrw : s.rows = Ref.rows s.opts (s.size v) := by
    unfold AState.rows Ref.rows; rw [hv]
  obtain ⟨K, S, b, g1, dims, g2, g3, g4, -, g6, g7, evs, g8, g9⟩ :=
    solve_out h hi hv W hm hs (by rw [hsz]; exact hrow) lib run c
  rw [hrw] at g1 g2 dims
  rw [hsz] at g1 g2 g6 g7 dims g8
  rw [hap] at g1 g8
  exact ⟨K, S, b, g1, g2, g3, g4, g6, g7, dims, evs, g8, g9⟩

/-! ### C22: the solution of the Pauli equations -/

/-- **C22**, second part. The system an object of the Pauli approach hands to the solver, after any
history, is solved by a probability distribution; if its solution is unique then every
solution, in particular the one found by the solver, is this distribution. -/
theorem c22_solution (num : NumLib) (E : Nat → ℝ) (L : Leads) (hT : L.Herm) (hne : 0 < v.npauli)
    {s : AState} (hs0 : Reached Kind.pauli.size false s) (hv : s.v = v)
    (hap : s.ap = Kind.pauli.ap num E L) (hm : s.opts.mfreeq = false)
    (hs : s.opts.prepareSolver.solmethod = some "solve" ∨
      s.opts.prepareSolver.solmethod = some "lsqr")
    (hrow : s.opts.symq = true → ∃ r, pyIdx v.npauli s.opts.normRow = .ok r)
    (lib : LinLib) (run : RootRun) (c : Bool) :
    ∃ (S : Mat) (b : Vec) (p : Nat → ℝ),
      (s.solve lib run c).1.phi0
        = some (Ref.result v.npauli (Ref.answer s.opts.prepareSolver lib S b)).1 ∧
      (∀ i, i < v.npauli → 0 ≤ p i) ∧ ∑ i ∈ range v.npauli, p i = 1 ∧
      (∀ i, i < Ref.rows s.opts v.npauli → ∑ j ∈ range v.npauli, S.val i j * p j = b.val i) ∧
      ((∀ φ φ' : Nat → ℝ,
          (∀ i, i < Ref.rows s.opts v.npauli → ∑ j ∈ range v.npauli, S.val i j * φ j = b.val i) →
          (∀ i, i < Ref.rows s.opts v.npauli → ∑ j ∈ range v.npauli, S.val i j * φ' j = b.val i) →
          ∀ j, j < v.npauli → φ j = φ' j) →
        ∀ φ : Nat → ℝ,
          (∀ i, i < Ref.rows s.opts v.npauli → ∑ j ∈ range v.npauli, S.val i j * φ j = b.val i) →
          (∀ j, j < v.npauli → 0 ≤ φ j) ∧ ∑ j ∈ range v.npauli, φ j = 1) := by
  obtain ⟨K, S, b, gK, heq, -, -, g6, -⟩ := c31_solve h .pauli num E L hs0 hv hap hm hs
    (fun hsy => by
      obtain ⟨r, hr⟩ := hrow hsy
      exact ⟨r, hr, pyIdx_ok_lt hr⟩) lib run c
  obtain ⟨fct, m, gf, gm, p, hp0, hp1, hpm⟩ := c22_stationary h s.opts.symq E L hT hne
  have hKm : K = m := by
    simp only [Kind.ap, Appr.pauli, gf, py_bind_ok] at gK
    have : v.assemble v.npauli s.opts.symq (Pauli.genKern v fct) = .ok m := gm
    exact Except.ok.inj (gK.symm.trans this)
  subst hKm
  simp only [Kind.size] at heq g6
  have hsol := (heq p).2 ⟨hpm, hp1⟩
  refine ⟨S, b, p, g6, hp0, hp1, hsol, fun huniq φ hφ => ?_⟩
  have e := huniq φ p hφ hsol
  exact ⟨fun j hj => by rw [e j hj]; exact hp0 j hj, (heq φ).1 hφ |>.2⟩

/-! ### C30: matrix-free mode -/

/-- **C30** for lists of handler calls that add a linear map. -/
theorem c30_calls {ap : Appr} {n : Nat} (W : Works v ap n) {normRow : Int} {r : Nat}
    (hr : pyIdx n normRow = .ok r) :
    ∃ K S b, v.assemble n true (ap.calls v) = .ok K ∧
      (do let nv ← v.genNormVec (Vec.zeros n); Ref.sys K (Vec.zeros n) nv normRow) = .ok (S, b) ∧
      ∀ φ : Vec, φ.size = n → ∃ x, v.genVec n normRow (ap.calls v) φ = .ok x ∧ x.size = n ∧
        (∀ i, i < n → x.val i = (if i = r then 1 else v.sgn i) *
          (∑ j ∈ range n, S.val i j * φ.val j - b.val i)) ∧
        ((∀ i, i < n → x.val i = 0) ↔
          ∀ i, i < n → ∑ j ∈ range n, S.val i j * φ.val j = b.val i) := by
  obtain ⟨cs, M, gc, A, -⟩ := W.calls
  obtain ⟨K, gK, hrK, hcK, hL⟩ := (A cs (.refl cs)).kern n le_rfl
  obtain ⟨nv, gn, hns, hnv⟩ := genNormVec_ok h n W.np_le
  obtain ⟨S, b, gs, hS, hb⟩ := sys_square hrK hcK hns hr
  refine ⟨K, S, b, ?_, ?_, fun φ hφ => ?_⟩
  · unfold View.assemble; rw [gc]; exact gK
  · rw [gn]; exact gs
  obtain ⟨x, gx, hxs, hx⟩ := (A cs (.refl cs)).free φ hφ
  have hnorm := phi0Norm_ok h W.np_le hφ
  let y : Vec := ⟨x.size, fun i => if i = r then (∑ j ∈ range v.npauli, φ.val j) - 1 else x.val i⟩
  have gy : v.genVec n normRow (ap.calls v) φ = .ok y := by
    unfold View.genVec
    rw [hnorm, gc]
    simp only [py_bind_ok]
    rw [gx]
    simp only [py_bind_ok, Vec.put]
    rw [hxs, hr]
    simp only [py_bind_ok, py_pure, y, hxs]
  have hval : ∀ i, i < n → y.val i = (if i = r then 1 else v.sgn i) *
      (∑ j ∈ range n, S.val i j * φ.val j - b.val i) := by
    intro i hi
    by_cases e : i = r
    · simp only [y, hS, hb, e, if_true, one_mul]
      rw [pop_norm h W.np_le hnv]
    · simp only [y, hS, hb, if_neg e, sub_zero]
      rw [hx, ← hL, Mat.app, hcK]
  refine ⟨y, gy, hxs, hval, ?_⟩
  have hsg : ∀ i, (if i = r then (1 : ℝ) else v.sgn i) ≠ 0 := by
    intro i
    unfold View.sgn
    split
    · exact one_ne_zero
    · split
      · exact one_ne_zero
      · norm_num
  constructor
  · intro h0 i hi
    have := (hval i hi).symm.trans (h0 i hi)
    exact sub_eq_zero.1 ((mul_eq_zero.1 this).resolve_left (hsg i))
  · intro h0 i hi
    rw [hval i hi, h0 i hi, sub_self, mul_zero]

/-- **C30**. For each of the four approaches and every vector, the residual computed in
matrix-free mode is the residual of the linear system of matrix mode, up to the sign of the rows
(from `ndm0` on) of the imaginary parts; so both vanish for the same vectors. -/
theorem c30_matrix_free (k : Kind) (num : NumLib) (E : Nat → ℝ) (L : Leads) {normRow : Int} {r : Nat}
    (hr : pyIdx (k.size v) normRow = .ok r) :
    ∃ K S b, v.assemble (k.size v) true ((k.ap num E L).calls v) = .ok K ∧
      (do let nv ← v.genNormVec (Vec.zeros (k.size v))
          Ref.sys K (Vec.zeros (k.size v)) nv normRow) = .ok (S, b) ∧
      ∀ φ : Vec, φ.size = k.size v →
        ∃ x, v.genVec (k.size v) normRow ((k.ap num E L).calls v) φ = .ok x ∧ x.size = k.size v ∧
        (∀ i, i < k.size v → x.val i = (if i = r ∨ i < v.ndm0 then 1 else -1) *
          (∑ j ∈ range (k.size v), S.val i j * φ.val j - b.val i)) ∧
        ((∀ i, i < k.size v → x.val i = 0) ↔
          ∀ i, i < k.size v → ∑ j ∈ range (k.size v), S.val i j * φ.val j = b.val i) := by
  obtain ⟨K, S, b, g1, g2, g3⟩ := c30_calls h (k.works h num E L) hr
  refine ⟨K, S, b, g1, g2, fun φ hφ => ?_⟩
  obtain ⟨x, g4, g5, g6, g7⟩ := g3 φ hφ
  refine ⟨x, g4, g5, fun i hi => ?_, g7⟩
  rw [g6 i hi]
  congr 1
  unfold View.sgn
  by_cases e : i = r <;> by_cases e' : i < v.ndm0 <;> simp [e, e']

/-! ### C49: failed solves -/

/-- **C49**, matrix mode, after any history: whatever the linear solver does, `solve` itself does
not raise; if the solver raises, `success` is False, `phi0` is zero and all currents are zero;
if it returns a vector (of the right length), `success` is True, `phi0` is this vector and the
currents are the ones computed from it. -/
theorem c49_matrix_partial (k : Kind) (num : NumLib) (E : Nat → ℝ) (L : Leads) {s : AState}
    (hs0 : Reached k.size k.useKh s) (hv : s.v = v) (hap : s.ap = k.ap num E L)
    (hm : s.opts.mfreeq = false)
    (hs : s.opts.prepareSolver.solmethod = some "solve" ∨
      s.opts.prepareSolver.solmethod = some "lsqr")
    (hrow : s.opts.symq = true → ∃ r, pyIdx (k.size v) s.opts.normRow = .ok r ∧ r < v.npauli)
    (lib : LinLib) (run : RootRun) :
    (s.solve lib run true).2 = none ∧
    ((∀ K b, lib.solve K b = none ∧ lib.lstsq K b = none) →
      (s.solve lib run true).1.success = some false ∧
      (s.solve lib run true).1.phi0 = some (Vec.zeros (k.size v)) ∧
      ∃ evs, (s.solve lib run true).1.cur = some evs ∧
        ∀ l, l < v.nleads → current evs l = 0 ∧ energyCurrent evs l = 0) ∧
    ∀ x : Vec, x.size = k.size v →
      (∀ K b, lib.solve K b = some x ∧ lib.lstsq K b = some x) →
      (s.solve lib run true).1.success = some true ∧
      (s.solve lib run true).1.phi0 = some x ∧
      ∃ evs, (s.solve lib run true).1.cur = some evs ∧ (k.ap num E L).cur v x = .ok evs := by
  obtain ⟨hi, hsz, -⟩ := hs0.inv
  have W : Works v s.ap (s.size v) := by rw [hap, hsz]; exact k.works h num E L
  have := solve_cases h hi hv W hm hs (by rw [hsz]; exact hrow) lib run
  rw [hsz, hap] at this
  exact this

/-- **C49**, matrix-free mode, after any history. If the root finder or one of its evaluations
raises, `success` is False and `phi0` is zero; if it returns, `phi0` and `success` are what it
returned. The currents are those of the vector at which the residual was evaluated last, or
those of `phi0` for the Pauli approach. Missing: see `c49_free_failure_false` and
`c49_free_trial_false`. -/
theorem c49_free_partial (k : Kind) (num : NumLib) (E : Nat → ℝ) (L : Leads) {s : AState}
    (hs0 : Reached k.size k.useKh s) (hv : s.v = v) (hap : s.ap = k.ap num E L)
    (hm : s.opts.mfreeq = true) {r : Nat} (hr : pyIdx (k.size v) s.opts.normRow = .ok r)
    (lib : LinLib) (run : RootRun) {t : Vec} {ts : List Vec} (ht : run.trials = t :: ts)
    (hsz : ∀ u ∈ run.trials, u.size = k.size v) :
    (s.solve lib run true).2 = none ∧
    (run.out = none → (s.solve lib run true).1.success = some false ∧
      (s.solve lib run true).1.phi0 = some (Vec.zeros (k.size v))) ∧
    (∀ x ok, run.out = some (x, ok) → x.size = k.size v →
      (s.solve lib run true).1.success = some ok ∧ (s.solve lib run true).1.phi0 = some x) ∧
    ∃ evs phi, (s.solve lib run true).1.cur = some evs ∧ (s.solve lib run true).1.phi0 = some phi ∧
      (k.ap num E L).cur v (if k.useKh then (t :: ts).getLast (by simp) else phi) = .ok evs := by
  obtain ⟨hi, hsize, hkh⟩ := hs0.inv
  have W := k.works h num E L
  obtain ⟨K, S, b, -, -, gv⟩ := c30_calls h W hr
  have hl : ∀ (ts : List Vec) (t : Vec), (∀ u ∈ t :: ts, u.size = k.size v) →
      Ref.lastTrial (v.genVec (k.size v) s.opts.normRow ((k.ap num E L).calls v)) t ts
        = ((t :: ts).getLast (by simp), true) := by
    intro ts
    induction ts with
    | nil =>
      intro t hts
      obtain ⟨x, g, -⟩ := gv t (hts t (by simp))
      simp only [Ref.lastTrial, g, List.getLast_singleton]
      rfl
    | cons t' ts ih =>
      intro t hts
      obtain ⟨x, g, -⟩ := gv t (hts t (by simp))
      simp only [Ref.lastTrial, g]
      rw [ih t' fun u hu => hts u (by simp [hu])]
      rw [List.getLast_cons_cons]
  have hlast := hl ts t (by rw [← ht]; exact hsz)
  obtain ⟨u, e, g, -, -, -, -, -, -, kk⟩ := solve_free hi hm lib run ht true
  have hres : ∀ out, (Ref.resultFree (k.size v) out).1.size = k.size v := by
    intro out
    unfold Ref.resultFree
    split
    · rfl
    · split
      · assumption
      · rfl
  obtain ⟨evs, gev, -⟩ := W.cur
    (if k.useKh then (t :: ts).getLast (by simp) else (Ref.resultFree (k.size v) run.out).1) (by
      split
      · exact hsz _ (by rw [ht]; exact List.getLast_mem _)
      · exact hres _)
  have hR : Ref.solveFree s.opts.normRow s.v s.ap (s.size s.v) s.useKh t ts run.out true
      = .ok ⟨(Ref.resultFree (k.size v) run.out).1, (Ref.resultFree (k.size v) run.out).2, evs⟩ := by
    unfold Ref.solveFree
    rw [hv, hap, hsize, hkh, hlast]
    simp only [Ref.currents, if_true]
    rw [gev]
    rfl
  rw [hR] at kk
  simp only at kk
  obtain ⟨k1, k2, k3, k4⟩ := kk
  rw [g]
  refine ⟨k1, fun ho => ?_, fun x ok ho hx => ?_, evs, _, k4, k2, gev⟩
  · rw [ho] at k2 k3
    exact ⟨k3, k2⟩
  · rw [ho] at k2 k3
    simp only [Ref.resultFree, hx, if_true] at k2 k3
    exact ⟨k3, k2⟩

end

/-- The hypotheses of C22, C31, C34, C49 hold for two levels with two leads and the Pauli
approach, after a solve, a change of the parameters and a change of options. -/
example (num : NumLib) (lib : LinLib) (run : RootRun) (E : Nat → ℝ) (L L' : Leads) :
    ∃ (d : DM) (s : AState), VOk (d.view 2) d.labOf ∧ 0 < (d.view 2).npauli ∧
      Reached Kind.pauli.size Kind.pauli.useKh s ∧ s.v = d.view 2 ∧
      s.ap = Kind.pauli.ap num E L ∧ s.opts.mfreeq = false ∧
      (s.opts.prepareSolver.solmethod = some "solve" ∨
        s.opts.prepareSolver.solmethod = some "lsqr") ∧
      ∃ r, pyIdx (Kind.pauli.size (d.view 2)) s.opts.normRow = .ok r ∧ r < (d.view 2).npauli := by
  obtain ⟨d, -, h, -, h2, -⟩ := view_example
  let f := AState.fresh ⟨true, false, 0, none, none⟩ (d.view 2) (Kind.pauli.ap num E L') Kind.pauli.size
    Kind.pauli.useKh
  have hf : Reached Kind.pauli.size Kind.pauli.useKh f := ⟨_, _, _, [], by simp, rfl⟩
  obtain ⟨t, e, g, -, gv, -, -, -, gm, -⟩ := solve_matrix hf.inv.1 rfl (Or.inl rfl) lib run true
  refine ⟨d, [AOp.solve lib run true, .params (Kind.pauli.ap num E L), .solmethod (some "solve"),
    .normRow 2].foldl AState.op f, h, by show 0 < d.npauli; omega,
    ⟨_, _, _, _, by simp [AOp.plain], rfl⟩, ?_, rfl, ?_, ?_, 2, ?_, ?_⟩
  · show (f.solve lib run true).1.v = _
    rw [g]; exact gv
  · simp only [List.foldl, AState.op, g, (prepareSolver_fields _).2.1, gm]
  · simp only [List.foldl, AState.op, g, Opts.prepareSolver, gm]
    cases t.opts.symq <;> simp
  · exact pyIdx_nat (k := 2) (by show 2 < d.npauli; omega)
  · show 2 < d.npauli
    omega

end

end Verif
