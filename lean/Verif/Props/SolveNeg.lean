import Verif.Props.Solve

/-!
What the code does not guarantee about repeated and failed solves (C34, C49).
-/

namespace Verif

noncomputable section

open Finset

/-! ### C34 -/

theorem free_first (o : Opts) (v : View) (ap : Appr) (size : View → Nat) (useKh : Bool) (lib : LinLib)
    (hm : o.mfreeq = true) :
    (AState.fresh o v ap size useKh).solve lib ⟨[], none⟩ false
      = ({ AState.fresh o v ap size useKh with
            opts := o.prepareSolver, changed := false, isPrepared := true,
            phi0 := some (Vec.zeros (size v)), dphi := some (Vec.zeros (size v)),
            success := some false, cur := some [],
            handler := some ⟨true, v.ndm0, v.npauli, none⟩ }, none) := by
  simp [AState.solve, stepS, AState.prepare, AState.prepareArrays, AState.solveFree, AState.fresh,
    hm, attr, AState.runTrials, Vec.zeros]

/-- Where C34 fails: the setter of `mfreeq` leaves the prepared arrays alone. For every approach,
every system and every choice of the solver: solve in matrix-free mode, switch to matrix mode,
solve again. The last call raises, although for a new object with the same parameters it does not. -/
theorem c34_mfreeq_false {v : View} {la : Lab} (h : VOk v la) (k : Kind) (num : NumLib)
    (E : Nat → ℝ) (L : Leads) (lib : LinLib) (run : RootRun) (c : Bool)
    (hrow : ∃ r, pyIdx (k.size v) 0 = .ok r ∧ r < v.npauli) :
    let s := [AOp.solve lib ⟨[], none⟩ false, .mfreeq false, .solmethod (some "solve")].foldl
      AState.op (.fresh ⟨true, true, 0, none, none⟩ v (k.ap num E L) k.size k.useKh)
    let f := AState.fresh s.opts s.v s.ap s.size s.useKh
    (s.solve lib run c).2 = some .attribute ∧ (f.solve lib run c).2 = none := by
  intro s f
  have hs : s = { AState.fresh ⟨true, false, 0, some "solve", none⟩ v (k.ap num E L) k.size k.useKh
      with
      changed := false, isPrepared := true,
      phi0 := some (Vec.zeros (k.size v)), dphi := some (Vec.zeros (k.size v)),
      success := some false, cur := some [],
      handler := some ⟨true, v.ndm0, v.npauli, none⟩ } := by
    simp only [s, List.foldl, AState.op]
    rw [free_first _ _ _ _ _ _ rfl]
    simp [AState.fresh, Opts.prepareSolver]
  constructor
  · have h1 : s.prepare = .error .attribute := by rw [hs]; rfl
    have h2 : s.opts.mfreeq = false := by rw [hs]; rfl
    unfold AState.solve
    have h3 : stepS AState.prepare (s, none) = (s, some .attribute) := by
      simp only [stepS]; rw [h1]
    rw [h3, h2]
    cases c <;> rfl
  · have hf : f = AState.fresh ⟨true, false, 0, some "solve", none⟩ v (k.ap num E L) k.size k.useKh := by
      simp only [f, hs]
      rfl
    have hr : Reached k.size k.useKh f := ⟨_, _, _, [], by simp, hf⟩
    obtain ⟨_, _, _, -, -, g, -⟩ := c31_solve h k num E L (s := f) hr (by rw [hf]; rfl)
      (by rw [hf]; rfl) (by rw [hf]; rfl) (Or.inl (by rw [hf]; rfl)) (fun _ => by rw [hf]; exact hrow)
      lib run c
    exact g

theorem stepS_err {f : AState → Py AState} {r : AState × Option PyErr} {e : PyErr}
    (h : r.2 = some e) : stepS f r = r := by
  unfold stepS; rw [h]

theorem stepS_pres {P : AState → Prop} {f : AState → Py AState}
    (hf : ∀ s t, P s → f s = .ok t → P t) {r : AState × Option PyErr} (hr : P r.1) :
    P (stepS f r).1 := by
  unfold stepS
  cases r.2 with
  | some e => exact hr
  | none =>
    simp only
    cases g : f r.1 with
    | ok t => exact hf r.1 t hr g
    | error e => exact hr

theorem solve_prepared {s : AState} {lib : LinLib} {run : RootRun} {c : Bool}
    (h : (s.solve lib run c).2 = none) :
    (s.solve lib run c).1.isPrepared = true ∧ (s.solve lib run c).1.changed = false := by
  let P : AState → Prop := fun t => t.isPrepared = true ∧ t.changed = false
  have k2 : ∀ r : AState × Option PyErr, P r.1 → P (stepS AState.generate r).1 := fun r hr =>
    stepS_pres (P := P) (fun s t hs g => by
      unfold AState.generate at g
      obtain ⟨_, -, g⟩ := bind_ok g
      obtain ⟨hd, -, g⟩ := bind_ok g
      split at g
      · obtain ⟨_, -, g⟩ := bind_ok g
        obtain ⟨_, -, g⟩ := bind_ok g
        obtain ⟨_, -, g⟩ := bind_ok g
        rw [← pure_ok g]; exact hs
      · obtain ⟨_, -, g⟩ := bind_ok g
        obtain ⟨_, -, g⟩ := bind_ok g
        rw [← pure_ok g]; exact hs) hr
  have k3 : ∀ r : AState × Option PyErr, P r.1 → P (stepS (fun s => s.solveKern lib) r).1 := fun r hr =>
    stepS_pres (P := P) (fun s t hs g => by
      unfold AState.solveKern at g
      obtain ⟨k0, -, g⟩ := bind_ok g
      obtain ⟨p, -, g⟩ := bind_ok g
      obtain ⟨kb, -, g⟩ := bind_ok g
      have hf : P (s.finish p (s.runSolver lib kb.1 kb.2)) := by
        unfold AState.finish
        split
        · exact hs
        · exact hs
        · split <;> exact hs
      simp only at g
      split at g
      · obtain ⟨_, -, g⟩ := bind_ok g
        obtain ⟨_, -, g⟩ := bind_ok g
        rw [← pure_ok g]; exact hf
      · rw [← pure_ok g]; exact hf) hr
  have k5 : ∀ (ts : List Vec) (s : AState), P s → P (s.runTrials ts).1 := by
    intro ts
    induction ts with
    | nil => intro s hs; exact hs
    | cons t ts ih =>
      intro s hs
      rw [AState.runTrials]
      cases hg : s.genVec t with
      | error e => exact hs
      | ok r =>
        have hr : P r.1 := by
          unfold AState.genVec at hg
          obtain ⟨_, -, hg⟩ := bind_ok hg
          split at hg
          · simp at hg
          · obtain ⟨_, -, hg⟩ := bind_ok hg
            obtain ⟨_, -, hg⟩ := bind_ok hg
            rw [← pure_ok hg]; exact hs
        exact ih r.1 hr
  have k4 : ∀ r : AState × Option PyErr, P r.1 → P (stepS (fun s => s.solveFree run) r).1 := fun r hr =>
    stepS_pres (P := P) (fun s t hs g => by
      unfold AState.solveFree at g
      obtain ⟨p, -, g⟩ := bind_ok g
      have := k5 run.trials s hs
      simp only at g
      split at g
      · rw [← pure_ok g]; exact this
      · split at g
        · rw [← pure_ok g]; exact this
        · rw [← pure_ok g]; exact this) hr
  have k6 : ∀ r : AState × Option PyErr, P r.1 → P (stepS AState.genCurrent r).1 := fun r hr =>
    stepS_pres (P := P) (fun s t hs g => by
      unfold AState.genCurrent at g
      obtain ⟨_, -, g⟩ := bind_ok g
      obtain ⟨_, -, g⟩ := bind_ok g
      obtain ⟨_, -, g⟩ := bind_ok g
      obtain ⟨_, -, g⟩ := bind_ok g
      rw [← pure_ok g]
      exact hs) hr
  cases hp : s.prepare with
  | error e =>
    exfalso
    have h3 : stepS AState.prepare (s, none) = (s, some e) := by simp only [stepS]; rw [hp]
    unfold AState.solve at h
    rw [h3] at h
    cases hm : s.opts.mfreeq <;> cases c <;> simp [hm, stepS] at h
  | ok t =>
    have hPt : P t := by
      unfold AState.prepare at hp
      split at hp
      · rename_i hc
        simp only [Bool.and_eq_true, Bool.not_eq_true'] at hc
        unfold AState.clean at hp
        obtain ⟨_, -, hp⟩ := bind_ok hp
        split at hp
        · rw [← pure_ok hp]; exact hc
        · obtain ⟨_, -, hp⟩ := bind_ok hp
          obtain ⟨_, -, hp⟩ := bind_ok hp
          rw [← pure_ok hp]; exact hc
      · obtain ⟨u, -, hp⟩ := bind_ok hp
        rw [← pure_ok hp]; exact ⟨rfl, rfl⟩
    have h3 : P (stepS AState.prepare (s, none)).1 := by simp only [stepS]; rw [hp]; exact hPt
    show P (s.solve lib run c).1
    unfold AState.solve
    simp only
    split <;> split
    · exact k6 _ (k4 _ h3)
    · exact k6 _ (k3 _ (k2 _ h3))
    · exact k4 _ h3
    · exact k3 _ (k2 _ h3)

theorem setRow_cols {m m' : Mat} {i : Int} {x : Vec} (h : m.setRow i x = .ok m') :
    m'.cols = m.cols := by
  unfold Mat.setRow at h
  obtain ⟨_, -, h⟩ := bind_ok h
  split at h
  · rw [← pure_ok h]
  · simp at h

/-- The number of unknowns is kept as long as the arrays are not prepared anew. -/
theorem solve_keeps_cols {s : AState} {n : Nat} (hp : s.isPrepared = true) (hc : s.changed = false)
    (hm : s.opts.mfreeq = false) (hk : ∃ K, s.kern = some K ∧ K.cols = n)
    (hh : ∃ hd, s.handler = some hd ∧ hd.free = false) (lib : LinLib) (run : RootRun) (c : Bool) :
    ∃ K, (s.solve lib run c).1.kern = some K ∧ K.cols = n := by
  let P : AState → Prop := fun t => (∃ K, t.kern = some K ∧ K.cols = n) ∧
    ∃ hd, t.handler = some hd ∧ hd.free = false
  have h0 : P s := ⟨hk, hh⟩
  have h1 : P (stepS AState.prepare (s, none)).1 := by
    unfold stepS
    simp only [AState.prepare, hp, hc, Bool.not_false, Bool.and_self, if_true]
    cases g : s.clean with
    | error e => exact h0
    | ok t =>
      unfold AState.clean at g
      rw [hm] at g
      obtain ⟨_, -, g⟩ := bind_ok g
      simp only [Bool.false_eq_true, if_false] at g
      obtain ⟨k, gk, g⟩ := bind_ok g
      obtain ⟨b, -, g⟩ := bind_ok g
      rw [← pure_ok g]
      obtain ⟨K, e1, e2⟩ := hk
      rw [e1] at gk
      have : K = k := pure_ok gk
      exact ⟨⟨_, rfl, by simp [Mat.zeros, ← this, e2]⟩, hh⟩
  have h2 : ∀ r : AState × Option PyErr, P r.1 → P (stepS AState.generate r).1 := by
    intro r hr
    refine stepS_pres (P := P) (fun s t hs g => ?_) hr
    obtain ⟨⟨K, e1, e2⟩, hd, e3, e4⟩ := hs
    unfold AState.generate at g
    obtain ⟨cs, -, g⟩ := bind_ok g
    rw [e3, e1] at g
    simp only [attr, py_bind_ok, py_pure, e4, Bool.false_eq_true, if_false] at g
    obtain ⟨k, gk, g⟩ := bind_ok g
    rw [← Except.ok.inj g]
    exact ⟨⟨k, rfl, by rw [(runKern_shape gk).2, e2]⟩, hd, rfl, e4⟩
  have h3 : ∀ r : AState × Option PyErr, P r.1 → P (stepS (fun s => s.solveKern lib) r).1 := by
    intro r hr
    refine stepS_pres (P := P) (fun s t hs g => ?_) hr
    obtain ⟨⟨K, e1, e2⟩, hd, e3, e4⟩ := hs
    unfold AState.solveKern at g
    obtain ⟨k0, gk0, g⟩ := bind_ok g
    obtain ⟨p, -, g⟩ := bind_ok g
    obtain ⟨kb, gkb, g⟩ := bind_ok g
    have ek : K = k0 := by rw [e1] at gk0; exact pure_ok gk0
    have ekb : kb.1.cols = n := by
      unfold AState.system at gkb
      obtain ⟨k1, gk1, gkb⟩ := bind_ok gkb
      obtain ⟨b1, -, gkb⟩ := bind_ok gkb
      obtain ⟨nv, -, gkb⟩ := bind_ok gkb
      obtain ⟨k2, gk2, gkb⟩ := bind_ok gkb
      obtain ⟨b2, -, gkb⟩ := bind_ok gkb
      rw [← pure_ok gkb]
      have : K = k1 := by rw [e1] at gk1; exact pure_ok gk1
      simp only
      rw [setRow_cols gk2, ← this, e2]
    have hf : (s.finish p (s.runSolver lib kb.1 kb.2)).handler = s.handler := by
      unfold AState.finish
      split
      · rfl
      · rfl
      · split <;> rfl
    simp only at g
    split at g
    · obtain ⟨old, -, g⟩ := bind_ok g
      obtain ⟨k3, gk3, g⟩ := bind_ok g
      rw [← pure_ok g]
      exact ⟨⟨k3, rfl, by rw [setRow_cols gk3, ekb]⟩, hd, hf.trans e3, e4⟩
    · rw [← pure_ok g]
      exact ⟨⟨kb.1, rfl, ekb⟩, hd, hf.trans e3, e4⟩
  have h4 : ∀ r : AState × Option PyErr, P r.1 → P (stepS AState.genCurrent r).1 := by
    intro r hr
    refine stepS_pres (P := P) (fun s t hs g => ?_) hr
    unfold AState.genCurrent at g
    obtain ⟨_, -, g⟩ := bind_ok g
    obtain ⟨_, -, g⟩ := bind_ok g
    obtain ⟨_, -, g⟩ := bind_ok g
    obtain ⟨_, -, g⟩ := bind_ok g
    rw [← pure_ok g]
    exact hs
  unfold AState.solve
  simp only [hm, Bool.false_eq_true, if_false]
  cases c with
  | false =>
    simp only [Bool.false_eq_true, if_false]
    exact (h3 _ (h2 _ h1)).1
  | true =>
    simp only [if_true]
    exact (h4 _ (h3 _ (h2 _ h1))).1

/-- Where C34 fails: a call that changes the number of density matrix elements without setting
`states_changed`, as `remove_coherences` does. For every approach: solve, change the indexing
object from `v` to `v'` this way, solve again. The last call works with a kernel for the old
number of unknowns. (A new object would have `k.size v'` unknowns, see `c31_solve`.) -/
theorem c34_silent_false {v : View} {la : Lab} (h : VOk v la) (k : Kind) (num : NumLib)
    (E : Nat → ℝ) (L : Leads) (hrow : ∃ r, pyIdx (k.size v) 0 = .ok r ∧ r < v.npauli)
    (v' : View) (hne : k.size v' ≠ k.size v)
    (lib lib' : LinLib) (run run' : RootRun) (c c' : Bool) :
    let s := [AOp.solve lib run c, .silent v'].foldl
      AState.op (.fresh ⟨true, false, 0, some "solve", none⟩ v (k.ap num E L) k.size k.useKh)
    ∃ K, (s.solve lib' run' c').1.kern = some K ∧ K.cols ≠ k.size s.v := by
  intro s
  let f := AState.fresh ⟨true, false, 0, some "solve", none⟩ v (k.ap num E L) k.size k.useKh
  have hs : s = { (f.solve lib run c).1 with v := v' } := rfl
  have hr : Reached k.size k.useKh f := ⟨_, _, _, [], by simp, rfl⟩
  obtain ⟨K, S, b, gK, -, g, gk, -⟩ := c31_solve h k num E L (s := f) hr rfl rfl rfl (Or.inl rfl)
      (fun _ => hrow) lib run c
  have hcols : K.cols = k.size v := by
    unfold View.assemble at gK
    obtain ⟨cs, -, gK⟩ := bind_ok gK
    rw [(runKern_shape gK).2]
    rfl
  have gk' : (f.solve lib run c).1.kern = some K := gk
  obtain ⟨p1, p2⟩ := solve_prepared g
  have R := solve_inv hr.inv.1 lib run c p1 p2
  obtain ⟨t, e, gt, -, -, -, -, -, o6, -⟩ := solve_matrix hr.inv.1 rfl (Or.inl rfl) lib run c
  have hm : (f.solve lib run c).1.opts.mfreeq = false := by
    rw [gt]; exact o6
  obtain ⟨hd, hd1, hd2, -⟩ := R.handler
  obtain ⟨K', e1, e2⟩ := solve_keeps_cols (s := s) (n := k.size v) p1 p2 hm
    ⟨K, gk', hcols⟩ ⟨hd, hd1, hd2.trans hm⟩ lib' run' c'
  refine ⟨K', e1, ?_⟩
  rw [e2]
  exact fun e => hne e.symm

/-! ### C49 -/

/-- Where C49 fails: when the root finder returns with `success=False`, the vector it returns
becomes `phi0`. For every approach, every object and every vector `x`. -/
theorem c49_free_failure_false {v : View} {la : Lab} (h : VOk v la) (k : Kind) (num : NumLib)
    (E : Nat → ℝ) (L : Leads) {r : Nat} (hr : pyIdx (k.size v) 0 = .ok r) (lib : LinLib) (t x : Vec)
    (ht : t.size = k.size v) (hx : x.size = k.size v) :
    let s := AState.fresh ⟨true, true, 0, none, none⟩ v (k.ap num E L) k.size k.useKh
    (s.solve lib ⟨[t], some (x, false)⟩ true).1.success = some false ∧
    (s.solve lib ⟨[t], some (x, false)⟩ true).1.phi0 = some x := by
  intro s
  exact (c49_free_partial h k num E L (s := s) ⟨_, _, _, [], by simp, rfl⟩ rfl rfl rfl hr lib
    ⟨[t], some (x, false)⟩ rfl (by simpa using ht)).2.2.1 x false rfl hx

theorem funcPauli_mid : (funcPauli 0 0 1 0 0 1).1 = Real.pi := by
  simp only [funcPauli, fermiFunc]
  norm_num
  rw [mul_comm]
  ring_nf

/-- Where C49 fails: the currents are not computed from the returned vector, but from the vector
at which the root finder evaluated the residual last. Two spin-degenerate levels, Lindblad
approach: whether the root finder raises or returns (here the zero vector), after a last evaluation
at the state "empty with probability one", a nonzero current is reported. -/
theorem c49_free_trial_false : ∃ (d : DM) (E : Nat → ℝ) (L : Leads) (t : Vec), VOk (d.view 1) d.labOf ∧
    ∀ (num : NumLib) (lib : LinLib) (out : Option (Vec × Bool)),
      (out = none ∨ out = some (Vec.zeros (d.view 1).ndm0r, true)) →
      let s := AState.fresh ⟨true, true, 0, none, none⟩ (d.view 1) (Kind.lindblad.ap num E L)
        Kind.lindblad.size Kind.lindblad.useKh
      (s.solve lib ⟨[t], out⟩ true).1.phi0 = some (Vec.zeros (d.view 1).ndm0r) ∧
      ∃ evs, (s.solve lib ⟨[t], out⟩ true).1.cur = some evs ∧ current evs 0 ≠ 0 := by
  obtain ⟨d, -, h, h1, h2, h3⟩ := view_example' 1
  let v := d.view 1
  have hrow0 : v.row 0 = [0] := by simp [v, DM.view, View.row, h1]
  have hrow1 : v.row 1 = [1, 2] := by simp [v, DM.view, View.row, h1]
  have hrow2 : v.row 2 = [3] := by simp [v, DM.view, View.row, h1]
  have hnc : v.ncharge = 3 := by
    have h4 : v.ncharge + 1 ≤ v.statesdm.length := h.len
    have h5 : 2 < v.ncharge := h.row_lt (c := 2) (b := 3) (by rw [hrow2]; simp)
    have h6 : v.statesdm.length = 4 := by simp [v, DM.view, h1]
    omega
  have hl : v.nleads = 1 := rfl
  have hm0 : 0 ∈ v.row 0 := by rw [hrow0]; simp
  let L : Leads := ⟨fun _ => 0, fun _ => 1, fun _ => 0, fun _ => 0, fun _ _ _ => 1, 1, 0⟩
  let t : Vec := ⟨v.ndm0r, fun i => if i = d.labOf.lab 0 0 0 then 1 else 0⟩
  refine ⟨d, fun _ => 0, L, t, h, ?_⟩
  intro num lib out hout s
  have hr : pyIdx (Kind.lindblad.size v) 0 = .ok 0 :=
    pyIdx_nat (k := 0) (by show 0 < d.ndm0r; omega)
  have key := c49_free_partial h .lindblad num (fun _ => 0) L (s := s) ⟨_, _, _, [], by simp, rfl⟩ rfl rfl
    rfl hr lib ⟨[t], out⟩ rfl (by simp [t, Kind.size, v])
  obtain ⟨-, k1, k2, evs, phi, k3, -, k5⟩ := key
  constructor
  · rcases hout with rfl | rfl
    · exact (k1 rfl).2
    · exact (k2 _ true rfl rfl).2
  · refine ⟨evs, k3, ?_⟩
    obtain ⟨T, gT, hT⟩ := Lindblad.genFct_ok h (fun _ => 0) L
    obtain ⟨evs', g', hcur⟩ := Lindblad.genCurrent_ok h (fun _ => 0) T t le_rfl
    have : evs = evs' := by
      simp only [Kind.ap, Kind.useKh, Appr.lindblad, if_true, List.getLast_singleton] at k5
      rw [gT] at k5
      simp only [py_bind_ok] at k5
      exact Except.ok.inj (k5.symm.trans g')
    subst this
    rw [(hcur 0 (by show 0 < 1; omega)).1]
    have hz : ∀ q b bp, b ∈ v.row q → bp ∈ v.row q →
        dens v d.labOf t.val q b bp = if q = 0 ∧ b = 0 ∧ bp = 0 then 1 else 0 := by
      intro q b bp hb hbp
      unfold dens
      by_cases hi : d.labOf.inc q b bp = true
      · rw [if_pos hi]
        by_cases e : q = 0 ∧ b = 0 ∧ bp = 0
        · obtain ⟨rfl, rfl, rfl⟩ := e
          apply Complex.ext <;> simp [t]
        · have hd := h.lab_diag 0 0 hm0
          have hne : d.labOf.lab q b bp ≠ d.labOf.lab 0 0 0 := by
            intro e'
            have := h.lab_inj q b bp 0 0 0 hb hbp hi hm0 hm0 (h.inc_diag 0 0 hm0) e'
            apply e
            tauto
          have hne' : b ≠ bp → v.imag (d.labOf.lab q b bp) ≠ d.labOf.lab 0 0 0 := by
            intro hbb
            have := (h.imagPos_off hb hbp hbb hi).2.1
            have := h.np_le
            show (d.view 1).imag _ ≠ _
            omega
          rw [if_neg e]
          by_cases hbb : b = bp
          · apply Complex.ext <;> simp [t, hne, hbb] 
            rw [hbb] at hne; exact hne
          · have := hne' hbb
            apply Complex.ext <;> simp [t, hne, hbb, this]
      · rw [if_neg hi, if_neg]
        rintro ⟨rfl, rfl, rfl⟩
        exact hi (h.inc_diag 0 0 hm0)
    have ht0 : ∀ x ∈ v.row 1, T 0 x 0 = Real.sqrt Real.pi := by
      intro x hx
      have := (hT 0 x 0 0 hx hm0 (by show 0 < 1; omega)).1
      simpa [L, funcPauli_mid] using this
    have hR0 : v.R 0 = {0} := by simp [View.R, hrow0]
    have hR1 : v.R 1 = {1, 2} := by simp [View.R, hrow1]
    have hR2 : v.R 2 = {3} := by simp [View.R, hrow2]
    have e01 := hz 1 1 1 (by simp [hrow1]) (by simp [hrow1])
    have e02 := hz 1 1 2 (by simp [hrow1]) (by simp [hrow1])
    have e03 := hz 1 2 1 (by simp [hrow1]) (by simp [hrow1])
    have e04 := hz 1 2 2 (by simp [hrow1]) (by simp [hrow1])
    have e05 := hz 0 0 0 (by simp [hrow0]) (by simp [hrow0])
    have e06 := hz 2 3 3 (by simp [hrow2]) (by simp [hrow2])
    have t1 := ht0 1 (by simp [hrow1])
    have t2 := ht0 2 (by simp [hrow1])
    show (Lindblad.flow v T (dens v d.labOf t.val) (fun q _ => (q : ℂ)) 0).re ≠ 0
    unfold Lindblad.flow
    rw [hnc, show 3 - 1 = 2 from rfl, sum_range_succ, sum_range_one]
    simp only [hR0, hR1, hR2, zero_add, Nat.reduceAdd, sum_singleton, Lindblad.P,
      sum_pair (show (1 : Nat) ≠ 2 by decide), e01, e02, e03, e04, e05, e06, t1, t2]
    norm_num
    exact (Real.sqrt_pos.2 Real.pi_pos).ne'

/-- The hypotheses of `c34_mfreeq_false`, `c34_silent_false` and `c49_free_failure_false` hold for two levels with
two leads and every approach but Pauli, when the coherences are removed between the solves. -/
example (k : Kind) (hk : k ≠ .pauli) : ∃ (d : DM) (v' : View) (t x : Vec), VOk (d.view 2) d.labOf ∧
    (∃ r, pyIdx (k.size (d.view 2)) 0 = .ok r ∧ r < (d.view 2).npauli) ∧
    v' = { d.view 2 with ndm0 := d.npauli, ndm0r := d.npauli } ∧ k.size v' ≠ k.size (d.view 2) ∧
    t.size = k.size (d.view 2) ∧ x.size = k.size (d.view 2) ∧ x.val 0 ≠ 0 := by
  obtain ⟨d, -, h, -, h2, h3⟩ := view_example
  have e : k.size (d.view 2) = 6 := by
    cases k <;> first | exact absurd rfl hk | exact h3
  refine ⟨d, _, Vec.zeros (k.size (d.view 2)), ⟨k.size (d.view 2), fun _ => 1⟩, h, ⟨0, ?_, ?_⟩, rfl, ?_, rfl, rfl, one_ne_zero⟩
  · exact pyIdx_nat (k := 0) (by omega)
  · show 0 < d.npauli
    omega
  · rw [e]
    have : k.size { d.view 2 with ndm0 := d.npauli, ndm0r := d.npauli } = 4 := by
      cases k <;> exact h2
    omega

end

end Verif
