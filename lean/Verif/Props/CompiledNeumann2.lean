import Verif.Lemmas.CompiledNeumann2
import Verif.Lemmas.CompiledElPh
import Verif.Props.Compiled
import Verif.Props.Neumann2
import Verif.Props.Neumann2Grid
import Verif.Props.ViewC

/-! C99: the compiled 2vN approach computes what the Python one computes. -/

namespace Verif

noncomputable section

namespace CVN2

open VN2

/-! ### The handler -/

/-- The elements of the density matrix, in the order of the loops. -/
def allElems (v : View) : List Trip :=
  (List.range v.ncharge).flatMap fun c => (prod2 (v.row c) (v.row c)).flatMap fun p => [(p.1, p.2, c)]

/-- The handler of an object of class `StateIndexingDMc` is made. -/
theorem handler {n nl : Nat} {indexing : String} {d : DM} {S : List (List Nat)} (h : Reach .dmc n indexing d S)
    (hix : d.si.indexing = .Lin ∨ d.si.indexing = .charge) (hS : ∀ c, n + 1 ≤ c → S[c]?.getD [] = []) :
    ∃ kh, CKH.build d nl false = .ok kh ∧ Made kh (d.view nl) d nl d.lab0 d.lab1 := by
  have hv := view_okC' (nleads := nl) h hix hS
  obtain ⟨hi, hkd, _⟩ := h.inv
  obtain ⟨A, _, _, hn0⟩ := c50_dmc_labels h hix
  have hk : d.kind ≠ .pauli := by rw [hkd]; decide
  have hnc : d.si.ncharge = n + 1 := hi.shape.ncharge
  have hrow := fun c => row_of_sdm (c := c) nl hi.sdm
  have o := CKH.of_base' hk nl false [] []
  have hl : d.si.ncharge + 1 ≤ d.statesdm.length := hv.len
  have e1 : (CKH.base d nl false).bbpPairs = .ok (allElems (d.view nl)) := by
    unfold CKH.bbpPairs allElems
    rw [show (CKH.base d nl false).noConj = false by simp [CKH.base, hkd],
      show (CKH.base d nl false).noCoh = false from rfl,
      show (CKH.base d nl false).ncharge = (d.view nl).ncharge from rfl]
    simp only [Bool.false_eq_true, if_false, false_and, Nat.sub_zero]
    apply collect_ok
    intro c hc
    have hc : c < d.si.ncharge := List.mem_range.1 hc
    rw [show (CKH.base d nl false).count = ({ CKH.base d nl false with allBbp := [], allBa := [] } : CKH).count from rfl,
      o.count_get (by omega)]
    simp only [py_bind_ok]
    rw [prod2_range, List.flatMap_assoc]
    apply collect_ok
    intro i hi'
    have hi' := List.mem_range.1 hi'
    rw [List.flatMap_map, ← List.range_eq_range']
    apply collect_ok
    intro j hj
    have hj := List.mem_range.1 hj
    have s1 := o.stateAt_ok (c := c) (i := i) hi'
    have s2 := o.stateAt_ok (c := c) (i := j) hj
    rw [show (CKH.base d nl false).stateAt (c : Int) i = _ from s1,
      show (CKH.base d nl false).stateAt (c : Int) j = _ from s2]
    simp only [py_bind_ok]
    have mi := List.getElem_mem hi'
    have mj := List.getElem_mem hj
    have con : ∀ b ∈ (d.view nl).row c, Considered n S c b := fun b hb => by
      rw [hrow] at hb
      exact ⟨by omega, hb⟩
    obtain ⟨k, _, _, _, hb, _⟩ := A c _ _ (con _ mi) (con _ mj)
    rw [show (CKH.base d nl false).bool0 ((d.view nl).row c)[i] ((d.view nl).row c)[j] (c : Int) = _ from
      (o.bool0_eq _ _ c).trans hb, getD_get hi', getD_get hj]
    rfl
  have hlen : (allElems (d.view nl)).length = d.ndm0 := by
    rw [hn0, allElems, List.length_flatMap, show (d.view nl).ncharge = n + 1 from hnc]
    congr 1
    apply List.map_congr_left
    intro c _
    rw [List.length_flatMap]
    simp only [List.length_singleton, List.map_const', List.sum_replicate, smul_eq_mul, mul_one]
    rw [prod2_len, hrow, pow_two]
    rfl
  have e2 : CKH.fillRows (CKH.base d nl false).nelements (allElems (d.view nl)) = .ok (allElems (d.view nl)) :=
    fillRows_ok (by rw [hlen]; rfl)
  have e3 : ({ CKH.base d nl false with allBbp := allElems (d.view nl) } : CKH).baPairs = .ok (pairs1 (d.view nl)) :=
    (CKH.of_base' hk nl false (allElems (d.view nl)) []).baPairs_ok' (by
      show d.si.ncharge ≤ d.statesdm.length
      omega)
  have hp := pairs1_len nl hi.sizes hi.shape.ncharge hi.sdm
  have e4 : CKH.fillRows d.ndm1 (pairs1 (d.view nl)) = .ok (pairs1 (d.view nl)) := fillRows_ok hp
  refine ⟨{ CKH.base d nl false with allBbp := allElems (d.view nl), allBa := pairs1 (d.view nl) }, ?_,
    CKH.of_base' hk nl false _ _, hv, rfl, hp, rfl⟩
  unfold CKH.build
  simp only [e1, py_bind_ok, e2, e3]
  exact congrArg (fun x : Py (List Trip) => x >>= fun t => pure
    ({ CKH.base d nl false with allBbp := allElems (d.view nl), allBa := t } : CKH)) e4

/-! ### The grid -/

/-- The grid is uniform and has at least two points; the extended one continues it. -/
def Uni (s : St) : Prop := ∃ g : Grid, s.grid = g.list ∧ s.ext = g.ext ∧ 0 < g.h ∧ 2 ≤ g.len

theorem foldl_min_le (l : List ℝ) (x : ℝ) : l.foldl min x ≤ x := by
  induction l generalizing x with
  | nil => exact le_rfl
  | cons a l ih => exact (ih _).trans (min_le_left _ _)

theorem le_foldl_max (l : List ℝ) (x : ℝ) : x ≤ l.foldl max x := by
  induction l generalizing x with
  | nil => exact le_rfl
  | cons a l ih => exact (le_max_left _ _).trans (ih _)

theorem band_le (y : Sys) : y.band.1 ≤ y.band.2 := by
  unfold Sys.band lmin lmax
  rcases y.dlst with _ | ⟨p, l⟩
  · simp
  · simp only [List.map_cons, List.headD_cons]
    refine (foldl_min_le _ _).trans (le_trans ?_ (le_foldl_max _ _))
    exact (min_le_left _ _).trans (le_max_left _ _)

theorem extend_uni {s t : St} (h : (s.grid = [0] ∧ s.dband = (0, 0)) ∨ ∃ n, s.grid = linspace s.dband.1 s.dband.2 n)
    (hb : s.dband.1 ≤ s.dband.2) (e : s.extend = .ok t) : Uni t := by
  unfold St.extend at e
  obtain ⟨L, _, e⟩ := bind_inv e
  obtain ⟨r, hr, e⟩ := bind_inv e
  obtain rfl := Except.ok.inj e
  rcases h with ⟨h, _⟩ | ⟨n, h⟩
  · rw [h] at hr
    unfold gridExt at hr
    obtain ⟨g1, h1, _⟩ := bind_inv hr
    exact absurd h1 (by simp [pyGet, pyIdx, bind, Except.bind])
  · rw [h] at hr
    have hr' := hr
    unfold gridExt at hr'
    obtain ⟨g1, h1, hr'⟩ := bind_inv hr'
    obtain ⟨g0, h0, hr'⟩ := bind_inv hr'
    have hn : 2 ≤ n := by
      by_contra hn
      have : pyIdx (linspace s.dband.1 s.dband.2 n).length 1 = .error .index := by
        rw [linspace_length]
        unfold pyIdx
        rw [if_pos (by omega), if_neg (by omega)]
      unfold pyGet at h1
      rw [this] at h1
      exact absurd h1 (by simp [bind, Except.bind])
    have hn1 : (0 : ℝ) < (n : ℝ) - 1 := by
      have : (2 : ℝ) ≤ n := by exact_mod_cast hn
      linarith
    rw [linspace_eq] at h1 h0
    have h1' := uniform_get (x := s.dband.1) (h := (s.dband.2 - s.dband.1) / ((n : ℝ) - 1)) (n := n) (i := 1) (by omega)
    have h0' := uniform_get (x := s.dband.1) (h := (s.dband.2 - s.dband.1) / ((n : ℝ) - 1)) (n := n) (i := 0) (by omega)
    obtain rfl := Except.ok.inj (h1'.symm.trans h1)
    obtain rfl := Except.ok.inj (h0'.symm.trans h0)
    have hlt : s.dband.1 < s.dband.2 := by
      refine lt_of_le_of_ne hb fun heq => ?_
      obtain ⟨l, hl, _⟩ := bind_inv hr'
      unfold arange at hl
      rw [if_pos (by rw [heq]; simp)] at hl
      simp at hl
    rw [gridExt_eq hn hlt] at hr
    obtain rfl := Except.ok.inj hr
    refine ⟨⟨s.dband.1, (s.dband.2 - s.dband.1) / ((n : ℝ) - 1), n, npts (s.sys.extFct * (s.dband.1 - lmin L)) ((s.dband.2 - s.dband.1) / ((n : ℝ) - 1)),
      npts (s.sys.extFct * (lmax L - s.dband.2)) ((s.dband.2 - s.dband.1) / ((n : ℝ) - 1))⟩, ?_, ?_, div_pos (by linarith) hn1, hn⟩
    · show s.grid = _
      rw [h, linspace_eq]
      rfl
    · show (⟨_, _, _⟩ : Ext) = ⟨uniform _ _ (n + _ + _), _, _⟩
      rw [Nat.add_comm n]

/-- What is not changed by the steps after the grid is made. -/
structure Keep (s t : St) : Prop where
  sys : t.sys = s.sys
  mfreeq : t.opts.mfreeq = s.opts.mfreeq
  grid : t.grid = s.grid
  ext : t.ext = s.ext
  dband : t.dband = s.dband

/-- After every history. `Y`, `m` are the system and `mfreeq`. -/
structure Hold (Y : Sys) (m : Bool) (s : St) : Prop where
  inv : Inv s
  le : s.dband.1 ≤ s.dband.2
  uni : s.zeroth = false → Uni s
  sys : s.sys = Y
  mfreeq : s.opts.mfreeq = m

/-- Between the steps of an iteration. -/
structure Mid (Y : Sys) (m : Bool) (s : St) : Prop where
  inv : Inv s
  le : s.dband.1 ≤ s.dband.2
  uni : Uni s
  sys : s.sys = Y
  mfreeq : s.opts.mfreeq = m

variable {Y : Sys} {mf : Bool}

theorem Mid.hold {s : St} (h : Mid Y mf s) : Hold Y mf s := ⟨h.inv, h.le, fun _ => h.uni, h.sys, h.mfreeq⟩

theorem Mid.keep {s t : St} (h : Mid Y mf s) (hi : Inv t) (k : Keep s t) : Mid Y mf t := by
  refine ⟨hi, by rw [k.dband]; exact h.le, ?_, by rw [k.sys]; exact h.sys, by rw [k.mfreeq]; exact h.mfreeq⟩
  obtain ⟨g, g1, g2, g3⟩ := h.uni
  exact ⟨g, by rw [k.grid]; exact g1, by rw [k.ext]; exact g2, g3⟩

theorem hold_makeGrid {s t : St} (h : Hold Y mf s) (e : (if s.zeroth then s.makeGrid else pure s) = .ok t) : Hold Y mf t := by
  have hi := inv_makeGrid h.inv e
  by_cases hz : s.zeroth = true
  · rw [if_pos hz] at e
    rcases makeGrid_inv e (h.inv.zeroth hz) with rfl | ⟨n, _, rfl⟩
    · exact h
    · exact ⟨hi, band_le _, fun hf => by simp only at hf; rw [hz] at hf; simp at hf, h.sys, h.mfreeq⟩
  · rw [if_neg hz] at e
    obtain rfl := Except.ok.inj e
    exact h

theorem hold_extend {s t : St} (h : Hold Y mf s) (e : (if s.zeroth then s.extend else pure s) = .ok t) : Mid Y mf t := by
  have hi := inv_extend h.inv e
  by_cases hz : s.zeroth = true
  · rw [if_pos hz] at e
    have hu := extend_uni h.inv.grid h.le e
    obtain ⟨x, rfl⟩ := extend_inv e
    exact ⟨hi, h.le, hu, h.sys, h.mfreeq⟩
  · rw [if_neg hz] at e
    obtain rfl := Except.ok.inj e
    exact ⟨hi, h.le, h.uni (by simpa using hz), h.sys, h.mfreeq⟩

theorem mid_prepareKern {s t : St} (h : Mid Y mf s) (e : s.prepareKern = .ok t) : Mid Y mf t := by
  obtain ⟨a, p⟩ := prepareKern_inv h.inv e
  exact h.keep (inv_prepareKern h.inv e) ⟨p.sys, p.mfreeq, p.grid, p.ext, p.dband⟩

/-- Additionally the zeroth iteration has been made. -/
def Mid2 (Y : Sys) (m : Bool) (s : St) : Prop := Mid Y m s ∧ s.zeroth = false

theorem Mid2.inv2 {s : St} (h : Mid2 Y mf s) : Inv2 s := ⟨h.1.inv, h.2⟩

theorem mid_iterate {num : Num} {s t : St} (h : Mid Y mf s) (e : s.iterate num = .ok t) : Mid2 Y mf t := by
  have hi := inv_iterate h.inv e
  obtain ⟨d, i, rfl⟩ := iterate_inv e
  exact ⟨h.keep hi.1 ⟨rfl, rfl, rfl, rfl, rfl⟩, rfl⟩

theorem arrs_of {s t : St} {f : Arrs → Py St} (e : (attr s.arrs >>= f) = .ok t) : ∃ a, s.arrs = some a := by
  obtain ⟨a, h', _⟩ := bind_inv e
  exact ⟨a, attr_inv h'⟩

theorem mid_integrate {s t : St} (h : Mid2 Y mf s) (e : s.integrate = .ok t) : Mid2 Y mf t := by
  have hi := inv_integrate h.inv2 e
  obtain ⟨a, ha⟩ : ∃ a, s.arrs = some a := by
    unfold St.integrate at e
    obtain ⟨_, _, e⟩ := bind_inv e
    obtain ⟨_, _, e⟩ := bind_inv e
    exact arrs_of e
  obtain ⟨p, pp, epp, rfl⟩ := integrate_inv ha e
  exact ⟨h.1.keep hi.1 ⟨rfl, rfl, rfl, rfl, rfl⟩, hi.2⟩

theorem mid_genKern {s t : St} (h : Mid2 Y mf s) (e : s.genKern = .ok t) : Mid2 Y mf t := by
  have hi := inv_genKern h.inv2 e
  obtain ⟨a, ha⟩ := arrs_of (show (attr s.arrs >>= _) = _ from e)
  obtain ⟨k, m, _, _, rfl⟩ := genKern_inv ha e
  exact ⟨h.1.keep hi.1 ⟨rfl, rfl, rfl, rfl, rfl⟩, hi.2⟩

theorem mid_solveKern {num : Num} {s t : St} (h : Mid2 Y mf s) (e : s.solveKern num = .ok t) : Mid2 Y mf t := by
  have hi := inv_solveKern h.inv2 e
  obtain ⟨a, ha⟩ := arrs_of (show (attr s.arrs >>= _) = _ from e)
  obtain ⟨k, hk⟩ : ∃ k, a.kern = some k := by
    unfold St.solveKern at e
    rw [ha] at e
    obtain ⟨a', h', e⟩ := bind_inv e
    obtain rfl := Except.ok.inj (show (Except.ok a : Py Arrs) = .ok a' from h')
    obtain ⟨k, h', e⟩ := bind_inv e
    exact ⟨k, attr_inv h'⟩
  obtain ⟨m, b, x, φ, y, q, rfl, _⟩ := solveKern_inv ha hk e
  exact ⟨h.1.keep hi.1 ⟨rfl, rfl, rfl, rfl, rfl⟩, hi.2⟩

theorem mid_genCurrent {s t : St} (h : Mid2 Y mf s) (e : s.genCurrent = .ok t) : Mid2 Y mf t := by
  have hi := inv_genCurrent h.inv2 e
  obtain ⟨a, ha⟩ := arrs_of (show (attr s.arrs >>= _) = _ from e)
  obtain ⟨evs, _, rfl⟩ := genCurrent_inv ha e
  exact ⟨h.1.keep hi.1 ⟨rfl, rfl, rfl, rfl, rfl⟩, hi.2⟩

theorem mid_record {s t : St} (h : Mid2 Y mf s) (e : s.record = .ok t) : Mid2 Y mf t := by
  have hi := inv_record h.inv2 e
  obtain ⟨a, ha⟩ := arrs_of (show (attr s.arrs >>= _) = _ from e)
  obtain rfl := record_inv ha e
  exact ⟨h.1.keep hi.1 ⟨rfl, rfl, rfl, rfl, rfl⟩, hi.2⟩

/-! ### Histories -/

/-- `P` holds if nothing was raised, `Hold` always; the compiled version `r'` did the same. -/
def Both (Y : Sys) (mf : Bool) (P : St → Prop) (r' r : St × Option PyErr) : Prop :=
  r' = r ∧ (r.2 = none → P r.1) ∧ Hold Y mf r.1

theorem both_step {P Q : St → Prop} {f' f : St → Py St} (hff : ∀ s, P s → f' s = f s) (hf : ∀ s t, P s → f s = .ok t → Q t)
    (hQ : ∀ s, Q s → Hold Y mf s) {r' r : St × Option PyErr} (h : Both Y mf P r' r) : Both Y mf Q (step f' r') (step f r) := by
  obtain ⟨rfl, h1, h2⟩ := h
  obtain ⟨s, e⟩ := r'
  rcases e with _ | e
  · have hs' := hff s (h1 rfl)
    rcases hs : f s with x | t
    · rw [step_error hs, step_error (hs'.trans hs)]
      exact ⟨rfl, fun h' => by simp at h', h2⟩
    · rw [step_ok hs, step_ok (hs'.trans hs)]
      have := hf s t (h1 rfl) hs
      exact ⟨rfl, fun _ => this, hQ t this⟩
  · exact ⟨rfl, fun h' => by simp [step] at h', h2⟩

/-- One iteration with some steps replaced. -/
theorem both_iteration {num num' : Num} {p' i' : St → Py St} (hp : ∀ s, Mid Y mf s → p' s = s.prepareKern)
    (hi : ∀ s, Mid Y mf s → s.iterate num' = s.iterate num) (hn : ∀ s, i' s = s.integrate) (hs : ∀ s, St.solveKern num' s = s.solveKern num)
    {r' r : St × Option PyErr} (h : Both Y mf (Hold Y mf) r' r) :
    Both Y mf (Hold Y mf) ([fun s => if s.zeroth then s.makeGrid else pure s, fun s => if s.zeroth then s.extend else pure s, p',
      St.iterate num', i', St.genKern, St.solveKern num', St.genCurrent, St.record].foldl (fun r f => step f r) r')
      (St.iteration num r) := by
  have a1 : ∀ s, Hold Y mf s → Hold Y mf s := fun _ h => h
  have a2 : ∀ s, Mid Y mf s → Hold Y mf s := fun _ h => h.hold
  have a3 : ∀ s, Mid2 Y mf s → Hold Y mf s := fun _ h => h.1.hold
  have h1 := both_step (fun _ _ => rfl) (fun _ _ h e => hold_makeGrid h e) a1 h
  have h2 := both_step (fun _ _ => rfl) (fun _ _ h e => hold_extend h e) a2 h1
  have h3 := both_step hp (fun _ _ h e => mid_prepareKern h e) a2 h2
  have h4 := both_step hi (fun _ _ h e => mid_iterate h e) a3 h3
  have h5 := both_step (fun s _ => hn s) (fun _ _ h e => mid_integrate h e) a3 h4
  have h6 := both_step (fun _ _ => rfl) (fun _ _ h e => mid_genKern h e) a3 h5
  have h7 := both_step (fun s _ => hs s) (fun _ _ h e => mid_solveKern h e) a3 h6
  have h8 := both_step (fun _ _ => rfl) (fun _ _ h e => mid_genCurrent h e) a3 h7
  have h9 := both_step (fun _ _ => rfl) (fun _ _ h e => mid_record h e) a3 h8
  exact ⟨h9.1, fun _ => h9.2.2, h9.2.2⟩

theorem hold_restart {s : St} (h : Hold Y mf s) : Hold Y mf s.restart :=
  ⟨h.inv.restart, h.le, fun hz => by simp [St.restart] at hz, h.sys, h.mfreeq⟩

theorem solve_hold {num : Num} {s : St} (h : Hold Y mf s) (restartq : Bool) (niter : Option Nat) :
    Hold Y mf (s.solve num restartq niter).1 := by
  have key : ∀ (n : Nat) (r : St × Option PyErr), Hold Y mf r.1 → Hold Y mf ((St.iteration num)^[n] r).1 := by
    intro n
    induction n with
    | zero => intro r h; exact h
    | succ n ih =>
      intro r h
      rw [Function.iterate_succ_apply]
      exact ih _ (both_iteration (num' := num) (p' := St.prepareKern) (i' := St.integrate) (fun _ _ => rfl) (fun _ _ => rfl)
        (fun _ => rfl) (fun _ => rfl) ⟨rfl, fun _ => h, h⟩).2.2
  have hi : Hold Y mf (if restartq then s.restart else s) := by
    split
    · exact hold_restart h
    · exact h
  unfold St.solve
  rcases niter with _ | n
  · exact hi
  · exact key n _ hi

/-- After every history. -/
theorem hist_hold {num : Num} {s : St} (h : Hist num s) : Hold s.sys s.opts.mfreeq s := by
  have self : ∀ {Y mf s}, Hold Y mf s → Hold s.sys s.opts.mfreeq s := fun h => ⟨h.inv, h.le, h.uni, rfl, rfl⟩
  induction h with
  | new o sys => exact ⟨(Hist.new (num := num) o sys).inv, le_rfl, fun hz => by simp [St.fresh] at hz, rfl, rfl⟩
  | restart _ ih => exact self (hold_restart ih)
  | solve r n _ ih => exact self (solve_hold ih r n)
  | @params s sys hs hv ih => exact ⟨(Hist.params sys hs hv).inv, ih.le, ih.uni, rfl, rfl⟩
  | @states s sys hs ih => exact ⟨(Hist.states sys hs).inv, ih.le, ih.uni, rfl, rfl⟩
  | @opts s o hs ho ih => exact ⟨(Hist.opts o hs ho).inv, ih.le, ih.uni, rfl, rfl⟩

/-- C99. Let an object of the Python 2vN approach have any history: runs of `solve` that may have raised, restarts, changes of the
parameters, of the considered states and of the options. If the present indexing object is of class `StateIndexingDMc` with
'Lin' or 'charge' indexing, the compiled handler of it is made without an access outside of its arrays, and `solve` of the
compiled approach leaves the same state behind as `solve` of the Python approach, and raises the same exception if it raises,
whatever the number of iterations and whatever `np.linalg.inv`, `np.linalg.solve` and `np.linalg.lstsq` return. -/
theorem c99_solve {inv : CMat → Option CMat} {lsolve lstsq : CMat → VN2.CVec → Option VN2.CVec} {s : St}
    (hs : Hist (Num.of inv lsolve lstsq) s) (hm : s.opts.mfreeq = false) {n nl : Nat} {indexing : String} {d : DM} {S : List (List Nat)}
    (h : Reach .dmc n indexing d S) (hix : d.si.indexing = .Lin ∨ d.si.indexing = .charge)
    (hS : ∀ c, n + 1 ≤ c → S[c]?.getD [] = []) (hv : s.sys.v = d.view nl) :
    ∃ kh, CKH.build d nl false = .ok kh ∧ ∀ restartq niter,
      CVN2.solve kh inv lsolve lstsq restartq niter s = s.solve (Num.of inv lsolve lstsq) restartq niter := by
  obtain ⟨kh, hb, m⟩ := handler (nl := nl) h hix hS
  refine ⟨kh, hb, fun restartq niter => ?_⟩
  have h0 := hist_hold hs
  rw [hm] at h0
  have h1 : Hold s.sys false (if restartq then s.restart else s) := by
    split
    · exact hold_restart h0
    · exact h0
  rw [← hv] at m
  have q1 : ∀ t, Mid s.sys false t → CVN2.prepareKern t = t.prepareKern := fun t ht => prepareKern_eq ht.mfreeq
  have q2 : ∀ t, Mid s.sys false t → t.iterate (num kh inv lsolve lstsq) = t.iterate (Num.of inv lsolve lstsq) := fun t ht => by
    obtain ⟨g, g1, g2, g3, g4⟩ := ht.uni
    have m' : Made kh t.sys.v d nl d.lab0 d.lab1 := by rw [ht.sys]; exact m
    exact iterate_eq m' g3 g4 g1 g2 inv lsolve lstsq
  have q3 : ∀ t : St, t.solveKern (num kh inv lsolve lstsq) = t.solveKern (Num.of inv lsolve lstsq) :=
    solveKern_eq kh inv lsolve lstsq
  have key : ∀ (k : Nat) (r : St × Option PyErr), Hold s.sys false r.1 →
      (CVN2.iteration kh inv lsolve lstsq)^[k] r = (St.iteration (Num.of inv lsolve lstsq))^[k] r := by
    intro k
    induction k with
    | zero => intro r _; rw [Function.iterate_zero, Function.iterate_zero]
    | succ k ih =>
      intro r hr
      have b := both_iteration (i' := CVN2.integrate) q1 q2 integrate_eq q3 (r' := r) (r := r) ⟨rfl, fun _ => hr, hr⟩
      obtain ⟨b1, _, b3⟩ := b
      rw [Function.iterate_succ_apply, Function.iterate_succ_apply]
      have b1' : CVN2.iteration kh inv lsolve lstsq r = St.iteration (Num.of inv lsolve lstsq) r := by
        unfold CVN2.iteration steps
        exact b1
      rw [b1']
      exact ih _ b3
  unfold CVN2.solve St.solve
  rcases niter with _ | k
  · rfl
  · exact key k _ h1

/-- The histories of an object of the compiled approach, cf. `VN2.Hist`: `solve` is run with the handler of the present
indexing object. -/
inductive CHist (inv : CMat → Option CMat) (lsolve lstsq : CMat → VN2.CVec → Option VN2.CVec) : St → Prop where
  | new (o : Opts) (sys : Sys) : CHist inv lsolve lstsq (.fresh o sys)
  | restart {s : St} : CHist inv lsolve lstsq s → CHist inv lsolve lstsq s.restart
  | solve {s : St} (restartq : Bool) (niter : Option Nat) {n nl : Nat} {indexing : String} {d : DM} {S : List (List Nat)} {kh : CKH} :
      CHist inv lsolve lstsq s → s.opts.mfreeq = false → Reach .dmc n indexing d S → (d.si.indexing = .Lin ∨ d.si.indexing = .charge) →
      (∀ c, n + 1 ≤ c → S[c]?.getD [] = []) → s.sys.v = d.view nl → CKH.build d nl false = .ok kh →
      CHist inv lsolve lstsq (CVN2.solve kh inv lsolve lstsq restartq niter s).1
  | params {s : St} (sys : Sys) : CHist inv lsolve lstsq s → sys.v = s.sys.v → CHist inv lsolve lstsq { s with sys := sys }
  | states {s : St} (sys : Sys) : CHist inv lsolve lstsq s → CHist inv lsolve lstsq { s with sys := sys, changed := true }
  | opts {s : St} (o : Opts) : CHist inv lsolve lstsq s → (o.symq = s.opts.symq ∧ o.mfreeq = s.opts.mfreeq) ∨ s.prepared = false →
      CHist inv lsolve lstsq { s with opts := o }

/-- C99. Whatever is done with an object of the compiled approach, it ends in a state that an object of the Python approach
has after the same operations. With this the statements about `Hist` (C27, C39, C60, C89) hold of the compiled approach. -/
theorem c99_history {inv : CMat → Option CMat} {lsolve lstsq : CMat → VN2.CVec → Option VN2.CVec} {s : St}
    (h : CHist inv lsolve lstsq s) : Hist (Num.of inv lsolve lstsq) s := by
  induction h with
  | new o sys => exact .new o sys
  | restart _ ih => exact .restart ih
  | @solve s restartq niter n nl indexing d S kh _ hm hr hix hS hv hb ih =>
    obtain ⟨kh', hb', e⟩ := c99_solve ih hm hr hix hS hv
    obtain rfl := Except.ok.inj (hb'.symm.trans hb)
    rw [e]
    exact .solve restartq niter ih
  | params sys _ hv ih => exact .params sys ih hv
  | states sys _ ih => exact .states sys ih
  | opts o _ ho ih => exact .opts o ih ho

/-- Two single particle states, two leads: an object that has been run for three iterations, had its parameters changed and
is run again without a restart. -/
example (inv : CMat → Option CMat) (lsolve lstsq : CMat → VN2.CVec → Option VN2.CVec) (o : Opts) (ho : o.mfreeq = false)
    (E E' : Nat → ℝ) (T : Nat → Nat → Nat → ℂ) : ∃ d kh, DM.init .dmc 2 "charge" = .ok d ∧ d.ndm0 = 6 ∧ d.ndm1 = 4 ∧
    CKH.build d 2 false = .ok kh ∧
    ∀ y y' : Sys, y = ⟨d.view 2, E, T, fun l => l, fun _ => 1, [(-10, 10), (-10, 10)], some 100, 1⟩ → y' = { y with E := E' } →
    ∀ s : St, s = { (CVN2.solve kh inv lsolve lstsq true (some 3) (.fresh o y)).1 with sys := y' } →
    (CVN2.solve kh inv lsolve lstsq false (some 2) s) = s.solve (Num.of inv lsolve lstsq) false (some 2) := by
  have key : (SI.init 2 "charge" >>= fun si => DM.init .dmc 2 "charge" >>= fun d =>
      .ok (d.ndm0, d.ndm1, si.chargelst.length, decide (d.si.indexing = .charge))) = .ok (6, 4, 3, true) := by decide +kernel
  rcases h1 : SI.init 2 "charge" with e | si
  · rw [h1] at key
    exact absurd (show (Except.error e : Py (Nat × Nat × Nat × Bool)) = .ok _ from key) (by simp)
  · rcases h2 : DM.init .dmc 2 "charge" with e | d
    · rw [h1, h2] at key
      exact absurd (show (Except.error e : Py (Nat × Nat × Nat × Bool)) = .ok _ from key) (by simp)
    · rw [h1, h2] at key
      simp only [py_bind_ok, Except.ok.injEq, Prod.mk.injEq, decide_eq_true_iff] at key
      obtain ⟨k1, k2, k3, k4⟩ := key
      have hr : Reach .dmc 2 "charge" d si.chargelst := Reach.init h1 h2
      have hS : ∀ c, 2 + 1 ≤ c → si.chargelst[c]?.getD [] = [] := fun c hc => by
        rw [List.getElem?_eq_none (by omega)]; rfl
      obtain ⟨kh, hb, _⟩ := handler (nl := 2) hr (Or.inr k4) hS
      refine ⟨d, kh, rfl, k1, k2, hb, ?_⟩
      intro y y' hy hy' s hs
      have c0 : CHist inv lsolve lstsq (.fresh o y) := .new o y
      have c1 := CHist.solve true (some 3) c0 ho hr (Or.inr k4) hS (nl := 2) (by rw [hy]; rfl) hb
      have hh1 := hist_hold (c99_history c0)
      obtain ⟨e1, hm⟩ : (CVN2.solve kh inv lsolve lstsq true (some 3) (.fresh o y)).1.sys.v = y.v ∧
          (CVN2.solve kh inv lsolve lstsq true (some 3) (.fresh o y)).1.opts.mfreeq = false := by
        obtain ⟨kh', hb', e⟩ := c99_solve (c99_history c0) ho hr (Or.inr k4) hS (nl := 2) (by rw [hy]; rfl)
        obtain rfl := Except.ok.inj (hb'.symm.trans hb)
        rw [e]
        exact ⟨congrArg Sys.v (solve_hold hh1 _ _).sys, (solve_hold hh1 _ _).mfreeq.trans ho⟩
      have c2 : CHist inv lsolve lstsq s := by
        rw [hs]
        exact .params y' c1 (by rw [e1, hy'])
      obtain ⟨kh', hb', e⟩ := c99_solve (c99_history c2) (by rw [hs]; exact hm) hr (Or.inr k4) hS (nl := 2) (by rw [hs, hy', hy])
      obtain rfl := Except.ok.inj (hb'.symm.trans hb)
      exact e false (some 2)

end CVN2

end

end Verif
