import Verif.Lemmas.RTDObj
import Verif.Props.RTDMore

/-! The life of an RTD object: repeated calculations, the option `off_diag_corrections`, the flag `ImGamma`. -/

namespace Verif

open Finset

noncomputable section

namespace RTD

variable {lib : Lib}

/-- The objects that can be met: after `__init__`, changes and calls of `solve`, in any order. The indexing objects
label density matrices. -/
inductive Hist (lib : Lib) : Obj lib → Prop
  | new {y : Sys} (hv : ∃ la, VOk y.v la) (symq funOff : Bool) : Hist lib (Obj.new lib y symq funOff)
  | option {o : Obj lib} (h : Hist lib o) (b : Bool) : Hist lib (o.change (.option b))
  | params {o : Obj lib} (h : Hist lib o) (E : Nat → ℝ) (nmany : Nat) (L : Leads) (tl : Nat → Nat → ℂ) (ns : Nat) :
      Hist lib (o.change (.params E nmany L tl ns))
  | states {o : Obj lib} (h : Hist lib o) {y : Sys} (hv : ∃ la, VOk y.v la) : Hist lib (o.change (.states y))
  | solve {o : Obj lib} (h : Hist lib o) : Hist lib o.solve.1

/-- What is to be calculated: the kernel of the present system on new arrays, with or without corrections. -/
def result (lib : Lib) (y : Sys) (poles : Option lib.Poles) (symq off : Bool) : Py St := do
  let fct ← Pauli.genFct y.v y.E y.L
  genKern (y.inp lib poles) fct off (fresh y.v symq)

/-! ### The parts of a calculation -/

theorem setup_fields (o : Obj lib) : o.setup.sys = o.sys ∧ o.setup.off = o.funOff ∧ o.setup.funOff = o.funOff ∧
    o.setup.st = o.st ∧ o.setup.im = o.im ∧ o.setup.symq = o.symq ∧ o.setup.prepared = o.prepared ∧
    o.setup.changed = o.changed := by
  unfold Obj.setup
  simp only
  split <;> simp

/-- The poles after `set_Ozaki_params` depend on the system, the old poles and their bandwidth. -/
theorem setup_poles {o o' : Obj lib} (h1 : o'.sys = o.sys) (h2 : o'.poles = o.poles) (h3 : o'.bw = o.bw) :
    o'.setup.poles = o.setup.poles ∧ o'.setup.bw = o.setup.bw := by
  unfold Obj.setup
  simp only [h1, h2, h3]
  split <;> rename_i hc <;> split <;> rename_i hc' <;> first | exact ⟨rfl, rfl⟩ | simp_all

theorem generate_eq {o : Obj lib} {la : Lab} (h : VOk o.sys.v la) (hs : o.st = some (arrays o.sys.v o.symq)) :
    o.generate = match result lib o.sys o.setup.poles o.symq o.funOff with
      | .error e => (o.setup, .error e)
      | .ok st => ({ o.setup with st := some (st.kern, st.acc.mats), im := o.im || st.acc.im }, .ok ()) := by
  obtain ⟨fct, hf, _⟩ := Pauli.genFct_ok h o.sys.E o.sys.L
  obtain ⟨e1, e2, e3, e4, e5, e6, e7, e8⟩ := setup_fields o
  unfold Obj.generate result
  rw [hf]
  simp only [py_bind_ok, e1, e2, e4, e5, hs]
  have key := genKern_orIm (o.sys.inp lib o.setup.poles) fct o.funOff o.im (fresh o.sys.v o.symq)
  have e : (⟨(arrays o.sys.v o.symq).1, ⟨(arrays o.sys.v o.symq).2, o.im⟩⟩ : St) =
      ⟨(fresh o.sys.v o.symq).kern, orIm o.im (fresh o.sys.v o.symq).acc⟩ := by
    simp [arrays, orIm, fresh]
  rw [e, key]
  rcases genKern (o.sys.inp lib o.setup.poles) fct o.funOff (fresh o.sys.v o.symq) with er | st <;> rfl

/-- The invariant of all histories. -/
def Inv (o : Obj lib) : Prop :=
  (∃ la, VOk o.sys.v la) ∧ (o.prepared = true → o.changed = false →
    ∃ a, o.st = some a ∧ clean o.off a = arrays o.sys.v o.symq)

/-- The object can be prepared: it has arrays for the present states, or its own flag is set. -/
def Able (o : Obj lib) : Prop := (o.prepared = true ∧ o.changed = false) ∨ o.off = true

/-- The object after a successful preparation. -/
def Obj.ready (o : Obj lib) : Obj lib :=
  { o with
    st := some (arrays o.sys.v o.symq)
    prepared := true
    changed := false
    im := o.im && !(o.prepared && !o.changed) }

theorem prepare_able {o : Obj lib} (hi : Inv o) (ha : Able o) : o.prepare =
    .ok o.ready := by
  unfold Obj.prepare
  by_cases hp : o.prepared = true ∧ o.changed = false
  · obtain ⟨a, h1, h2⟩ := hi.2 hp.1 hp.2
    obtain ⟨h3, h4⟩ := hp
    cases o
    simp_all [Obj.ready]
  · have hoff : o.off = true := by
      rcases ha with ha | ha
      · exact absurd ha hp
      · exact ha
    have hp' : (o.prepared && !o.changed) = false := by
      rcases h1 : o.prepared <;> rcases h2 : o.changed <;> simp_all
    simp [hp', hoff, Obj.ready]

theorem prepare_unable {o : Obj lib} (ha : ¬ Able o) : o.prepare = .error .attribute := by
  unfold Able at ha
  push Not at ha
  unfold Obj.prepare
  have hp' : (o.prepared && !o.changed) = false := by
    rcases h1 : o.prepared <;> rcases h2 : o.changed <;> simp_all
  rw [hp']
  simp [ha.2]

theorem solve_able {o : Obj lib} (hi : Inv o) (ha : Able o) :
    match result lib o.sys o.setup.poles o.symq o.funOff with
    | .error e => o.solve.2 = .error e ∧ o.solve.1.st = some (arrays o.sys.v o.symq) ∧ o.solve.1.poles = o.setup.poles
    | .ok st => o.solve.2 = .ok () ∧ o.solve.1.st = some (st.kern, st.acc.mats) ∧ o.solve.1.poles = o.setup.poles ∧
      o.solve.1.im = (o.im && !(o.prepared && !o.changed) || st.acc.im) := by
  obtain ⟨la, hv⟩ := hi.1
  unfold Obj.solve
  rw [prepare_able hi ha]
  simp only
  rw [generate_eq (o := o.ready) hv rfl]
  have e := (setup_poles (o := o) (o' := o.ready) rfl rfl rfl).1
  have f := setup_fields o.ready
  have r : o.ready.sys = o.sys ∧ o.ready.symq = o.symq ∧ o.ready.funOff = o.funOff := ⟨rfl, rfl, rfl⟩
  simp only [e, r]
  rcases result lib o.sys o.setup.poles o.symq o.funOff with er | st
  · exact ⟨rfl, f.2.2.2.1, e⟩
  · exact ⟨rfl, rfl, rfl, rfl⟩

theorem solve_fields {o : Obj lib} (hi : Inv o) (ha : Able o) : o.solve.1.sys = o.sys ∧ o.solve.1.funOff = o.funOff ∧
    o.solve.1.off = o.funOff ∧ o.solve.1.symq = o.symq ∧ o.solve.1.bw = o.setup.bw := by
  obtain ⟨la, hv⟩ := hi.1
  unfold Obj.solve
  rw [prepare_able hi ha]
  simp only
  rw [generate_eq (o := o.ready) hv rfl]
  obtain ⟨f1, f2, f3, f4, f5, f6, f7, f8⟩ := setup_fields o.ready
  have e := (setup_poles (o := o) (o' := o.ready) rfl rfl rfl).2
  simp only
  rcases result lib o.ready.sys _ o.ready.symq o.ready.funOff with er | st
  · exact ⟨f1, f3, f2, f6, e⟩
  · exact ⟨f1, f3, f2, f6, e⟩

theorem solve_prepared {o : Obj lib} (hi : Inv o) (ha : Able o) : o.solve.1.prepared = true ∧ o.solve.1.changed = false := by
  obtain ⟨la, hv⟩ := hi.1
  unfold Obj.solve
  rw [prepare_able hi ha]
  simp only
  rw [generate_eq (o := o.ready) hv rfl]
  obtain ⟨f1, f2, f3, f4, f5, f6, f7, f8⟩ := setup_fields o.ready
  simp only
  rcases result lib o.ready.sys _ o.ready.symq o.ready.funOff with er | st
  · exact ⟨f7, f8⟩
  · exact ⟨f7, f8⟩

theorem solve_inv {o : Obj lib} (hi : Inv o) : Inv o.solve.1 := by
  by_cases ha : Able o
  · obtain ⟨la, hv⟩ := hi.1
    unfold Obj.solve
    rw [prepare_able hi ha]
    simp only
    rw [generate_eq (o := o.ready) hv rfl]
    obtain ⟨f1, f2, f3, f4, f5, f6, f7, f8⟩ := setup_fields o.ready
    simp only
    have r : o.ready.sys = o.sys ∧ o.ready.symq = o.symq ∧ o.ready.funOff = o.funOff := ⟨rfl, rfl, rfl⟩
    simp only [r] at f1 f2 f6 ⊢
    rcases hr : result lib o.sys _ o.symq o.funOff with er | st
    · refine ⟨⟨la, by rw [f1]; exact hv⟩, fun _ _ => ⟨_, f4, ?_⟩⟩
      rw [f2, f1, f6]
      exact clean_arrays _ _ _
    · refine ⟨⟨la, by rw [f1]; exact hv⟩, fun _ _ => ⟨_, rfl, ?_⟩⟩
      unfold result at hr
      obtain ⟨fct, _, hr⟩ := bind_ok_inv hr
      simp only [f1, f2, f6]
      exact clean_genKern (s := o.sys.inp lib _) hv hr
  · unfold Obj.solve
    rw [prepare_unable ha]
    exact hi

theorem Hist.inv {o : Obj lib} (h : Hist lib o) : Inv o := by
  induction h with
  | new hv symq funOff => exact ⟨hv, by simp [Obj.new]⟩
  | option h b ih => exact ih
  | params h E nmany L tl ns ih => exact ⟨ih.1, ih.2⟩
  | states h hv ih => exact ⟨hv, by simp [Obj.change]⟩
  | solve h ih => exact solve_inv ih

/-! ### Properties -/

/-- **C66**, whatever happened before, a calculation which succeeds has the kernel and the matrices of the present
system on new arrays, with corrections exactly if the option is set now. -/
theorem c66_kernel {o : Obj lib} (h : Hist lib o) (hs : o.solve.2 = .ok ()) :
    ∃ st, result lib o.sys o.solve.1.poles o.symq o.funOff = .ok st ∧ o.solve.1.st = some (st.kern, st.acc.mats) := by
  by_cases ha : Able o
  · have key := solve_able h.inv ha
    rcases hr : result lib o.sys o.setup.poles o.symq o.funOff with er | st
    · rw [hr] at key
      simp [key.1] at hs
    · rw [hr] at key
      obtain ⟨_, k2, k3, _⟩ := key
      exact ⟨st, k3 ▸ hr, k2⟩
  · simp [Obj.solve, prepare_unable ha] at hs

/-- **C66**, the flag `ImGamma`, which makes the energy currents undefined, is that of the present system, if the
states have not been changed since the last calculation, or no calculation found it set. -/
theorem c66_flag_partial {o : Obj lib} (h : Hist lib o) (hs : o.solve.2 = .ok ())
    (hf : o.im = false ∨ (o.prepared = true ∧ o.changed = false)) :
    ∃ st, result lib o.sys o.solve.1.poles o.symq o.funOff = .ok st ∧ o.solve.1.im = st.acc.im := by
  by_cases ha : Able o
  · have key := solve_able h.inv ha
    rcases hr : result lib o.sys o.setup.poles o.symq o.funOff with er | st
    · rw [hr] at key
      simp [key.1] at hs
    · rw [hr] at key
      obtain ⟨_, k2, k3, k4⟩ := key
      refine ⟨st, k3 ▸ hr, k4.trans ?_⟩
      rcases hf with hf | hf <;> simp [hf]
  · simp [Obj.solve, prepare_unable ha] at hs

/-- The system has real amplitudes and equal temperatures. -/
def Sys.Plain (y : Sys) : Prop := (∀ l, l < y.v.nleads → y.L.T l = y.L.T 0) ∧ ∀ l a b, (y.L.Tba l a b).im = 0

theorem plain_needs {y : Sys} (h : y.Plain) : ¬ y.needOzaki := by
  unfold Sys.needOzaki
  push Not
  refine ⟨fun l hl => ?_, fun l _ a _ b _ => ?_⟩
  · rw [h.1 l hl]
    unfold isclose
    simp only [sub_self, abs_zero]
    positivity
  · rw [h.2 l a b]; simp

/-- **C66**, for real amplitudes and equal temperatures the kernel, the matrices and the flag are those of a newly made
object for which the option is set to its present value. -/
theorem c66_new_partial {o : Obj lib} (h : Hist lib o) (hs : o.solve.2 = .ok ()) (hp : o.sys.Plain)
    (hf : o.im = false ∨ (o.prepared = true ∧ o.changed = false)) :
    let n := (Obj.new lib o.sys o.symq true).change (.option o.funOff)
    n.solve.2 = .ok () ∧ n.solve.1.st = o.solve.1.st ∧ n.solve.1.im = o.solve.1.im := by
  intro n
  have hn : Hist lib n := .option (.new h.inv.1 _ _) _
  obtain ⟨st, h1, h2⟩ := c66_kernel h hs
  obtain ⟨st', h1', h3⟩ := c66_flag_partial h hs hf
  rw [h1] at h1'
  simp only [Except.ok.injEq] at h1'
  subst h1'
  have hpole : n.setup.poles = none := by
    unfold Obj.setup
    simp only
    rw [if_neg fun hh => plain_needs hp hh.1]
    rfl
  have hr : result lib n.sys n.setup.poles n.symq n.funOff = .ok st := by
    rw [hpole, ← h1]
    unfold result
    show (Pauli.genFct o.sys.v o.sys.E o.sys.L >>= fun fct =>
      genKern (o.sys.inp lib none) fct o.funOff (fresh o.sys.v o.symq)) = _
    refine congrArg _ (funext fun fct => ?_)
    exact genKern_poles (s := o.sys.inp lib o.solve.1.poles) (p := none) ⟨hp.1, hp.2⟩ _ _ _
  have key := solve_able hn.inv (Or.inr rfl)
  rw [hr] at key
  obtain ⟨k1, k2, _, k4⟩ := key
  refine ⟨k1, k2.trans h2.symm, k4.trans ?_⟩
  rw [h3]
  simp [n, Obj.change, Obj.new]

/-- **C66**, which calculations succeed: the object can be prepared and the kernel can be calculated. -/
theorem c66_runs {o : Obj lib} (h : Hist lib o) : o.solve.2 = .ok () ↔
    ((o.prepared = true ∧ o.changed = false) ∨ o.off = true) ∧
      ∃ st, result lib o.sys o.setup.poles o.symq o.funOff = .ok st := by
  constructor
  · intro hs
    by_cases ha : Able o
    · refine ⟨ha, ?_⟩
      have key := solve_able h.inv ha
      rcases hr : result lib o.sys o.setup.poles o.symq o.funOff with er | st
      · rw [hr] at key
        simp [key.1] at hs
      · exact ⟨st, rfl⟩
    · simp [Obj.solve, prepare_unable ha] at hs
  · rintro ⟨ha, st, hr⟩
    have key := solve_able h.inv ha
    rw [hr] at key
    exact key.1

/-- One thing done to an object: a change or a call of `solve`. -/
def Obj.act (o : Obj lib) : Option Change → Obj lib
  | none => o.solve.1
  | some c => o.change c

theorem stuck_act {o : Obj lib} (h1 : o.off = false) (h2 : o.prepared = false ∨ o.changed = true) (c : Option Change) :
    (o.act c).off = false ∧ ((o.act c).prepared = false ∨ (o.act c).changed = true) := by
  have ha : ¬ Able o := by
    unfold Able
    rcases h2 with h2 | h2 <;> simp [h1, h2]
  rcases c with _ | c
  · simp only [Obj.act, Obj.solve, prepare_unable ha]
    exact ⟨h1, h2⟩
  · cases c with
    | option b => exact ⟨h1, h2⟩
    | params E nmany L tl ns => exact ⟨h1, h2⟩
    | states y => exact ⟨h1, Or.inr rfl⟩

/-- **C66**, an object that is to be prepared while its own flag is not set never calculates anything again, whatever is
done to it, also if the option is set again. -/
theorem c66_stuck {o : Obj lib} (h1 : o.off = false) (h2 : o.prepared = false ∨ o.changed = true)
    (cs : List (Option Change)) : (cs.foldl Obj.act o).solve.2 = .error .attribute := by
  induction cs generalizing o with
  | nil =>
    have ha : ¬ Able o := by
      unfold Able
      rcases h2 with h2 | h2 <;> simp [h1, h2]
    simp [Obj.solve, prepare_unable ha]
  | cons c cs ih =>
    obtain ⟨k1, k2⟩ := stuck_act h1 h2 c
    exact ih k1 k2

/-- **C66** fails for every system made with `off_diag_corrections=False`: all calculations raise `AttributeError`. -/
theorem c66_without_false (y : Sys) (symq : Bool) (cs : List (Option Change)) :
    (cs.foldl Obj.act (Obj.new lib y symq false)).solve.2 = .error .attribute :=
  c66_stuck rfl (Or.inl rfl) cs

/-- **C66** fails for every object which has calculated without corrections and for which the states are then changed:
all later calculations raise `AttributeError`, also with the option set again. -/
theorem c66_states_false {o : Obj lib} (h : Hist lib o) (hoff : o.funOff = false) (hs : o.solve.2 = .ok ()) (y : Sys)
    (cs : List (Option Change)) : (cs.foldl Obj.act (o.solve.1.change (.states y))).solve.2 = .error .attribute := by
  refine c66_stuck ?_ (Or.inr rfl) cs
  show o.solve.1.off = false
  rw [(solve_fields h.inv ((c66_runs h).1 hs).1).2.2.1, hoff]

/-- The flag `ImGamma` is kept when the states are changed. -/
theorem im_kept {o : Obj lib} (h : Hist lib o) (him : o.im = true) (hc : o.changed = true) (hs : o.solve.2 = .ok ()) :
    o.solve.1.im = true := by
  obtain ⟨ha, st, hr⟩ := (c66_runs h).1 hs
  have key := solve_able h.inv ha
  rw [hr] at key
  rw [key.2.2.2]
  simp [him, hc]

/-! ### A flag that survives -/

theorem run_im_true {v : View} {a a' : Acc} {ks : List Call} (h : run v a ks = .ok a') (hi : a.im = true) :
    a'.im = true := by
  have e : orIm true a = a := by
    cases a; simp only at hi; subst hi; rfl
  have := run_orIm v true a ks
  rw [e, h] at this
  have this : Except.ok a' = (Except.ok (orIm true a') : Py Acc) := this
  simp only [Except.ok.injEq] at this
  rw [this]
  rfl

theorem run_im_set {v : View} {a a' : Acc} {ks : List Call} (h : run v a ks = .ok a') (hk : Call.imGamma ∈ ks) :
    a'.im = true := by
  obtain ⟨xs, ys, rfl⟩ := List.append_of_mem hk
  unfold run at h
  rw [List.foldlM_append] at h
  obtain ⟨a1, _, h⟩ := bind_ok_inv h
  rw [List.foldlM_cons] at h
  obtain ⟨a2, h2, h⟩ := bind_ok_inv h
  simp only [call, py_pure, Except.ok.injEq] at h2
  refine run_im_true h ?_
  rw [← h2]

/-- Complex products of amplitudes set the flag. -/
theorem im_true {s : In} {la : Lab} (h : VOk s.v la) {fct : Nat → Nat → ℝ × ℝ} {off symq : Bool} {st : St}
    (hst : genKern s fct off (fresh s.v symq) = .ok st) {q a b l : Nat} (ha : a ∈ s.v.row q) (hb : b ∈ s.v.row (q + 1))
    (hl : l < s.v.nleads)
    (hg : |(∑ lp ∈ range s.v.nleads, if lp = l then 0 else s.gamma a b l lp).im| > s.cutE) : st.acc.im = true := by
  obtain ⟨S⟩ := genKern_steps hst
  have h1 : S.a1.im = true := by
    refine run_im_set S.r1 ?_
    obtain ⟨_, e⟩ := calls1_inv h S.h1
    rw [e]
    refine List.mem_flatMap.2 ⟨q, List.mem_range.2 (h.row_lt ha), List.mem_flatMap.2 ⟨a, ha, ?_⟩⟩
    simp only [one, List.mem_append]
    refine Or.inl (Or.inl (Or.inr ?_))
    unfold groupE
    refine List.mem_append.2 (Or.inr (List.mem_flatMap.2 ⟨b, hb, List.mem_flatMap.2 ⟨l, List.mem_range.2 hl, ?_⟩⟩))
    simp only [energy1]
    rw [if_pos hg]
    simp
  rw [S.im]
  exact run_im_true S.r2 h1

theorem im_false {s : In} {la : Lab} (h : VOk s.v la) {fct : Nat → Nat → ℝ × ℝ} {off symq : Bool} {st : St}
    (hst : genKern s fct off (fresh s.v symq) = .ok st) (hn : s.nmany = s.v.npauli)
    (hg : ∀ a b l lp, (s.gamma a b l lp).im = 0) : st.acc.im = false := by
  obtain ⟨S⟩ := genKern_steps hst
  obtain ⟨cur, hc⟩ := genCurrent_some (s := s) (LN := ⟨s.v.npauli, fun _ => 0⟩) (φ := ⟨s.v.npauli, fun _ => 0⟩) S.sh rfl
    hn rfl
  obtain ⟨e, Q, heQ⟩ := c61_defined h hst hc hg
  obtain ⟨w, _, rfl⟩ := genCurrent_inv hc
  have := (heQ 0).1
  simp only at this
  by_contra hi
  rw [if_pos (by simpa using hi)] at this
  simp at this

/-- Two spinless levels with energies 1 and 2 and amplitudes `t l n` to two leads of temperature 1. -/
def sysT (v : View) (t : Nat → Nat → ℂ) : Sys where
  v := v
  E b := b
  nmany := 4
  L := ⟨fun l => l, fun _ => 1, fun _ => -60, fun _ => 60, fun l b a =>
    if b = 1 ∧ a = 0 then t l 1 else if b = 2 ∧ a = 0 then t l 0 else if b = 3 ∧ a = 1 then t l 0
    else if b = 3 ∧ a = 2 then -t l 1 else if a = 1 ∧ b = 0 then star (t l 1) else if a = 2 ∧ b = 0 then star (t l 0)
    else if a = 3 ∧ b = 1 then star (t l 0) else if a = 3 ∧ b = 2 then -star (t l 1) else 0, 2, 10000⟩
  tl := t
  nsingle := 2

/-- **C66** fails for the flag: a calculation with complex products of amplitudes, then a change of the states and of
the amplitudes; the flag of the next calculation is set, although all products are real. -/
theorem c66_flag_false : ∃ (lib : Lib) (o : Obj lib) (y : Sys), Hist lib o ∧ o.solve.2 = .ok () ∧
    (o.solve.1.change (.states y)).solve.2 = .ok () ∧ (o.solve.1.change (.states y)).solve.1.im = true ∧
    ∃ st, result lib y (o.solve.1.change (.states y)).solve.1.poles o.symq o.funOff = .ok st ∧ st.acc.im = false := by
  obtain ⟨d, _, hv, hall, hs, hp⟩ := view_all
  let lib := libZ false
  let y1 := sysT (d.view 2) fun l n => if l = 1 ∧ n = 1 then Complex.I else 1
  let y2 := sysT (d.view 2) fun _ _ => 1
  let o : Obj lib := Obj.new lib y1 true true
  have ho : Hist lib o := .new ⟨_, hv⟩ _ _
  have bw : o.sys.bwT = 60 := by
    have : o.sys.minT = 1 := by
      simp [Sys.minT, o, y1, Obj.new, sysT, DM.view, List.range_succ]
    unfold Sys.bwT
    rw [this]
    simp only [o, y1, Obj.new, sysT]
    norm_num
  have need : o.sys.needOzaki := by
    right
    refine ⟨1, Nat.one_lt_two, 1, show 1 < 4 by decide, 0, show 0 < 4 by decide, ?_⟩
    simp [o, y1, Obj.new, sysT]
  have pol : o.setup.poles = some () := by
    unfold Obj.setup
    simp only
    rw [if_pos ⟨need, by rw [bw]; simp [o, Obj.new]⟩]
    rfl
  obtain ⟨fct, hf, _⟩ := Pauli.genFct_ok (v := d.view 2) hv y1.E y1.L
  obtain ⟨st, hst⟩ := genKern_some (s := y1.inp lib (some ())) hv (Or.inl rfl) fct true true (fun _ => hall)
  have res : result lib o.sys o.setup.poles o.symq o.funOff = .ok st := by
    rw [pol]
    unfold result
    show (Pauli.genFct (d.view 2) y1.E y1.L >>= _) = _
    rw [hf]
    exact hst
  have s1 : o.solve.2 = .ok () := (c66_runs ho).2 ⟨Or.inr rfl, _, res⟩
  have key := solve_able ho.inv (Or.inr rfl)
  rw [res] at key
  obtain ⟨_, k2, k3, k4⟩ := key
  have i1 : o.solve.1.im = true := by
    rw [k4, im_true (s := y1.inp lib (some ())) hv hst (q := 0) (a := 0) (b := 1) (l := 0)]
    · simp
    · simp [Sys.inp, y1, sysT, DM.view, View.row, hs]
    · simp [Sys.inp, y1, sysT, DM.view, View.row, hs]
    · exact Nat.zero_lt_two
    · have e1 : (y1.inp lib (some ())).v.nleads = 2 := rfl
      have e2 : (y1.inp lib (some ())).maxT = 1 := by
        simp [In.maxT, Sys.inp, y1, sysT, DM.view, List.range_succ]
      unfold In.cutE
      rw [e1, e2]
      simp [sum_range_succ, In.gamma, Sys.inp, y1, sysT]
      norm_num
  let o2 := o.solve.1.change (.states y2)
  have ho2 : Hist lib o2 := .states (.solve ho) ⟨_, hv⟩
  obtain ⟨f1, f2, f3, f4, _⟩ := solve_fields ho.inv (Or.inr rfl)
  have pol2 : o2.setup.poles = some () := by
    unfold Obj.setup
    simp only
    split
    · rfl
    · exact k3.trans pol
  obtain ⟨fct', hf', _⟩ := Pauli.genFct_ok (v := d.view 2) hv y2.E y2.L
  obtain ⟨st', hst'⟩ := genKern_some (s := y2.inp lib (some ())) hv (Or.inl rfl) fct' true true (fun _ => hall)
  have g1 : o2.symq = true := f4
  have g2 : o2.funOff = true := f2
  have res2 : result lib y2 (some ()) true true = .ok st' := by
    unfold result
    show (Pauli.genFct (d.view 2) y2.E y2.L >>= _) = _
    rw [hf']
    exact hst'
  have res3 : result lib o2.sys o2.setup.poles o2.symq o2.funOff = .ok st' := by
    rw [pol2, g1, g2]
    exact res2
  have s2 : o2.solve.2 = .ok () := (c66_runs ho2).2 ⟨Or.inr f3, st', res3⟩
  have pol3 : o2.solve.1.poles = some () := by
    have key := solve_able ho2.inv (Or.inr f3)
    rw [res3] at key
    exact key.2.2.1.trans pol2
  refine ⟨lib, o, y2, ho, s1, s2, im_kept ho2 i1 rfl s2, st', ?_, ?_⟩
  · show result lib y2 o2.solve.1.poles _ _ = _
    rw [pol3]
    exact res2
  · refine im_false (s := y2.inp lib (some ())) hv hst' hp.symm fun a b l lp => ?_
    simp only [In.gamma, Sys.inp, y2, sysT, Complex.im_sum]
    refine sum_eq_zero fun n _ => ?_
    split_ifs <;> simp

theorem sysT_plain (v : View) (t : ℝ) : (sysT v fun _ _ => (t : ℂ)).Plain := by
  refine ⟨fun _ _ => rfl, fun l a b => ?_⟩
  simp only [sysT]
  split_ifs <;> simp

theorem solve_plain {o : Obj lib} (h : Hist lib o) {la : Lab} (hv : VOk o.sys.v la)
    (hall : o.funOff = true → AllCoherences o.sys.v la) (ha : Able o) (hp : o.sys.Plain) : o.solve.2 = .ok () := by
  obtain ⟨fct, hf, _⟩ := Pauli.genFct_ok hv o.sys.E o.sys.L
  obtain ⟨st, hst⟩ := genKern_some (s := o.sys.inp lib o.setup.poles) hv (Or.inr hp) fct o.funOff o.symq hall
  refine (c66_runs h).2 ⟨ha, st, ?_⟩
  unfold result
  rw [hf]
  exact hst

/-- The hypotheses of `c66_kernel`, `c66_flag_partial`, `c66_new_partial` and `c66_states_false` hold after a calculation
with corrections, a change of the amplitudes and of the option, and a calculation without corrections. -/
example (lib : Lib) : ∃ (o : Obj lib), Hist lib o ∧ o.solve.2 = .ok () ∧ o.sys.Plain ∧ o.changed = false ∧
    o.funOff = false ∧ o.prepared = true ∧ (o.sys.L.Tba 0 1 0) = 2 := by
  obtain ⟨d, _, hv, hall, _, _⟩ := view_all
  let y1 := sysT (d.view 2) fun _ _ => ((1 : ℝ) : ℂ)
  let y2 := sysT (d.view 2) fun _ _ => ((2 : ℝ) : ℂ)
  let o : Obj lib := Obj.new lib y1 true true
  have ho : Hist lib o := .new ⟨_, hv⟩ _ _
  have hs : o.solve.2 = .ok () := solve_plain ho (la := d.labOf) hv (fun _ => hall) (Or.inr rfl) (sysT_plain _ 1)
  obtain ⟨f1, f2, f3, f4, f5⟩ := solve_fields ho.inv (Or.inr rfl)
  let o1 := (o.solve.1.change (.params y2.E y2.nmany y2.L y2.tl y2.nsingle)).change (.option false)
  have ho1 : Hist lib o1 := .option (.params (.solve ho) _ _ _ _ _) _
  obtain ⟨p1, p2⟩ := solve_prepared ho.inv (Or.inr rfl)
  have ev : o1.sys.v = d.view 2 := by
    show o.solve.1.sys.v = _
    rw [f1]
    rfl
  have hpl : o1.sys.Plain := ⟨fun _ _ => rfl, (sysT_plain (d.view 2) 2).2⟩
  have hs1 : o1.solve.2 = .ok () :=
    solve_plain ho1 (la := d.labOf) (by rw [ev]; exact hv) (fun h => absurd h (by simp [o1, Obj.change]))
      (Or.inl ⟨p1, p2⟩) hpl
  refine ⟨o1, ho1, hs1, hpl, p2, rfl, p1, ?_⟩
  simp [o1, Obj.change, y2, sysT]

end RTD

end

end Verif
