import Verif.Model.FuncProp
import Verif.Lemmas.Bits
import Mathlib.Tactic.ByContra

/-!
C102: messages about failed solutions are printed once.
-/

namespace Verif

namespace Funcp

/-- The exception of the solver. -/
def Run.exc : Run → Option String
  | .matrix e => e
  | .free _ e _ => e

/-- `phi0_init` is needed and not given. -/
def Run.lacksInit : Run → Bool
  | .matrix _ => false
  | .free init _ _ => !init

/-- One `solve`, for the two states of the warning. -/
theorem solve_eq (e w : Bool) (r : Run) :
    FP.solve ⟨e, [w]⟩ r = .ok (⟨e || r.exc.isSome, [w || r.lacksInit]⟩,
      (if r.lacksInit && !w then [.warn noInit] else []) ++
        (match r.exc with
        | some t => if e then [] else [.failed t]
        | none => []),
      match r with
      | .matrix x => x.isNone
      | .free _ x ok => x.isNone && ok) := by
  rcases r with x | ⟨i, x, ok⟩
  · cases x <;> cases e <;> cases w <;> rfl
  · cases i <;> cases x <;> cases e <;> cases w <;> cases ok <;> rfl

/-- The state after any number of solves. -/
theorem session_solves (e w : Bool) (rs : List Run) :
    ∃ out, FP.session ⟨e, [w]⟩ (rs.map .solve) =
      .ok (⟨e || rs.any (·.exc.isSome), [w || rs.any Run.lacksInit]⟩, out) := by
  induction rs generalizing e w with
  | nil => exact ⟨[], by simp [FP.session]⟩
  | cons r rs ih =>
    obtain ⟨out, h⟩ := ih (e || r.exc.isSome) (w || r.lacksInit)
    simp only [List.map_cons, FP.session, FP.op]
    rw [solve_eq]
    simp only [py_bind_ok, py_pure]
    rw [h]
    simp only [py_bind_ok, List.any_cons, Bool.or_assoc]
    exact ⟨_, rfl⟩

/-- Any operations keep one entry in `suppress_wrn`. -/
theorem session_any (e w : Bool) (os : List Op) :
    ∃ e' w' out, FP.session ⟨e, [w]⟩ os = .ok (⟨e', [w']⟩, out) := by
  induction os generalizing e w with
  | nil => exact ⟨e, w, [], rfl⟩
  | cons o os ih =>
    cases o with
    | solve r =>
      obtain ⟨e', w', out, h⟩ := ih (e || r.exc.isSome) (w || r.lacksInit)
      simp only [FP.session, FP.op]
      rw [solve_eq]
      simp only [py_bind_ok, py_pure]
      rw [h]
      simp only [py_bind_ok]
      exact ⟨e', w', _, rfl⟩
    | suppress b =>
      obtain ⟨e', w', out, h⟩ := ih b w
      refine ⟨e', w', out, ?_⟩
      simp only [FP.session, FP.op, py_pure, py_bind_ok]
      rw [h]
      simp only [py_bind_ok, List.nil_append]

/-- **C102**, which solve prints what. After the solves `rs`, a further solve `r` prints the warning
about `phi0_init` if and only if it is the first solve that lacks it, and then the message about a
failure if and only if it is the first in which the solver raises an exception. Nothing else is
printed, and printing never raises. -/
theorem c102_solve (rs : List Run) (r : Run) :
    ∃ f out f' msgs ok, FP.init.session (rs.map .solve) = .ok (f, out) ∧
      f.solve r = .ok (f', msgs, ok) ∧
      msgs = (if r.lacksInit = true ∧ ∀ x ∈ rs, x.lacksInit = false then [.warn noInit] else []) ++
        (match r.exc with
        | some t => if ∀ x ∈ rs, x.exc = none then [.failed t] else []
        | none => []) := by
  obtain ⟨out, h⟩ := session_solves false false rs
  refine ⟨_, out, _, _, _, h, solve_eq _ _ r, ?_⟩
  have h1 : (rs.any (·.exc.isSome)) = true ↔ ¬ ∀ x ∈ rs, x.exc = none := by
    simp [List.any_eq_true, Option.isSome_iff_ne_none]
  have h2 : (rs.any Run.lacksInit) = true ↔ ¬ ∀ x ∈ rs, x.lacksInit = false := by
    simp [List.any_eq_true]
  congr 1
  · by_cases hr : r.lacksInit = true
    · by_cases hx : ∀ x ∈ rs, x.lacksInit = false
      · have : (rs.any Run.lacksInit) = false := by
          by_contra hc
          exact h2.1 (by simpa using hc) hx
        have hrhs : (r.lacksInit = true ∧ ∀ x ∈ rs, x.lacksInit = false) := ⟨hr, hx⟩
        simp only [if_pos hrhs, this]
        simp [hr]
      · have hrhs : ¬ (r.lacksInit = true ∧ ∀ x ∈ rs, x.lacksInit = false) := fun hc => hx hc.2
        simp only [if_neg hrhs, h2.2 hx]
        simp
    · have hrhs : ¬ (r.lacksInit = true ∧ ∀ x ∈ rs, x.lacksInit = false) := fun hc => hr hc.1
      simp only [if_neg hrhs]
      simp [hr]
  · cases r.exc with
    | none => rfl
    | some t =>
      simp only [Bool.false_or]
      by_cases hx : ∀ x ∈ rs, x.exc = none
      · rw [if_pos hx, if_neg (fun hc => h1.1 hc hx)]
      · rw [if_neg hx, if_pos (h1.2 hx)]

/-- The texts of the exceptions in the messages about failures. -/
def failures (l : List Msg) : List String :=
  l.filterMap fun
    | .failed t => some t
    | .warn _ => none

/-- The texts of the warnings. -/
def warnings (l : List Msg) : List String :=
  l.filterMap fun
    | .failed _ => none
    | .warn t => some t

theorem session_out (e w : Bool) (rs : List Run) :
    ∃ f out, FP.session ⟨e, [w]⟩ (rs.map .solve) = .ok (f, out) ∧
      failures out = (if e then [] else (rs.filterMap Run.exc).take 1) ∧
      warnings out = if !w && rs.any Run.lacksInit then [noInit] else [] := by
  induction rs generalizing e w with
  | nil => exact ⟨_, [], rfl, by cases e <;> rfl, by cases w <;> rfl⟩
  | cons r rs ih =>
    obtain ⟨f, out, h, h1, h2⟩ := ih (e || r.exc.isSome) (w || r.lacksInit)
    simp only [List.map_cons, FP.session, FP.op]
    rw [solve_eq]
    simp only [py_bind_ok, py_pure]
    rw [h]
    simp only [py_bind_ok]
    refine ⟨_, _, rfl, ?_, ?_⟩
    · unfold failures at h1 ⊢
      rw [List.filterMap_append, h1, List.filterMap_append]
      cases hr : r.exc <;> cases e <;> cases hl : r.lacksInit <;> cases w <;> simp [hr]
    · unfold warnings at h2 ⊢
      rw [List.filterMap_append, h2, List.filterMap_append]
      cases hr : r.exc <;> cases e <;> cases hl : r.lacksInit <;> cases w <;> simp [hl]

/-- **C102**, everything that is printed by the solves `rs`: one message about a failure, with the
text of the first exception, if any solver raises, and one warning if any solve lacks
`phi0_init`. -/
theorem c102_session (rs : List Run) :
    ∃ f out, FP.init.session (rs.map .solve) = .ok (f, out) ∧
      failures out = (rs.filterMap Run.exc).take 1 ∧
      warnings out = if ∃ r ∈ rs, r.lacksInit = true then [noInit] else [] := by
  obtain ⟨f, out, h, h1, h2⟩ := session_out false false rs
  refine ⟨f, out, h, h1, ?_⟩
  rw [h2]
  simp only [Bool.not_false, Bool.true_and, List.any_eq_true]

/-- **C102**, `suppress_err`. Whatever happened before, after `suppress_err = b` and the solves
`rs` a solve in which the solver raises prints the message if and only if `b` is false and no
solver has raised since. -/
theorem c102_suppress (os : List Op) (b : Bool) (rs : List Run) (r : Run) (t : String)
    (hr : r.exc = some t) :
    ∃ f out f' msgs ok, FP.init.session (os ++ .suppress b :: rs.map .solve) = .ok (f, out) ∧
      f.solve r = .ok (f', msgs, ok) ∧
      (Msg.failed t ∈ msgs ↔ b = false ∧ ∀ x ∈ rs, x.exc = none) ∧ ok = false := by
  have app : ∀ (os os' : List Op) (f f1 f2 : FP) (o1 o2 : List Msg),
      f.session os = .ok (f1, o1) → f1.session os' = .ok (f2, o2) →
      f.session (os ++ os') = .ok (f2, o1 ++ o2) := by
    intro os
    induction os with
    | nil =>
      intro os' f f1 f2 o1 o2 h1 h2
      simp only [FP.session, py_pure, Except.ok.injEq, Prod.mk.injEq] at h1
      obtain ⟨rfl, rfl⟩ := h1
      exact h2
    | cons o os ih =>
      intro os' f f1 f2 o1 o2 h1 h2
      simp only [FP.session] at h1
      simp only [List.cons_append, FP.session]
      cases hp : f.op o with
      | error e => rw [hp] at h1; exact absurd (show (Except.error e : Py (FP × List Msg)) = _ from h1) (by simp)
      | ok p =>
        rw [hp] at h1
        simp only [py_bind_ok] at h1 ⊢
        cases hq : p.1.session os with
        | error e => rw [hq] at h1; exact absurd (show (Except.error e : Py (FP × List Msg)) = _ from h1) (by simp)
        | ok q =>
          rw [hq] at h1
          simp only [py_bind_ok, py_pure, Except.ok.injEq, Prod.mk.injEq] at h1
          obtain ⟨rfl, rfl⟩ := h1
          rw [ih os' p.1 q.1 f2 q.2 o2 hq h2]
          simp only [py_bind_ok, py_pure, List.append_assoc]
  obtain ⟨e', w', o1, h1⟩ := session_any false false os
  obtain ⟨o2, h2⟩ := session_solves b w' rs
  have h3 : FP.session ⟨e', [w']⟩ (.suppress b :: rs.map .solve) =
      .ok (⟨b || rs.any (·.exc.isSome), [w' || rs.any Run.lacksInit]⟩, [] ++ o2) := by
    simp only [FP.session, FP.op, py_pure, py_bind_ok]
    rw [h2]
    simp only [py_bind_ok]
  refine ⟨_, _, _, _, _, app _ _ _ _ _ _ _ h1 h3, solve_eq _ _ r, ?_, ?_⟩
  · have hx : (rs.any (·.exc.isSome)) = false ↔ ∀ x ∈ rs, x.exc = none := by
      simp [List.any_eq_false]
    rw [hr, ← hx]
    cases b <;> cases rs.any (·.exc.isSome) <;> simp <;> split <;> simp
  · rcases r with x | ⟨i, x, ok⟩ <;> simp only [Run.exc] at hr <;> subst hr <;> rfl

/-- **C102**: in matrix mode the first solve with `success=False` is announced, with the text of
the exception. Missing: matrix-free mode, see `c102_silent_false`. -/
theorem c102_announced_partial (f : FP) (hf : f.err = false) (exc : Option String) {f' : FP}
    {msgs : List Msg} (h : f.solve (.matrix exc) = .ok (f', msgs, false)) :
    ∃ t, exc = some t ∧ msgs = [.failed t] := by
  cases exc with
  | none => simp [FP.solve, FP.attempt, py_pure] at h
  | some t =>
    simp [FP.solve, FP.attempt, FP.printError, hf, py_pure] at h
    exact ⟨t, rfl, h.2.symm⟩

/-- **C102** is false in matrix-free mode: if the root finder gives up without raising, the first
failed solve prints nothing although `success` is `False`. -/
theorem c102_silent_false : ∃ f', FP.init.solve (.free true none false) = .ok (f', [], false) :=
  ⟨_, rfl⟩

/-- `c102_suppress` and `c102_solve` apply to a session with a failure in each mode, and
`c102_announced_partial` to a fresh object. -/
example : FP.init.session [.solve (.matrix (some "Singular matrix")), .solve (.free false none true),
      .solve (.free false (some "nan") true), .suppress false, .solve (.matrix (some "again"))] =
    .ok (⟨true, [true]⟩, [.failed "Singular matrix", .warn noInit, .failed "again"]) ∧
    (Run.matrix (some "again")).exc = some "again" ∧ FP.init.err = false ∧
    ∃ f', FP.init.solve (.matrix (some "x")) = .ok (f', [.failed "x"], false) :=
  ⟨rfl, rfl, rfl, _, rfl⟩

end Funcp

end Verif
