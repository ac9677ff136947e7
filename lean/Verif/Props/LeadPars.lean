import Mathlib.Data.Real.Basic
import Mathlib.Tactic.Linarith
import Verif.Model.LeadPars
import Verif.Lemmas.Py
import Verif.Props.SystemSsq

/-! C80: the stored parameters of the leads and the baths are the ones asked for. -/

namespace Verif
open Verif.Spec

noncomputable section

/-! ### What is asked for -/

/-- The value a dictionary gives to the entry `l` of `npar` entries; negative keys count from the end and later
keys override earlier ones. -/
def dictGives {β : Type} (npar : Nat) (d : Dict Int β) (l : Nat) : Option β :=
  d.foldl (fun acc e => if (l : Int) = e.1 ∨ (l : Int) = e.1 + npar then some e.2 else acc) none

/-- The value an argument gives to lead `l`. Arguments that are none of the accepted types stand for zero. -/
def LstArg.gives (npar : Nat) : LstArg → Nat → Option ℝ
  | .dict d, l => dictGives npar d l
  | .list xs, l => xs[l]?
  | .num x, _ => some x
  | .other, _ => some 0

/-- The band edges an argument gives to lead `l`; a single number stands for a symmetric band. Arguments that are none
of the accepted types are ignored. -/
def DlstArg.gives (npar : Nat) : DlstArg → Nat → Option (ℝ × ℝ)
  | .dict d, l => (dictGives npar d l).map DVal.ends
  | .nums xs, l => xs[l]?.map fun x => (-x, x)
  | .pairs xs, l => xs[l]?
  | .num x, _ => some (-x, x)
  | .other, _ => none

def LstArg.Fits (npar : Nat) : LstArg → Prop
  | .dict d => ∀ e ∈ d, -(npar : Int) ≤ e.1 ∧ e.1 < npar
  | .list xs => xs.length = npar
  | _ => True

def DlstArg.Fits (npar : Nat) : DlstArg → Prop
  | .dict d => ∀ e ∈ d, -(npar : Int) ≤ e.1 ∧ e.1 < npar
  | .nums xs => xs ≠ [] ∧ xs.length = npar
  | .pairs xs => xs ≠ [] ∧ xs.length = npar
  | _ => True

/-- The parameters of the leads `0, ..., npar-1`. -/
structure ParVals where
  mu : Nat → ℝ
  T : Nat → ℝ
  D : Nat → ℝ × ℝ

/-- A call of `add` or `change`. -/
inductive ParOp where
  | add (mu T : Option LstArg) (D : Option DlstArg)
  | change (mu T : Option LstArg) (D : Option DlstArg)

def ParOp.Fits (npar : Nat) : ParOp → Prop
  | .add m t d => (∀ x ∈ m, x.Fits npar) ∧ (∀ x ∈ t, x.Fits npar) ∧ ∀ x ∈ d, x.Fits npar
  | .change m t d => (∀ x ∈ m, x.Fits npar) ∧ (∀ x ∈ t, x.Fits npar) ∧ ∀ x ∈ d, x.Fits npar

/-- What a call of `add` or `change` asks for. -/
def ParOp.asks (npar : Nat) (v : ParVals) : ParOp → ParVals
  | .add m t d =>
    { mu := fun l => v.mu l + (m.bind fun x => x.gives npar l).getD 0
      T := fun l => v.T l + (t.bind fun x => x.gives npar l).getD 0
      D := fun l => v.D l + (d.bind fun x => x.gives npar l).getD 0 }
  | .change m t d =>
    { mu := fun l => (m.bind fun x => x.gives npar l).getD (v.mu l)
      T := fun l => (t.bind fun x => x.gives npar l).getD (v.T l)
      D := fun l => (d.bind fun x => x.gives npar l).getD (v.D l) }

def ParOp.run (p : LeadPars) : ParOp → Py LeadPars
  | .add m t d => p.add m t d
  | .change m t d => p.change m t d

/-- The array of the values `f 0, ..., f (npar-1)`, twice with the symmetry 'spin'. -/
def IsArr {α : Type} (sym : Bool) (npar : Nat) (f : Nat → α) (a : List α) : Prop :=
  a.length = (if sym then 2 * npar else npar) ∧
    ∀ l < npar, a[l]? = some (f l) ∧ (sym = true → a[npar + l]? = some (f l))

/-- The stored parameters are `v`. -/
structure Stores (p : LeadPars) (v : ParVals) : Prop where
  mu : IsArr p.sym p.npar v.mu p.mulst
  T : IsArr p.sym p.npar v.T p.tlst
  D : IsArr p.sym p.npar v.D p.dlst

/-! ### Lemmas -/

def tab {α : Type} (n : Nat) (f : Nat → α) : List α := (List.range n).map f

theorem tab_length {α : Type} (n : Nat) (f : Nat → α) : (tab n f).length = n := by simp [tab]

theorem tab_get {α : Type} {n l : Nat} (f : Nat → α) (h : l < n) : (tab n f)[l]? = some (f l) := by
  simp [tab, h]

theorem tab_congr {α : Type} {n : Nat} {f g : Nat → α} (h : ∀ l < n, f l = g l) : tab n f = tab n g :=
  List.map_congr_left fun l hl => h l (List.mem_range.1 hl)

theorem eq_tab {α : Type} {a : List α} {n : Nat} {f : Nat → α} (h : a.length = n) (hf : ∀ l < n, a[l]? = some (f l)) :
    a = tab n f := by
  refine List.ext_getElem? fun l => ?_
  by_cases hl : l < n
  · rw [hf l hl, tab_get f hl]
  · rw [List.getElem?_eq_none (by omega), List.getElem?_eq_none (by rw [tab_length]; omega)]

theorem isArr_iff {α : Type} {sym : Bool} {n : Nat} {f : Nat → α} {a : List α} :
    IsArr sym n f a ↔ a = spinTwice sym (tab n f) := by
  cases sym with
  | false =>
    simp only [IsArr, spinTwice, Bool.false_eq_true, if_false, false_imp_iff, and_true]
    exact ⟨fun h => eq_tab h.1 h.2, fun h => by subst h; exact ⟨tab_length n f, fun l hl => tab_get f hl⟩⟩
  | true =>
    simp only [IsArr, spinTwice, if_true, true_imp_iff]
    constructor
    · rintro ⟨h1, h2⟩
      refine List.ext_getElem? fun l => ?_
      rcases Nat.lt_or_ge l n with hl | hl
      · rw [(h2 l hl).1, List.getElem?_append_left (by rw [tab_length]; exact hl), tab_get f hl]
      · rw [List.getElem?_append_right (by rw [tab_length]; exact hl), tab_length]
        rcases Nat.lt_or_ge (l - n) n with hl' | hl'
        · rw [tab_get f hl', ← (h2 (l - n) hl').2]
          congr 1
          omega
        · rw [List.getElem?_eq_none (by omega), List.getElem?_eq_none (by rw [tab_length]; omega)]
    · rintro rfl
      refine ⟨by simp [tab_length]; omega, fun l hl => ⟨?_, ?_⟩⟩
      · rw [List.getElem?_append_left (by rw [tab_length]; exact hl), tab_get f hl]
      · rw [List.getElem?_append_right (by rw [tab_length]; omega), tab_length, Nat.add_sub_cancel_left, tab_get f hl]

theorem replicate_tab {α : Type} (n : Nat) (x : α) : List.replicate n x = tab n fun _ => x := by
  simp [tab]

theorem pySet_tab {α : Type} {n : Nat} (f : Nat → α) {i : Int} (x : α) (h : -(n : Int) ≤ i ∧ i < n) :
    pySet (tab n f) i x = .ok (tab n fun l => if (l : Int) = i ∨ (l : Int) = i + n then x else f l) := by
  have key : ∀ k : Nat, k < n → ((k : Int) = i ∨ (k : Int) = i + n) →
      (tab n f).set k x = tab n fun l => if (l : Int) = i ∨ (l : Int) = i + n then x else f l := by
    intro k hk hki
    refine eq_tab (by rw [List.length_set, tab_length]) fun l hl => ?_
    rw [List.getElem?_set, tab_length]
    by_cases e : k = l
    · subst e
      rw [if_pos rfl, if_pos hk, if_pos hki]
    · rw [if_neg e, tab_get f hl, if_neg]
      omega
  unfold pySet pyIdx
  rw [tab_length]
  by_cases h0 : 0 ≤ i
  · rw [if_pos h0, if_pos h.2]
    exact congrArg _ (key i.toNat (by omega) (by omega))
  · rw [if_neg h0, if_pos (by omega)]
    exact congrArg _ (key (i + n).toNat (by omega) (by omega))

theorem npStore_tab {α β : Type} {n : Nat} (f : β → α) {d : Dict Int β} (hd : ∀ e ∈ d, -(n : Int) ≤ e.1 ∧ e.1 < n)
    (g : Nat → α) : npStore f (tab n g) d = .ok (tab n fun l => ((dictGives n d l).map f).getD (g l)) := by
  unfold npStore dictGives
  suffices H : ∀ acc : Nat → Option β, d.foldlM (fun a e => pySet a e.1 (f e.2)) (tab n fun l => ((acc l).map f).getD (g l))
      = .ok (tab n fun l => ((d.foldl (fun acc e => if (l : Int) = e.1 ∨ (l : Int) = e.1 + n then some e.2 else acc)
        (acc l)).map f).getD (g l)) from H fun _ => none
  induction d with
  | nil => intro acc; rfl
  | cons e d ih =>
    intro acc
    rw [List.foldlM_cons, pySet_tab _ _ (hd e (by simp)), py_bind_ok]
    have : (tab n fun l => if (l : Int) = e.1 ∨ (l : Int) = e.1 + n then f e.2 else ((acc l).map f).getD (g l))
        = tab n fun l => (((if (l : Int) = e.1 ∨ (l : Int) = e.1 + n then some e.2 else acc l)).map f).getD (g l) :=
      tab_congr fun l _ => by split_ifs <;> rfl
    rw [this, ih (fun e he => hd e (by simp [he]))]
    rfl

theorem startArray_none {α : Type} (z : α) (n : Nat) : startArray z n none = tab n fun _ => z := replicate_tab n z

theorem startArray_some {α : Type} (z : α) (sym : Bool) (n : Nat) (f : Nat → α) :
    startArray z n (some (spinTwice sym (tab n f))) = tab n f := by
  cases sym <;> simp [startArray, spinTwice, tab]

theorem npAssign_eq {α : Type} {n : Nat} {b : List α} (h : b.length = n) : npAssign n b = .ok b := if_pos h

theorem twice_length {α β : Type} (sym : Bool) {n : Nat} (f : Nat → α) (g : Nat → β) :
    (spinTwice sym (tab n f)).length = (spinTwice sym (tab n g)).length := by
  cases sym <;> simp [spinTwice, tab]

theorem npAdd_twice {α : Type} [Add α] (sym : Bool) {n : Nat} (f g : Nat → α) :
    npAdd (spinTwice sym (tab n f)) (spinTwice sym (tab n g)) = .ok (spinTwice sym (tab n fun l => f l + g l)) := by
  unfold npAdd
  rw [npAssign_eq (twice_length sym g f), py_bind_ok]
  refine congrArg Except.ok ?_
  have : List.zipWith (· + ·) (tab n f) (tab n g) = tab n fun l => f l + g l := by
    unfold tab
    rw [List.zipWith_map, List.zipWith_self]
  cases sym with
  | false => exact this
  | true =>
    simp only [spinTwice, if_true]
    rw [List.zipWith_append (by rw [tab_length, tab_length]), this]

theorem makeArray_ok (sym : Bool) {n : Nat} {old : Option (List ℝ)} {g : Nat → ℝ} (hs : startArray 0 n old = tab n g)
    {x : LstArg} (hx : x.Fits n) :
    makeArray sym n old x = .ok (spinTwice sym (tab n fun l => (x.gives n l).getD (g l))) := by
  cases x with
  | dict d =>
    simp only [makeArray, hs, npStore_tab id hx g, py_bind_ok, LstArg.gives, Option.map_id, id]
    rfl
  | list xs =>
    refine congrArg (fun a => Except.ok (spinTwice sym a)) (eq_tab hx fun l hl => ?_)
    simp only [LstArg.gives]
    rw [List.getElem?_eq_getElem (by rw [hx]; exact hl)]
    rfl
  | num x => exact congrArg (fun a => Except.ok (spinTwice sym a)) (replicate_tab n x)
  | other => exact congrArg (fun a => Except.ok (spinTwice sym a)) (replicate_tab n 0)

theorem makeArrayDlst_ok (sym : Bool) {n : Nat} {old : Option (List (ℝ × ℝ))} {g : Nat → ℝ × ℝ}
    (hs : startArray (0, 0) n old = tab n g) {x : DlstArg} (hx : x.Fits n) :
    makeArrayDlst sym n old x = .ok (spinTwice sym (tab n fun l => (x.gives n l).getD (g l))) := by
  unfold makeArrayDlst
  simp only [hs, tab_length]
  cases x with
  | dict d =>
    simp only [npStore_tab DVal.ends hx g, py_bind_ok, DlstArg.gives]
    rfl
  | nums xs =>
    obtain ⟨h1, h2⟩ := hx
    simp only [if_neg h1]
    rw [npAssign_eq (by rw [List.length_map, h2]), py_bind_ok]
    refine congrArg (fun a => Except.ok (spinTwice sym a)) (eq_tab (by rw [List.length_map, h2]) fun l hl => ?_)
    simp only [DlstArg.gives]
    rw [List.getElem?_map, List.getElem?_eq_getElem (by rw [h2]; exact hl)]
    rfl
  | pairs xs =>
    obtain ⟨h1, h2⟩ := hx
    simp only [if_neg h1]
    refine congrArg (fun a => Except.ok (spinTwice sym a)) (eq_tab h2 fun l hl => ?_)
    simp only [DlstArg.gives]
    rw [List.getElem?_eq_getElem (by rw [h2]; exact hl)]
    rfl
  | num x =>
    simp only
    rw [npAssign_eq (by simp), py_bind_ok, replicate_tab]
    rfl
  | other => rfl

theorem ifGiven_ok {α β : Type} {x : Option α} {y : β} {f : α → Py β} {g : Option α → β} (h0 : g none = y)
    (h1 : ∀ a ∈ x, f a = .ok (g (some a))) : ifGiven x y f = .ok (g x) := by
  cases x with
  | none => exact congrArg Except.ok h0.symm
  | some a => exact h1 a rfl

/-! ### The property -/

/-- **C80**, construction: the stored parameters are the ones given, zero where nothing is given, and equal for both
spins with `symmetry='spin'`. -/
theorem c80_init (sym : Bool) (nleads : Nat) {m t : LstArg} {d : DlstArg}
    (hm : m.Fits (if sym then nleads / 2 else nleads)) (ht : t.Fits (if sym then nleads / 2 else nleads))
    (hd : d.Fits (if sym then nleads / 2 else nleads)) :
    ∃ p, LeadPars.init sym nleads m t d = .ok p ∧ p.sym = sym ∧ p.npar = (if sym then nleads / 2 else nleads) ∧
      Stores p ⟨fun l => (m.gives p.npar l).getD 0, fun l => (t.gives p.npar l).getD 0,
        fun l => (d.gives p.npar l).getD 0⟩ := by
  generalize hn : (if sym then nleads / 2 else nleads) = n at *
  refine ⟨⟨sym, n, spinTwice sym (tab n fun l => (m.gives n l).getD 0), spinTwice sym (tab n fun l => (t.gives n l).getD 0),
    spinTwice sym (tab n fun l => (d.gives n l).getD 0)⟩, ?_, rfl, rfl, isArr_iff.2 rfl, isArr_iff.2 rfl, isArr_iff.2 rfl⟩
  unfold LeadPars.init
  simp only [hn, makeArray_ok sym (startArray_none 0 n) hm, makeArray_ok sym (startArray_none 0 n) ht,
    makeArrayDlst_ok sym (startArray_none (0, 0) n) hd, py_bind_ok]
  rfl

/-- **C80**, one call of `add` or `change`. -/
theorem c80_step {p : LeadPars} {v : ParVals} (h : Stores p v) {o : ParOp} (ho : o.Fits p.npar) :
    ∃ p', o.run p = .ok p' ∧ p'.sym = p.sym ∧ p'.npar = p.npar ∧ Stores p' (o.asks p.npar v) := by
  obtain ⟨sym, n, ml, tl, dl⟩ := p
  obtain ⟨h1, h2, h3⟩ := h
  simp only at h1 h2 h3 ho
  rw [isArr_iff] at h1 h2 h3
  subst h1 h2 h3
  cases o with
  | add m t d =>
    obtain ⟨hm, ht, hd⟩ := ho
    have key : ∀ (x : Option LstArg) (f : Nat → ℝ), (∀ a ∈ x, a.Fits n) →
        (ifGiven x (spinTwice sym (tab n f)) fun x => do npAdd (spinTwice sym (tab n f)) (← makeArray sym n none x))
          = .ok (spinTwice sym (tab n fun l => f l + (x.bind fun x => x.gives n l).getD 0)) := by
      intro x f hx
      refine ifGiven_ok (g := fun x : Option LstArg =>
        spinTwice sym (tab n fun l => f l + (x.bind fun x => x.gives n l).getD 0)) (by simp) fun a ha => ?_
      rw [makeArray_ok sym (startArray_none 0 n) (hx a ha), py_bind_ok, npAdd_twice]
      rfl
    have key' : (ifGiven d (spinTwice sym (tab n v.D)) fun x => do
        npAdd (spinTwice sym (tab n v.D)) (← makeArrayDlst sym n none x))
          = .ok (spinTwice sym (tab n fun l => v.D l + (d.bind fun x => x.gives n l).getD 0)) := by
      refine ifGiven_ok (g := fun x : Option DlstArg =>
        spinTwice sym (tab n fun l => v.D l + (x.bind fun x => x.gives n l).getD 0)) (by simp) fun a ha => ?_
      rw [makeArrayDlst_ok sym (startArray_none (0, 0) n) (hd a ha), py_bind_ok, npAdd_twice]
      rfl
    let w := (ParOp.add m t d).asks n v
    refine ⟨⟨sym, n, spinTwice sym (tab n w.mu), spinTwice sym (tab n w.T), spinTwice sym (tab n w.D)⟩, ?_, rfl, rfl,
      isArr_iff.2 rfl, isArr_iff.2 rfl, isArr_iff.2 rfl⟩
    unfold ParOp.run LeadPars.add
    simp only
    rw [key m v.mu hm, py_bind_ok, key t v.T ht, py_bind_ok, key', py_bind_ok]
    rfl
  | change m t d =>
    obtain ⟨hm, ht, hd⟩ := ho
    have key : ∀ (x : Option LstArg) (f : Nat → ℝ), (∀ a ∈ x, a.Fits n) →
        (ifGiven x (spinTwice sym (tab n f)) fun x => do
          npAssign (spinTwice sym (tab n f)).length (← makeArray sym n (some (spinTwice sym (tab n f))) x))
          = .ok (spinTwice sym (tab n fun l => (x.bind fun x => x.gives n l).getD (f l))) := by
      intro x f hx
      refine ifGiven_ok (g := fun x : Option LstArg =>
        spinTwice sym (tab n fun l => (x.bind fun x => x.gives n l).getD (f l))) (by simp) fun a ha => ?_
      rw [makeArray_ok sym (startArray_some 0 sym n f) (hx a ha), py_bind_ok, npAssign_eq (twice_length _ _ _)]
      rfl
    have key' : (ifGiven d (spinTwice sym (tab n v.D)) fun x => do
        npAssign (spinTwice sym (tab n v.D)).length (← makeArrayDlst sym n (some (spinTwice sym (tab n v.D))) x))
          = .ok (spinTwice sym (tab n fun l => (d.bind fun x => x.gives n l).getD (v.D l))) := by
      refine ifGiven_ok (g := fun x : Option DlstArg =>
        spinTwice sym (tab n fun l => (x.bind fun x => x.gives n l).getD (v.D l))) (by simp) fun a ha => ?_
      rw [makeArrayDlst_ok sym (startArray_some (0, 0) sym n v.D) (hd a ha), py_bind_ok,
        npAssign_eq (twice_length _ _ _)]
      rfl
    let w := (ParOp.change m t d).asks n v
    refine ⟨⟨sym, n, spinTwice sym (tab n w.mu), spinTwice sym (tab n w.T), spinTwice sym (tab n w.D)⟩, ?_, rfl, rfl,
      isArr_iff.2 rfl, isArr_iff.2 rfl, isArr_iff.2 rfl⟩
    unfold ParOp.run LeadPars.change
    simp only
    rw [key m v.mu hm, py_bind_ok, key t v.T ht, py_bind_ok, key', py_bind_ok]
    rfl

/-- **C80**: after any calls of `add` and `change` the stored parameters are the ones asked for. -/
theorem c80_history (sym : Bool) (nleads : Nat) {m t : LstArg} {d : DlstArg} {n : Nat}
    (hn : n = if sym then nleads / 2 else nleads) (hm : m.Fits n) (ht : t.Fits n) (hd : d.Fits n)
    (ops : List ParOp) (ho : ∀ o ∈ ops, o.Fits n) :
    ∃ p0 p, LeadPars.init sym nleads m t d = .ok p0 ∧ ops.foldlM ParOp.run p0 = .ok p ∧ p.sym = sym ∧ p.npar = n ∧
      Stores p (ops.foldl (ParOp.asks n) ⟨fun l => (m.gives n l).getD 0, fun l => (t.gives n l).getD 0,
        fun l => (d.gives n l).getD 0⟩) := by
  rw [hn] at hm ht hd
  obtain ⟨p0, h1, h2, h3, h4⟩ := c80_init sym nleads hm ht hd
  rw [← hn] at h3
  rw [h3] at h4
  refine ⟨p0, ?_⟩
  suffices H : ∀ (v : ParVals) (q : LeadPars), q.sym = sym → q.npar = n → Stores q v →
      ∃ p, ops.foldlM ParOp.run q = .ok p ∧ p.sym = sym ∧ p.npar = n ∧ Stores p (ops.foldl (ParOp.asks n) v) by
    obtain ⟨p, g1, g2⟩ := H _ p0 h2 h3 h4
    exact ⟨p, h1, g1, g2⟩
  clear h1 h4
  induction ops with
  | nil => intro v q e1 e2 e3; exact ⟨q, rfl, e1, e2, e3⟩
  | cons o ops ih =>
    intro v q e1 e2 e3
    obtain ⟨q', g1, g2, g3, g4⟩ := c80_step e3 (by rw [e2]; exact ho o (by simp))
    rw [List.foldlM_cons, g1, py_bind_ok]
    rw [e2] at g4
    exact ih (fun o h => ho o (by simp [h])) _ q' (by rw [g2, e1]) (by rw [g3, e2]) g4

/-- The parameters the approaches read. (Reading an entry that does not exist raises; here it gives zero.) -/
def LeadPars.leads (p : LeadPars) (Tba : Nat → Nat → Nat → ℂ) (itype limit : Int) : Leads :=
  ⟨fun l => p.mulst.getD l 0, fun l => p.tlst.getD l 0, fun l => (p.dlst.getD l (0, 0)).1,
    fun l => (p.dlst.getD l (0, 0)).2, Tba, itype, limit⟩

/-- **C80**, `symmetry='spin'`: after any calls of `add` and `change` the leads `i` and `k + i` have equal
parameters, as C79 assumes. -/
theorem c80_spin {nleads k : Nat} (hk : k = nleads / 2) {m t : LstArg} {d : DlstArg} (hm : m.Fits k) (ht : t.Fits k)
    (hd : d.Fits k) (ops : List ParOp) (ho : ∀ o ∈ ops, o.Fits k) :
    ∃ p0 p, LeadPars.init true nleads m t d = .ok p0 ∧ ops.foldlM ParOp.run p0 = .ok p ∧
      ∀ Tba itype limit, SameLeads (p.leads Tba itype limit) k := by
  obtain ⟨p0, p, h1, h2, h3, h4, h5⟩ := c80_history true nleads hk hm ht hd ops ho
  refine ⟨p0, p, h1, h2, fun Tba itype limit i hi => ?_⟩
  obtain ⟨⟨_, a⟩, ⟨_, b⟩, ⟨_, c⟩⟩ := h5
  rw [h3, h4] at a b c
  simp only [LeadPars.leads, List.getD_eq_getElem?_getD, (a i hi).1, (a i hi).2 rfl, (b i hi).1, (b i hi).2 rfl,
    (c i hi).1, (c i hi).2 rfl, and_self]

/-- With `symmetry='spin'` a list with the values of all leads is accepted; then the two spins differ. -/
theorem c80_spin_false : ∃ p, LeadPars.init true 2 (.list [1, -1]) (.num 1) (.num 10) = .ok p ∧
    ∀ Tba itype limit, ¬ SameLeads (p.leads Tba itype limit) 1 := by
  refine ⟨_, rfl, fun Tba itype limit h => ?_⟩
  have := (h 0 (by omega)).1
  simp [LeadPars.leads, spinTwice] at this
  norm_num at this

/-- With `symmetry='spin'` and one orbital of each spin coupled to two leads; the second lead is shifted. -/
example : ∃ p0 p, LeadPars.init true 4 (.dict [(0, 1), (-1, -1)]) (.num 1) (.dict [(0, .pair (-5) 6), (1, .num 10)]) = .ok p0 ∧
    [ParOp.add (some (.list [0, 2])) none none, .change none (some (.dict [(1, 3)])) (some (.num 7))].foldlM ParOp.run p0
      = .ok p ∧ p.mulst = [1, 1, 1, 1] ∧ p.tlst = [1, 3, 1, 3] ∧ p.dlst = [(-7, 7), (-7, 7), (-7, 7), (-7, 7)] := by
  obtain ⟨p0, p, h1, h2, h3, h4, h5⟩ := c80_history true 4 (m := .dict [(0, 1), (-1, -1)]) (t := .num 1)
    (d := .dict [(0, .pair (-5) 6), (1, .num 10)]) (n := 2) rfl (by intro e he; simp at he; rcases he with rfl | rfl <;> simp)
    trivial (by intro e he; simp at he; rcases he with rfl | rfl <;> simp)
    [ParOp.add (some (.list [0, 2])) none none, .change none (some (.dict [(1, 3)])) (some (.num 7))]
    (by intro o ho; simp at ho; rcases ho with rfl | rfl <;> simp [ParOp.Fits, LstArg.Fits, DlstArg.Fits])
  obtain ⟨e1, e2, e3⟩ := h5
  rw [isArr_iff, h3, h4] at e1 e2 e3
  refine ⟨p0, p, h1, h2, ?_, ?_, ?_⟩
  · rw [e1]
    norm_num [spinTwice, tab, List.range_succ, ParOp.asks, LstArg.gives, dictGives]
  · rw [e2]
    norm_num [spinTwice, tab, List.range_succ, ParOp.asks, LstArg.gives, dictGives]
  · rw [e3]
    norm_num [spinTwice, tab, List.range_succ, ParOp.asks, DlstArg.gives, dictGives]

/-! ### Phonon baths -/

/-- A call of `add` or `change` of `PhononBaths`. -/
inductive BathOp where
  | add (T : Option LstArg) (D : Option DlstArg)
  | change (T : Option LstArg) (D : Option DlstArg)

def BathOp.run (p : BathPars) : BathOp → Py BathPars
  | .add t d => p.add t d
  | .change t d => p.change t d

/-- The same call for a system of leads. -/
def BathOp.lead : BathOp → ParOp
  | .add t d => .add none t d
  | .change t d => .change none t d

theorem bath_step {n : Nat} {p : BathPars} {q q' : LeadPars} (hp : p.nbaths = n) (hq : q.npar = n) (hs : q.sym = false)
    (ht : p.tlst = q.tlst) (hd : p.dlst = q.dlst) (o : BathOp) (h : o.lead.run q = .ok q') :
    o.run p = .ok ⟨n, q'.tlst, q'.dlst⟩ := by
  obtain ⟨n', t, d⟩ := p
  obtain ⟨s, n'', m, t', d'⟩ := q
  simp only at hp hq hs ht hd
  subst hp hq hs ht hd
  cases o with
  | add x y =>
    simp only [BathOp.lead, ParOp.run, LeadPars.add, ifGiven, py_pure, py_bind_ok] at h
    obtain ⟨a, h1, h⟩ := bind_iff.1 h
    obtain ⟨b, h2, h⟩ := bind_iff.1 h
    cases h
    simp only [BathOp.run, BathPars.add, ifGiven, py_pure]
    rw [h1, py_bind_ok, h2]
    rfl
  | change x y =>
    simp only [BathOp.lead, ParOp.run, LeadPars.change, ifGiven, py_pure, py_bind_ok] at h
    obtain ⟨a, h1, h⟩ := bind_iff.1 h
    obtain ⟨b, h2, h⟩ := bind_iff.1 h
    cases h
    simp only [BathOp.run, BathPars.change, ifGiven, py_pure]
    rw [h1, py_bind_ok, h2]
    rfl

/-- **C80** for the baths: after any calls of `add` and `change` the stored temperatures and cutoffs are the ones asked
for; the symmetry of the dot does not matter. -/
theorem c80_baths (nbaths : Nat) {t : LstArg} {d : DlstArg} (ht : t.Fits nbaths) (hd : d.Fits nbaths)
    (ops : List BathOp) (ho : ∀ o ∈ ops, o.lead.Fits nbaths) :
    ∃ p0 p v, BathPars.init nbaths t d = .ok p0 ∧ ops.foldlM BathOp.run p0 = .ok p ∧ p.nbaths = nbaths ∧
      v = (ops.map BathOp.lead).foldl (ParOp.asks nbaths) ⟨fun _ => 0, fun l => (t.gives nbaths l).getD 0,
        fun l => (d.gives nbaths l).getD 0⟩ ∧
      IsArr false nbaths v.T p.tlst ∧ IsArr false nbaths v.D p.dlst := by
  obtain ⟨q0, q, h1, h2, h3, h4, h5⟩ := c80_history false nbaths (m := .other) (t := t) (d := d) (n := nbaths) rfl trivial ht hd
    (ops.map BathOp.lead) (by intro o h; obtain ⟨o', h', rfl⟩ := List.mem_map.1 h; exact ho o' h')
  have g0 : BathPars.init nbaths t d = .ok ⟨nbaths, q0.tlst, q0.dlst⟩ ∧ q0.npar = nbaths ∧ q0.sym = false := by
    unfold LeadPars.init at h1
    simp only [Bool.false_eq_true, if_false] at h1
    obtain ⟨a, h1', h1⟩ := bind_iff.1 h1
    obtain ⟨b, h2', h1⟩ := bind_iff.1 h1
    obtain ⟨c, h3', h1⟩ := bind_iff.1 h1
    cases h1
    unfold BathPars.init
    rw [h2', py_bind_ok, h3']
    exact ⟨rfl, rfl, rfl⟩
  have g : ops.foldlM BathOp.run ⟨nbaths, q0.tlst, q0.dlst⟩ = .ok ⟨nbaths, q.tlst, q.dlst⟩ := by
    obtain ⟨-, e1, e2⟩ := g0
    clear h1 h3 h4 h5
    induction ops generalizing q0 with
    | nil => cases h2; rfl
    | cons o ops ih =>
      rw [List.map_cons, List.foldlM_cons] at h2
      obtain ⟨q1, k1, k2⟩ := bind_iff.1 h2
      rw [List.foldlM_cons, bath_step (n := nbaths) rfl e1 e2 rfl rfl o k1, py_bind_ok]
      refine ih (fun o h => ho o (by simp [h])) q1 k2 ?_ ?_
      · cases o <;>
          (simp only [BathOp.lead, ParOp.run, LeadPars.add, LeadPars.change, ifGiven, py_pure, py_bind_ok] at k1
           obtain ⟨a, -, k1⟩ := bind_iff.1 k1
           obtain ⟨b, -, k1⟩ := bind_iff.1 k1
           cases k1
           exact e1)
      · cases o <;>
          (simp only [BathOp.lead, ParOp.run, LeadPars.add, LeadPars.change, ifGiven, py_pure, py_bind_ok] at k1
           obtain ⟨a, -, k1⟩ := bind_iff.1 k1
           obtain ⟨b, -, k1⟩ := bind_iff.1 k1
           cases k1
           exact e2)
  refine ⟨_, _, _, g0.1, g, rfl, rfl, ?_, ?_⟩
  · have := h5.T
    rw [h3, h4] at this
    exact this
  · have := h5.D
    rw [h3, h4] at this
    exact this

/-- Two baths; the temperature of the second is changed. -/
example : (LstArg.dict [(0, 1), (1, 2)]).Fits 2 ∧ (DlstArg.nums [3, 4]).Fits 2 ∧
    ∀ o ∈ [BathOp.change (some (.dict [(-1, 5)])) none, .add none (some (.num 1))], o.lead.Fits 2 := by
  refine ⟨?_, by simp [DlstArg.Fits], ?_⟩
  · intro e he; simp at he; rcases he with rfl | rfl <;> simp
  · intro o ho
    simp at ho
    rcases ho with rfl | rfl <;> simp [BathOp.lead, ParOp.Fits, LstArg.Fits, DlstArg.Fits]

end

end Verif
