import Verif.Spec.Fock
import Verif.Lemmas.Fermi
import Verif.Lemmas.Py
import Verif.Lemmas.SI

/-! Closed forms of the many-body matrices in the Fock basis. -/

namespace Verif

open Verif.Spec Function

variable {n : Nat}

/-! ### Occupation lists -/

theorem pyGet_ofOcc (s : Occ n) (i : Fin n) :
    pyGet (ofOcc s) ((i : Nat) : Int) = .ok (if s i then 1 else 0) := by
  have h : (i : Nat) < (ofOcc s).length := by rw [ofOcc_length]; exact i.isLt
  rw [pyGet_nat _ h, ofOcc_getElem]

theorem pySet_ofOcc0 (s : Occ n) (i : Fin n) :
    pySet (ofOcc s) ((i : Nat) : Int) 0 = .ok (ofOcc (update s i false)) := by
  have h : (i : Nat) < (ofOcc s).length := by rw [ofOcc_length]; exact i.isLt
  unfold pySet
  rw [pyIdx_nat h]
  simp only []
  exact congrArg _ (ofOcc_set s i false)

theorem pySet_ofOcc1 (s : Occ n) (i : Fin n) :
    pySet (ofOcc s) ((i : Nat) : Int) 1 = .ok (ofOcc (update s i true)) := by
  have h : (i : Nat) < (ofOcc s).length := by rw [ofOcc_length]; exact i.isLt
  unfold pySet
  rw [pyIdx_nat h]
  simp only []
  exact congrArg _ (ofOcc_set s i true)

/-! ### Arrays -/

noncomputable section

/-- Addition of a function to the entries. -/
def Arr.plus (a : Arr) (g : List Nat → ℂ) : Arr := ⟨a.dims, fun ix => a.val ix + g ix⟩

/-- One non-zero entry. -/
def single (ix0 : List Nat) (x : ℂ) (ix : List Nat) : ℂ := if ix = ix0 then x else 0

theorem Arr.add_ok {a : Arr} {ix : List Nat} {x : ℂ} (h : List.Forall₂ (· < ·) ix a.dims) :
    a.add ix x = .ok (a.plus (single ix x)) := by
  unfold Arr.add Arr.plus single
  rw [if_pos h]
  congr 2
  ext jx
  by_cases e : jx = ix
  · subst e; simp
  · simp [e]

theorem Arr.plus_zero (a : Arr) : a.plus (fun _ => 0) = a := by
  simp [Arr.plus]

theorem Arr.plus_plus (a : Arr) (f g : List Nat → ℂ) :
    (a.plus f).plus g = a.plus fun ix => f ix + g ix := by
  simp [Arr.plus, add_assoc]

@[simp] theorem Arr.plus_dims (a : Arr) (g : List Nat → ℂ) : (a.plus g).dims = a.dims := rfl

theorem foldlM_plus {α : Type} (D : List Nat) (f : Arr → α → Py Arr) (g : α → List Nat → ℂ) :
    ∀ (xs : List α), (∀ x ∈ xs, ∀ a : Arr, a.dims = D → f a x = .ok (a.plus (g x))) →
    ∀ a : Arr, a.dims = D →
      xs.foldlM f a = .ok (a.plus fun ix => (xs.map fun x => g x ix).sum)
  | [], _, a, _ => by simp [Arr.plus_zero]
  | x :: xs, h, a, ha => by
    rw [List.foldlM_cons, h x (by simp) a ha]
    refine Eq.trans (foldlM_plus D f g xs (fun y hy => h y (by simp [hy])) _ (by simpa using ha)) ?_
    rw [Arr.plus_plus]
    simp

/-! ### Lists of states -/

/-- A duplicate-free list of states: `st p` is the occupation of the state at position `p`. -/
structure Basis (n : Nat) (si : SI) (lst : List Nat) (st : Nat → Occ n) : Prop where
  get : ∀ p (hp : p < lst.length), si.getState (lst[p] : Nat) = .ok (ofOcc (st p))
  inj : ∀ p q, p < lst.length → q < lst.length → st p = st q → p = q

/-- The occupation `u` can be looked up in the list. -/
def Basis.Has (si : SI) (lst : List Nat) (st : Nat → Occ n) (u : Occ n) : Prop :=
  (si.getInd (ofOcc u) = .ok none ∧ ∀ p, p < lst.length → st p ≠ u) ∨
    ∃ k ind, si.getInd (ofOcc u) = .ok (some k) ∧ pyIndex lst k = .ok ind ∧ ind < lst.length ∧
      st ind = u

theorem pyIndex_get {lst : List Nat} {k : Nat} (h : k ∈ lst) :
    ∃ ind, ∃ hi : ind < lst.length, pyIndex lst k = .ok ind ∧ lst[ind] = k := by
  refine ⟨lst.idxOf k, List.idxOf_lt_length_of_mem h, ?_, List.getElem_idxOf _⟩
  unfold pyIndex
  rw [if_pos h]

theorem _root_.Verif.Spec.Consistent.inj {si : SI} (hc : Consistent n si) {b b' : Nat} {s : Occ n}
    (h : b < si.nmany) (h' : b' < si.nmany) (e : si.getState b = .ok (ofOcc s))
    (e' : si.getState b' = .ok (ofOcc s)) : b = b' := by
  obtain ⟨t, h1, h2⟩ := hc.state b h
  obtain ⟨t', h1', h2'⟩ := hc.state b' h'
  rw [e] at h1
  rw [e'] at h1'
  simp only [Except.ok.injEq] at h1 h1'
  rw [← h1] at h2
  rw [← h1', h2] at h2'
  simpa using h2'

/-- Every duplicate-free list of states is a basis. -/
theorem getD_of_lt {lst : List Nat} {p : Nat} (hp : p < lst.length) : lst.getD p 0 = lst[p] := by
  simp [List.getD, hp]

theorem _root_.Verif.Spec.Consistent.basis {si : SI} (hc : Consistent n si) {lst : List Nat} (hd : lst.Nodup)
    (hl : ∀ b ∈ lst, b < si.nmany) : ∃ st : Nat → Occ n, Basis n si lst st := by
  choose! f hf using hc.state
  refine ⟨fun p => f (lst.getD p 0), ?_, ?_⟩
  · intro p hp
    rw [getD_of_lt hp]
    exact (hf _ (hl _ (List.getElem_mem hp))).1
  · intro p q hp hq e
    rw [getD_of_lt hp, getD_of_lt hq] at e
    have := hc.inj (hl _ (List.getElem_mem hp)) (hl _ (List.getElem_mem hq))
      (hf _ (hl _ (List.getElem_mem hp))).1
      (by rw [e]; exact (hf _ (hl _ (List.getElem_mem hq))).1)
    exact (List.Nodup.getElem_inj_iff hd).1 this

theorem _root_.Verif.Spec.Consistent.has {si : SI} (hc : Consistent n si) {lst : List Nat} {st : Nat → Occ n}
    (hb : Basis n si lst st) (hl : ∀ b ∈ lst, b < si.nmany) {u : Occ n}
    (hu : ∀ b : Nat, b < si.nmany → si.getState b = .ok (ofOcc u) → b ∈ lst) :
    Basis.Has si lst st u := by
  rcases hc.index u with h | ⟨b, h1, h2, h3⟩
  · left
    refine ⟨h, ?_⟩
    intro p hp e
    obtain ⟨t, g1, g2⟩ := hc.state _ (hl _ (List.getElem_mem hp))
    rw [hb.get p hp, e] at g1
    simp only [Except.ok.injEq] at g1
    rw [← g1, h] at g2
    simp at g2
  · right
    obtain ⟨ind, hi, e1, e2⟩ := pyIndex_get (hu b h1 h3)
    refine ⟨b, ind, h2, e1, hi, ?_⟩
    have := hb.get ind hi
    rw [e2, h3] at this
    exact (ofOcc_injective (Except.ok.inj this)).symm

/-! ### Hopping -/

theorem forall2_pair {a b N : Nat} (ha : a < N) (hb : b < N) :
    List.Forall₂ (· < ·) [a, b] [N, N] := by
  simp [ha, hb]

/-- What `cre j * ann i` does to a basis state, for different orbitals. -/
theorem hop_mono {K : Type} [CommRing K] {i j : Fin n} (hij : i ≠ j) :
    Mono (cre j * ann i : Matrix (Occ n) (Occ n) K) fun s =>
      if s i = true ∧ s j = false then
        some (sgn s i * sgn s j * (if i > j then 1 else -1), update (update s i false) j true)
      else none := by
  have h := (cre_mono (K := K) j).mul (ann_mono i)
  intro s' s
  rw [h s' s]
  unfold annF creF
  by_cases hi : s i = true
  · by_cases hj : s j = true
    · simp [hi, hj, update_of_ne (Ne.symm hij)]
    · have hj' : s j = false := by simpa using hj
      simp only [hi, hj', update_of_ne (Ne.symm hij), if_true, Option.bind_some, Option.map_some,
        Bool.false_eq_true, if_false, and_self]
      rw [sgn_update s _ _ _ (by simp [hi])]
      rcases lt_trichotomy i j with h | h | h
      · rw [if_pos h, if_neg (not_lt.2 h.le)]
        congr 2
        ring
      · exact absurd h hij
      · rw [if_neg (not_lt.2 h.le), if_pos h]
        congr 2
        ring
  · simp [hi]

theorem number_mono {K : Type} [CommRing K] (i : Fin n) :
    Mono (cre i * ann i : Matrix (Occ n) (Occ n) K) fun s =>
      if s i = true then some (1, s) else none := by
  have h := (cre_mono (K := K) i).mul (ann_mono i)
  intro s' s
  rw [h s' s]
  unfold annF creF
  by_cases hi : s i = true
  · have e : sgn (update s i false) i = sgn s i := by
      rw [sgn_update _ _ _ _ (by simp [hi])]; simp
    have e2 : update s i true = s := by rw [← hi, update_eq_self]
    simp [hi, e, e2, sgn_mul_self]
  · simp [hi]

/-- The last part of a pass: look up the target state and add to the matrix. -/
theorem tail_ok {si : SI} {lst : List Nat} {st : Nat → Occ n} (hb : Basis n si lst st)
    {u : Occ n} (hu : Basis.Has si lst st u) {j1 : Nat} (hj : j1 < lst.length) (x y : ℂ) (H : Prop)
    [Decidable H] :
    ∃ g : List Nat → ℂ,
      (∀ a : Arr, a.dims = [lst.length, lst.length] →
        (do let r ← si.getInd (ofOcc u)
            match r with
            | none => pure a
            | some k => do
              let ind ← pyIndex lst k
              let ham ← a.add [ind, j1] x
              if H then ham.add [j1, ind] y else pure ham : Py Arr) = .ok (a.plus g)) ∧
      ∀ p q, p < lst.length → q < lst.length → g [p, q] =
        (if q = j1 ∧ st p = u then x else 0) + if H ∧ p = j1 ∧ st q = u then y else 0 := by
  rcases hu with ⟨h1, h2⟩ | ⟨k, ind, h1, h2, h3, h4⟩
  · rw [h1]
    refine ⟨fun _ => 0, fun a _ => by rw [Arr.plus_zero]; rfl, ?_⟩
    intro p q hp hq
    simp [h2 p hp, h2 q hq]
  · rw [h1]
    simp only [py_bind_ok, h2]
    have hone : ∀ p, p < lst.length → (st p = u ↔ p = ind) := by
      intro p hp
      constructor
      · intro e
        exact hb.inj _ _ hp h3 (by rw [e, h4])
      · rintro rfl; exact h4
    by_cases hh : H
    · refine ⟨fun ix => single [ind, j1] x ix + single [j1, ind] y ix, ?_, ?_⟩
      · intro a ha
        rw [Arr.add_ok (by rw [ha]; exact forall2_pair h3 hj)]
        simp only [py_bind_ok, hh, if_true]
        rw [Arr.add_ok (by simp only [Arr.plus_dims, ha]; exact forall2_pair hj h3),
          Arr.plus_plus]
      · intro p q hp hq
        unfold single
        simp only [hone p hp, hone q hq, hh, true_and, List.cons.injEq, and_true]
        congr 1
        exact if_congr and_comm rfl rfl
    · refine ⟨single [ind, j1] x, ?_, ?_⟩
      · intro a ha
        rw [Arr.add_ok (by rw [ha]; exact forall2_pair h3 hj)]
        simp only [py_bind_ok, hh]
        rfl
      · intro p q hp hq
        unfold single
        simp only [hone p hp, hh, false_and, if_false, add_zero, List.cons.injEq, and_true]
        exact if_congr and_comm rfl rfl

theorem hopStep_ok {si : SI} {herm : Bool} {lst : List Nat} {st : Nat → Occ n}
    (hb : Basis n si lst st) (e : (Fin n × Fin n) × ℂ) (j1 : Nat) (hj : j1 < lst.length)
    (hcl : e.1.1 ≠ e.1.2 → st j1 e.1.1 = true → st j1 e.1.2 = false →
      Basis.Has si lst st (update (update (st j1) e.1.1 false) e.1.2 true)) :
    ∃ g : List Nat → ℂ,
      (∀ a : Arr, a.dims = [lst.length, lst.length] →
        hopStep si herm lst j1 (ofOcc (st j1)) a ((e.1.1.val, e.1.2.val), e.2)
          = .ok (a.plus g)) ∧
      ∀ p q, p < lst.length → q < lst.length → g [p, q] =
        (if q = j1 then e.2 * (cre e.1.2 * ann e.1.1 : Matrix (Occ n) (Occ n) ℂ) (st p) (st j1)
          else 0) +
        if herm = true ∧ e.1.1 ≠ e.1.2 ∧ p = j1 then
          star e.2 * (cre e.1.2 * ann e.1.1 : Matrix (Occ n) (Occ n) ℂ) (st q) (st j1) else 0 := by
  obtain ⟨⟨i, j⟩, h⟩ := e
  simp only at hcl ⊢
  unfold hopStep
  simp only [Fin.val_inj]
  by_cases hij : i = j
  · subst hij
    simp only [if_true, pyGet_ofOcc, py_bind_ok, number_mono i _ _, ne_eq, not_true,
      false_and, and_false, if_false, add_zero]
    by_cases hs : st j1 i = true
    · simp only [hs, if_true]
      refine ⟨single [j1, j1] h, ?_, ?_⟩
      · intro a ha
        exact Arr.add_ok (by rw [ha]; exact forall2_pair hj hj)
      · intro p q hp hq
        unfold single
        by_cases hq1 : q = j1
        · subst hq1
          by_cases hp1 : p = q
          · subst hp1; simp
          · have : ¬ st p = st q := fun e => hp1 (hb.inj _ _ hp hq e)
            simp [hp1, this]
        · simp [hq1]
    · simp only [hs, Bool.false_eq_true, if_false, zero_ne_one, mul_zero, ite_self]
      exact ⟨fun _ => 0, fun a _ => by rw [Arr.plus_zero]; rfl, fun _ _ _ _ => rfl⟩
  · simp only [if_neg hij, pyGet_ofOcc, py_bind_ok, hop_mono hij _ _]
    by_cases hi : st j1 i = true
    · simp only [hi, if_true]
      by_cases hjj : st j1 j = true
      · simp only [hjj, if_true, one_ne_zero, if_false, Bool.true_eq_false, and_false, mul_zero,
          ite_self, add_zero]
        exact ⟨fun _ => 0, fun a _ => by rw [Arr.plus_zero]; rfl, fun _ _ _ _ => rfl⟩
      · have hj' : st j1 j = false := by simpa using hjj
        simp only [hj', Bool.false_eq_true, if_false, if_true, and_self, pySet_ofOcc0,
          py_bind_ok, pySet_ofOcc1]
        set u := update (update (st j1) i false) j true with hu
        set c : ℤ := sgn (st j1) i * sgn (st j1) j * (if i > j then 1 else -1) with hc
        have hsg : (-1 : ℤ) ^ ((List.take (↑i) (ofOcc (st j1))).sum +
            (List.take (↑j) (ofOcc (st j1))).sum) * (if (i : Nat) > (j : Nat) then 1 else -1)
            = c := by
          rw [pow_add, pow_take, pow_take]
          rfl
        rw [hsg]
        obtain ⟨g, g1, g2⟩ := tail_ok hb (hcl hij hi hj') hj (h * c) (star h * c) (herm = true)
        refine ⟨g, g1, ?_⟩
        intro p q hp hq
        rw [g2 p q hp hq]
        simp only [mul_ite, mul_zero, ite_and, hij, ne_eq, not_false_iff, true_and, if_true]
    · simp only [hi, Bool.false_eq_true, if_false, zero_ne_one, false_and, mul_zero,
        ite_self, add_zero]
      exact ⟨fun _ => 0, fun a _ => by rw [Arr.plus_zero]; rfl, fun _ _ _ _ => rfl⟩

/-- The columns together: `A x s' s` is the amplitude put into column `s`, `B x s s'` the one put
into row `s`. -/
theorem columns_ok {α : Type} {si : SI} {lst : List Nat} {st : Nat → Occ n}
    (hb : Basis n si lst st) (xs : List α) (step : Nat → List Nat → Arr → α → Py Arr)
    (A B : α → Occ n → Occ n → ℂ)
    (h : ∀ j1, j1 < lst.length → ∀ x ∈ xs, ∃ g : List Nat → ℂ,
      (∀ a : Arr, a.dims = [lst.length, lst.length] →
        step j1 (ofOcc (st j1)) a x = .ok (a.plus g)) ∧
      ∀ p q, p < lst.length → q < lst.length → g [p, q] =
        (if q = j1 then A x (st p) (st j1) else 0) + if p = j1 then B x (st j1) (st q) else 0)
    (a : Arr) (ha : a.dims = [lst.length, lst.length]) :
    ∃ g : List Nat → ℂ,
      (List.range lst.length).foldlM (fun ham j1 => do
        let b ← pyGet lst ((j1 : Nat) : Int)
        let state ← si.getState b
        xs.foldlM (step j1 state) ham) a = .ok (a.plus g) ∧
      ∀ p q, p < lst.length → q < lst.length →
        g [p, q] = (xs.map fun x => A x (st p) (st q) + B x (st p) (st q)).sum := by
  choose! G hG1 hG2 using h
  have hcol : ∀ j1 ∈ List.range lst.length, ∀ a : Arr, a.dims = [lst.length, lst.length] →
      (do let b ← pyGet lst ((j1 : Nat) : Int)
          let state ← si.getState b
          xs.foldlM (step j1 state) a : Py Arr)
        = .ok (a.plus fun ix => (xs.map fun x => G j1 x ix).sum) := by
    intro j1 hj a ha
    have hj' : j1 < lst.length := by simpa using hj
    rw [pyGet_nat _ hj']
    simp only [py_bind_ok]
    rw [hb.get j1 hj']
    simp only [py_bind_ok]
    exact foldlM_plus _ _ _ xs (fun x hx a ha => hG1 j1 hj' x hx a ha) a ha
  refine ⟨_, foldlM_plus _ _ (fun j1 ix => (xs.map fun x => G j1 x ix).sum) _ hcol a ha, ?_⟩
  intro p q hp hq
  have e1 : ∀ j1 ∈ List.range lst.length, (xs.map fun x => G j1 x [p, q]).sum
      = (xs.map fun x => (if q = j1 then A x (st p) (st j1) else 0) +
          if p = j1 then B x (st j1) (st q) else 0).sum := by
    intro j1 hj
    have hj' : j1 < lst.length := by simpa using hj
    congr 1
    exact List.map_congr_left fun x hx => hG2 j1 hj' x hx p q hp hq
  rw [List.map_congr_left e1]
  clear e1 hG1 hG2 hcol
  induction xs with
  | nil => simp
  | cons x xs ih =>
    simp only [List.map_cons, List.sum_cons]
    rw [List.sum_map_add, ih, List.sum_map_add]
    congr 1
    have key : ∀ (f : Nat → ℂ) (r : Nat), r < lst.length →
        ((List.range lst.length).map fun j1 => if r = j1 then f j1 else 0).sum = f r := by
      intro f r hr
      rw [← List.sum_toFinset _ List.nodup_range]
      rw [Finset.sum_ite_eq, if_pos (by simpa using hr)]
    rw [key (fun j1 => A x (st p) (st j1)) q hq, key (fun j1 => B x (st j1) (st q)) p hp]

theorem hopTerm_apply (herm : Bool) (e : (Fin n × Fin n) × ℂ) (s' s : Occ n) :
    hopTerm herm e s' s = e.2 * (cre e.1.2 * ann e.1.1 : Matrix (Occ n) (Occ n) ℂ) s' s +
      if herm = true ∧ e.1.1 ≠ e.1.2 then
        star e.2 * (cre e.1.2 * ann e.1.1 : Matrix (Occ n) (Occ n) ℂ) s s' else 0 := by
  unfold hopTerm
  rw [Matrix.add_apply, Matrix.smul_apply, smul_eq_mul]
  congr 1
  split
  · rw [Matrix.smul_apply, smul_eq_mul]
    congr 1
    have : (cre e.1.1 * ann e.1.2 : Matrix (Occ n) (Occ n) ℂ)
        = (cre e.1.2 * ann e.1.1 : Matrix (Occ n) (Occ n) ℂ).transpose := by
      rw [Matrix.transpose_mul]; rfl
    rw [this]; rfl
  · rfl

theorem sum_apply {α : Type} (xs : List α) (F : α → Matrix (Occ n) (Occ n) ℂ) (s' s : Occ n) :
    (xs.map F).sum s' s = (xs.map fun x => F x s' s).sum := by
  induction xs with
  | nil => simp
  | cons x xs ih => simp [Matrix.add_apply, ih]

/-- `construct_ham_hopping` for a list of states that contains the targets of all moves. -/
theorem hopping_ok {si : SI} {herm : Bool} {lst : List Nat} {st : Nat → Occ n}
    (hb : Basis n si lst st) (hs : List ((Fin n × Fin n) × ℂ))
    (hcl : ∀ e ∈ hs, ∀ j1 < lst.length, e.1.1 ≠ e.1.2 → st j1 e.1.1 = true → st j1 e.1.2 = false →
      Basis.Has si lst st (update (update (st j1) e.1.1 false) e.1.2 true))
    (ham? : Option Arr) (hd : ∀ a, ham? = some a → a.dims = [lst.length, lst.length]) :
    ∃ g : List Nat → ℂ, constructHamHopping si herm (hopKeys hs) lst ham?
        = .ok ((ham?.getD (Arr.zeros [lst.length, lst.length])).plus g) ∧
      ∀ p q, p < lst.length → q < lst.length → g [p, q] = hopOp herm hs (st p) (st q) := by
  unfold constructHamHopping hopKeys
  have := columns_ok hb hs
    (fun j1 state a e => hopStep si herm lst j1 state a ((e.1.1.val, e.1.2.val), e.2))
    (fun e s' s => e.2 * (cre e.1.2 * ann e.1.1 : Matrix (Occ n) (Occ n) ℂ) s' s)
    (fun e s' s => if herm = true ∧ e.1.1 ≠ e.1.2 then
      star e.2 * (cre e.1.2 * ann e.1.1 : Matrix (Occ n) (Occ n) ℂ) s s' else 0)
    (by
      intro j1 hj e he
      obtain ⟨g, g1, g2⟩ := hopStep_ok (herm := herm) hb e j1 hj (hcl e he j1 hj)
      refine ⟨g, g1, ?_⟩
      intro p q hp hq
      rw [g2 p q hp hq]
      congr 1
      by_cases h1 : herm = true <;> by_cases h2 : e.1.1 ≠ e.1.2 <;> by_cases h3 : p = j1 <;>
        simp [h1, h2, h3])
    (ham?.getD (Arr.zeros [lst.length, lst.length]))
    (by cases ham? with
      | none => rfl
      | some a => exact hd a rfl)
  obtain ⟨g, g1, g2⟩ := this
  refine ⟨g, ?_, ?_⟩
  · simp only [List.foldlM_map]
    exact g1
  · intro p q hp hq
    rw [g2 p q hp hq, hopOp, sum_apply]
    congr 1
    exact List.map_congr_left fun e _ => (hopTerm_apply herm e _ _).symm

/-! ### Coulomb interaction -/

theorem _root_.Verif.Spec.Mono.congr {X : Matrix (Occ n) (Occ n) ℂ} {f g : Occ n → Option (ℤ × Occ n)}
    (h : Mono X f) (e : ∀ s, f s = g s) : Mono X g := by
  intro s' s
  rw [← e s]
  exact h s' s

theorem pair_ann_mono (k l : Fin n) :
    Mono (ann k * ann l : Matrix (Occ n) (Occ n) ℂ) fun s =>
      if s k = true ∧ s l = true ∧ k ≠ l then
        some (sgn s k * sgn s l * (if k > l then -1 else 1), update (update s k false) l false)
      else none := by
  refine Mono.congr ((ann_mono (K := ℂ) k).mul (ann_mono l)) ?_
  intro s
  unfold annF
  by_cases hkl : k = l
  · subst hkl
    by_cases hk : s k = true <;> simp [hk]
  · by_cases hk : s k = true <;> by_cases hl : s l = true <;>
      simp [hk, hl, hkl, update_of_ne hkl]
    refine ⟨?_, update_comm (Ne.symm hkl) _ _ _⟩
    rw [sgn_update s _ _ _ (by simp [hl])]
    by_cases h : l < k
    · simp [h]
    · simp [h]

theorem pair_cre_mono (m p : Fin n) :
    Mono (cre m * cre p : Matrix (Occ n) (Occ n) ℂ) fun s =>
      if s m = false ∧ s p = false ∧ m ≠ p then
        some (sgn s p * sgn s m * (if p > m then 1 else -1), update (update s m true) p true)
      else none := by
  refine Mono.congr ((cre_mono (K := ℂ) m).mul (cre_mono p)) ?_
  intro s
  unfold creF
  by_cases hmp : m = p
  · subst hmp
    by_cases hk : s m = true <;> simp [hk]
  · by_cases hm : s m = true <;> by_cases hp : s p = true <;>
      simp [hm, hp, hmp, update_of_ne hmp]
    refine ⟨?_, update_comm (Ne.symm hmp) _ _ _⟩
    rw [sgn_update s _ _ _ (by simp [hp])]
    rcases lt_trichotomy m p with h | h | h
    · rw [if_neg (not_lt.2 h.le), if_pos h]; ring
    · exact absurd h hmp
    · rw [if_pos h, if_neg (not_lt.2 h.le)]; ring

/-- The occupation after removing two electrons and adding two. -/
def coulTarget (m p k l : Fin n) (s : Occ n) : Occ n :=
  update (update (update (update s k false) l false) m true) p true

/-- The sign of `coulStep`. -/
def coulSign (m p k l : Fin n) (s : Occ n) : ℤ :=
  let t := update (update s k false) l false
  sgn s k * sgn s l * (if k > l then -1 else 1) * (sgn t p * sgn t m) * (if p > m then 1 else -1)

theorem coul_mono (m p k l : Fin n) :
    Mono (cre m * cre p * ann k * ann l : Matrix (Occ n) (Occ n) ℂ) fun s =>
      if s k = true ∧ s l = true ∧ k ≠ l then
        if update (update s k false) l false m = false ∧
            update (update s k false) l false p = false ∧ m ≠ p then
          some (coulSign m p k l s, coulTarget m p k l s)
        else none
      else none := by
  have h := (pair_cre_mono m p).mul (pair_ann_mono k l)
  rw [← Matrix.mul_assoc] at h
  refine Mono.congr h ?_
  intro s
  by_cases h1 : s k = true ∧ s l = true ∧ k ≠ l
  · simp only [if_pos h1, Option.bind_some]
    by_cases h2 : update (update s k false) l false m = false ∧
            update (update s k false) l false p = false ∧ m ≠ p
    · simp only [if_pos h2, Option.map_some]
      unfold coulSign coulTarget
      congr 2
      simp only []
      ring
    · simp only [if_neg h2, Option.map_none]
  · simp only [if_neg h1, Option.bind_none]

theorem coulStep_ok {si : SI} {hermC mLessN : Bool} {lst : List Nat} {st : Nat → Occ n}
    (hb : Basis n si lst st) (m p k l : Fin n) (U : ℂ) (j1 : Nat) (hj : j1 < lst.length)
    (hcl : st j1 k = true → st j1 l = true → k ≠ l →
      update (update (st j1) k false) l false m = false →
      update (update (st j1) k false) l false p = false → m ≠ p →
      Basis.Has si lst st (coulTarget m p k l (st j1))) :
    ∃ g : List Nat → ℂ,
      (∀ a : Arr, a.dims = [lst.length, lst.length] →
        coulStep si hermC mLessN lst j1 (ofOcc (st j1)) a
          ((m.val, p.val, k.val, l.val), U) = .ok (a.plus g)) ∧
      ∀ P Q, P < lst.length → Q < lst.length → g [P, Q] =
        (if Q = j1 then
          U * (cre m * cre p * ann k * ann l : Matrix (Occ n) (Occ n) ℂ) (st P) (st j1) else 0) +
        if P = j1 then
          if hermC = true ∧ ¬ (m = l ∧ p = k) ∧ ¬ (mLessN = true ∧ l > k) then
            star U * (cre m * cre p * ann k * ann l : Matrix (Occ n) (Occ n) ℂ) (st Q) (st j1)
          else 0 else 0 := by
  simp only [coul_mono m p k l _ _]
  unfold coulStep
  simp only [pyGet_ofOcc, py_bind_ok]
  have skip : ∀ (X : ℂ), (X = 0) → ∃ g : List Nat → ℂ,
      (∀ a : Arr, a.dims = [lst.length, lst.length] → (pure a : Py Arr) = .ok (a.plus g)) ∧
      ∀ P Q, P < lst.length → Q < lst.length → g [P, Q] = X := by
    rintro X rfl
    exact ⟨fun _ => 0, fun a _ => by rw [Arr.plus_zero]; rfl, fun _ _ _ _ => rfl⟩
  by_cases hk : st j1 k = true
  · simp only [hk, if_true]
    by_cases hl : st j1 l = true
    · simp only [hl, if_true]
      by_cases hkl : k = l
      · subst hkl
        simpa using skip 0 rfl
      · have hkl' : (k : Nat) ≠ l := fun e => hkl (Fin.ext e)
        simp only [ne_eq, hkl', not_false_iff, and_self, if_true, hkl, pySet_ofOcc0, py_bind_ok,
          pyGet_ofOcc]
        set t := update (update (st j1) k false) l false with ht
        by_cases hm : t m = true
        · simp only [hm, if_true, one_ne_zero, if_false, Bool.true_eq_false, false_and]
          simpa using skip 0 rfl
        · have hm' : t m = false := by simpa using hm
          simp only [hm', Bool.false_eq_true, if_false, if_true, true_and]
          by_cases hp : t p = true
          · simp only [hp, if_true, one_ne_zero, if_false, Bool.true_eq_false, false_and]
            simpa using skip 0 rfl
          · have hp' : t p = false := by simpa using hp
            simp only [hp', Bool.false_eq_true, if_false, if_true, true_and]
            by_cases hmp : m = p
            · subst hmp
              simpa using skip 0 rfl
            · have hmp' : (m : Nat) ≠ p := fun e => hmp (Fin.ext e)
              simp only [hmp', hmp, not_false_iff, if_true, pySet_ofOcc1, py_bind_ok]
              have hsg : (-1 : ℤ) ^ ((List.take (k : Nat) (ofOcc (st j1))).sum +
                  (List.take (l : Nat) (ofOcc (st j1))).sum) *
                  (if (k : Nat) > l then -1 else 1) *
                  (-1) ^ ((List.take (p : Nat) (ofOcc t)).sum + (List.take (m : Nat) (ofOcc t)).sum) *
                  (if (p : Nat) > m then 1 else -1) = coulSign m p k l (st j1) := by
                rw [pow_add, pow_add, pow_take, pow_take, pow_take, pow_take]
                rfl
              rw [hsg]
              obtain ⟨g, g1, g2⟩ := tail_ok hb (hcl hk hl hkl hm' hp' hmp) hj
                (U * coulSign m p k l (st j1)) (star U * coulSign m p k l (st j1))
                (hermC = true ∧ ((m : Nat) ≠ l ∨ (p : Nat) ≠ k) ∧
                  ¬ (mLessN = true ∧ (l : Nat) > k))
              refine ⟨g, g1, ?_⟩
              intro P Q hP hQ
              rw [g2 P Q hP hQ]
              have e1 : ((m : Nat) ≠ l ∨ (p : Nat) ≠ k) ↔ ¬ (m = l ∧ p = k) := by
                rw [ne_eq, ne_eq, Fin.val_inj, Fin.val_inj, ← not_and_or]
              have e2 : ((l : Nat) > k) ↔ l > k := Iff.rfl
              simp only [e1, e2, mul_ite, mul_zero]
              by_cases hH : hermC = true ∧ ¬ (m = l ∧ p = k) ∧ ¬ (mLessN = true ∧ l > k)
              · rw [ite_and]
                congr 1
                rw [if_pos hH]
                by_cases hP1 : P = j1 <;> by_cases hQ1 : st Q = coulTarget m p k l (st j1) <;>
                  simp only [hP1, hQ1, and_true, and_false, if_true, if_false] <;>
                  first | rfl | exact if_pos hH
              · rw [ite_and]
                congr 1
                rw [if_neg hH, ite_self]
                exact if_neg fun h => hH h.1
    · simp only [hl]
      simpa using skip 0 rfl
  · simp only [hk]
    simpa using skip 0 rfl

theorem coulTerm_apply (herm mLessN : Bool) (e : (Fin n × Fin n × Fin n × Fin n) × ℂ)
    (s' s : Occ n) :
    coulTerm herm mLessN e s' s =
      e.2 * (cre e.1.1 * cre e.1.2.1 * ann e.1.2.2.1 * ann e.1.2.2.2 :
        Matrix (Occ n) (Occ n) ℂ) s' s +
      if herm = true ∧ ¬ (e.1.1 = e.1.2.2.2 ∧ e.1.2.1 = e.1.2.2.1) ∧
          ¬ (mLessN = true ∧ e.1.2.2.2 > e.1.2.2.1) then
        star e.2 * (cre e.1.1 * cre e.1.2.1 * ann e.1.2.2.1 * ann e.1.2.2.2 :
          Matrix (Occ n) (Occ n) ℂ) s s' else 0 := by
  unfold coulTerm
  rw [Matrix.add_apply, Matrix.smul_apply, smul_eq_mul]
  congr 1
  split
  · rw [Matrix.smul_apply, smul_eq_mul]
    congr 1
    have : (cre e.1.2.2.2 * cre e.1.2.2.1 * ann e.1.2.1 * ann e.1.1 : Matrix (Occ n) (Occ n) ℂ)
        = (cre e.1.1 * cre e.1.2.1 * ann e.1.2.2.1 * ann e.1.2.2.2 :
            Matrix (Occ n) (Occ n) ℂ).transpose := by
      simp only [Matrix.transpose_mul, cre, Matrix.transpose_transpose, Matrix.mul_assoc]
    rw [this]; rfl
  · rfl

/-- `construct_ham_coulomb` for a list of states that contains the targets of all moves. -/
theorem coulomb_ok {si : SI} {hermC mLessN : Bool} {lst : List Nat} {st : Nat → Occ n}
    (hb : Basis n si lst st) (cs : List ((Fin n × Fin n × Fin n × Fin n) × ℂ))
    (hcl : ∀ m p k l, (∃ U, ((m, p, k, l), U) ∈ cs) → ∀ j1 < lst.length,
      st j1 k = true → st j1 l = true → k ≠ l →
      update (update (st j1) k false) l false m = false →
      update (update (st j1) k false) l false p = false → m ≠ p →
      Basis.Has si lst st (coulTarget m p k l (st j1)))
    (ham? : Option Arr) (hd : ∀ a, ham? = some a → a.dims = [lst.length, lst.length]) :
    ∃ g : List Nat → ℂ, constructHamCoulomb si hermC mLessN (coulKeys cs) lst ham?
        = .ok ((ham?.getD (Arr.zeros [lst.length, lst.length])).plus g) ∧
      ∀ p q, p < lst.length → q < lst.length → g [p, q] = coulOp hermC mLessN cs (st p) (st q) := by
  unfold constructHamCoulomb coulKeys
  have := columns_ok hb cs
    (fun j1 state a e => coulStep si hermC mLessN lst j1 state a
      ((e.1.1.val, e.1.2.1.val, e.1.2.2.1.val, e.1.2.2.2.val), e.2))
    (fun e s' s => e.2 * (cre e.1.1 * cre e.1.2.1 * ann e.1.2.2.1 * ann e.1.2.2.2 :
        Matrix (Occ n) (Occ n) ℂ) s' s)
    (fun e s' s => if hermC = true ∧ ¬ (e.1.1 = e.1.2.2.2 ∧ e.1.2.1 = e.1.2.2.1) ∧
          ¬ (mLessN = true ∧ e.1.2.2.2 > e.1.2.2.1) then
        star e.2 * (cre e.1.1 * cre e.1.2.1 * ann e.1.2.2.1 * ann e.1.2.2.2 :
          Matrix (Occ n) (Occ n) ℂ) s s' else 0)
    (by
      rintro j1 hj ⟨⟨m, p, k, l⟩, U⟩ he
      exact coulStep_ok hb m p k l U j1 hj (hcl m p k l ⟨U, he⟩ j1 hj))
    (ham?.getD (Arr.zeros [lst.length, lst.length]))
    (by cases ham? with
      | none => rfl
      | some a => exact hd a rfl)
  obtain ⟨g, g1, g2⟩ := this
  refine ⟨g, ?_, ?_⟩
  · simp only [List.foldlM_map]
    exact g1
  · intro p q hp hq
    rw [g2 p q hp hq, coulOp, sum_apply]
    congr 1
    exact List.map_congr_left fun e _ => (coulTerm_apply hermC mLessN e _ _).symm

/-! ### Leads and phonon baths -/

/-- The occupations of all states. -/
structure Full (n : Nat) (si : SI) (st : Nat → Occ n) : Prop where
  get : ∀ b : Nat, b < si.nmany → si.getState b = .ok (ofOcc (st b))
  has : ∀ u : Occ n, (si.getInd (ofOcc u) = .ok none ∧ ∀ b < si.nmany, st b ≠ u) ∨
    ∃ b < si.nmany, si.getInd (ofOcc u) = .ok (some b) ∧ ∀ b' < si.nmany, st b' = u ↔ b' = b

theorem _root_.Verif.Spec.Consistent.full {si : SI} (hc : Consistent n si) :
    ∃ st : Nat → Occ n, Full n si st := by
  choose! st hst using hc.state
  refine ⟨st, fun b hb => (hst b hb).1, ?_⟩
  intro u
  rcases hc.index u with h | ⟨b, h1, h2, h3⟩
  · left
    refine ⟨h, ?_⟩
    intro b hb e
    have := (hst b hb).2
    rw [e, h] at this
    simp at this
  · right
    refine ⟨b, h1, h2, ?_⟩
    intro b' hb'
    constructor
    · intro e
      have := (hst b' hb').2
      rw [e, h2] at this
      simpa using this.symm
    · rintro rfl
      have := (hst b' hb').1
      rw [h3] at this
      exact (ofOcc_injective (Except.ok.inj this)).symm

theorem forall2_triple {r a b L N : Nat} (hr : r < L) (ha : a < N) (hb : b < N) :
    List.Forall₂ (· < ·) [r, a, b] [L, N, N] := by
  simp [hr, ha, hb]

theorem tail3_ok {si : SI} {st : Nat → Occ n} (hf : Full n si st) (u : Occ n) {L r j1 : Nat}
    (hr : r < L) (hj : j1 < si.nmany) (x : ℂ) :
    ∃ g : List Nat → ℂ,
      (∀ a : Arr, a.dims = [L, si.nmany, si.nmany] →
        (do let r' ← si.getInd (ofOcc u)
            match r' with
            | none => pure a
            | some ind => a.add [r, ind, j1] x : Py Arr) = .ok (a.plus g)) ∧
      ∀ r' p q, p < si.nmany → q < si.nmany → g [r', p, q] =
        if q = j1 then if r = r' then if st p = u then x else 0 else 0 else 0 := by
  rcases hf.has u with ⟨h1, h2⟩ | ⟨b, h1, h2, h3⟩
  · rw [h1]
    refine ⟨fun _ => 0, fun a _ => by rw [Arr.plus_zero]; rfl, ?_⟩
    intro r' p q hp hq
    simp [h2 p hp]
  · rw [h2]
    refine ⟨single [r, b, j1] x, ?_, ?_⟩
    · intro a ha
      exact Arr.add_ok (by rw [ha]; exact forall2_triple hr h1 hj)
    · intro r' p q hp hq
      unfold single
      simp only [h3 p hp, List.cons.injEq, and_true]
      by_cases e1 : r = r' <;> by_cases e2 : q = j1 <;> by_cases e3 : p = b <;>
        simp [e1, e2, e3, eq_comm]

theorem columns3_ok {α : Type} {si : SI} {st : Nat → Occ n} (hf : Full n si st) (L : Nat)
    (xs : List α) (step : Nat → List Nat → Arr → α → Py Arr) (A : α → Nat → Occ n → Occ n → ℂ)
    (h : ∀ j1, j1 < si.nmany → ∀ x ∈ xs, ∃ g : List Nat → ℂ,
      (∀ a : Arr, a.dims = [L, si.nmany, si.nmany] →
        step j1 (ofOcc (st j1)) a x = .ok (a.plus g)) ∧
      ∀ r p q, p < si.nmany → q < si.nmany →
        g [r, p, q] = if q = j1 then A x r (st p) (st j1) else 0)
    (a : Arr) (ha : a.dims = [L, si.nmany, si.nmany]) :
    ∃ g : List Nat → ℂ,
      (List.range si.nmany).foldlM (fun t j1 => do
        let state ← si.getState ((j1 : Nat) : Int)
        xs.foldlM (step j1 state) t) a = .ok (a.plus g) ∧
      ∀ r p q, p < si.nmany → q < si.nmany →
        g [r, p, q] = (xs.map fun x => A x r (st p) (st q)).sum := by
  choose! G hG1 hG2 using h
  have hcol : ∀ j1 ∈ List.range si.nmany, ∀ a : Arr, a.dims = [L, si.nmany, si.nmany] →
      (do let state ← si.getState ((j1 : Nat) : Int)
          xs.foldlM (step j1 state) a : Py Arr)
        = .ok (a.plus fun ix => (xs.map fun x => G j1 x ix).sum) := by
    intro j1 hj a ha
    have hj' : j1 < si.nmany := by simpa using hj
    rw [hf.get j1 hj']
    simp only [py_bind_ok]
    exact foldlM_plus _ _ _ xs (fun x hx a ha => hG1 j1 hj' x hx a ha) a ha
  refine ⟨_, foldlM_plus _ _ (fun j1 ix => (xs.map fun x => G j1 x ix).sum) _ hcol a ha, ?_⟩
  intro r p q hp hq
  have e1 : ∀ j1 ∈ List.range si.nmany, (xs.map fun x => G j1 x [r, p, q]).sum
      = (xs.map fun x => if q = j1 then A x r (st p) (st j1) else 0).sum := by
    intro j1 hj
    have hj' : j1 < si.nmany := by simpa using hj
    congr 1
    exact List.map_congr_left fun x hx => hG2 j1 hj' x hx r p q hp hq
  rw [List.map_congr_left e1]
  clear e1 hG1 hG2 hcol
  induction xs with
  | nil => simp
  | cons x xs ih =>
    simp only [List.map_cons, List.sum_cons]
    rw [List.sum_map_add, ih]
    congr 1
    rw [← List.sum_toFinset _ List.nodup_range]
    rw [Finset.sum_ite_eq, if_pos (by simpa using hq)]

theorem cre_apply (i : Fin n) (s' s : Occ n) : (cre i : Matrix (Occ n) (Occ n) ℂ) s' s =
    if s i = true then 0 else if s' = update s i true then ((sgn s i : ℤ) : ℂ) else 0 := by
  rw [cre_mono i s' s]
  unfold creF
  by_cases h : s i = true <;> simp [h]

theorem ann_apply (i : Fin n) (s' s : Occ n) : (ann i : Matrix (Occ n) (Occ n) ℂ) s' s =
    if s i = true then if s' = update s i false then ((sgn s i : ℤ) : ℂ) else 0 else 0 := by
  rw [ann_mono i s' s]
  unfold annF
  by_cases h : s i = true <;> simp [h]

/-- `construct_Tba`. -/
theorem tba_ok {si : SI} {st : Nat → Occ n} (hf : Full n si st) (L : Nat)
    (ts : List ((Nat × Fin n) × ℂ)) (hts : ∀ e ∈ ts, e.1.1 < L) (tba? : Option Arr)
    (hd : ∀ a, tba? = some a → a.dims = [L, si.nmany, si.nmany]) :
    ∃ g : List Nat → ℂ, constructTba si L (tunKeys ts) tba?
        = .ok ((tba?.getD (Arr.zeros [L, si.nmany, si.nmany])).plus g) ∧
      ∀ r p q, p < si.nmany → q < si.nmany → g [r, p, q] = tunOp r ts (st p) (st q) := by
  unfold constructTba tunKeys
  have := columns3_ok hf L ts
    (fun j1 state a e => tbaStep si j1 state a ((e.1.1, e.1.2.val), e.2))
    (fun e r s' s => (if e.1.1 = r then e.2 • cre e.1.2 + star e.2 • ann e.1.2 else 0 :
      Matrix (Occ n) (Occ n) ℂ) s' s)
    (by
      rintro j1 hj ⟨⟨r, i⟩, t⟩ he
      have hr : r < L := hts _ he
      unfold tbaStep
      simp only [pyGet_ofOcc, py_bind_ok, pow_take]
      by_cases hi : st j1 i = true
      · simp only [hi, if_true, one_ne_zero, if_false, pySet_ofOcc0, py_bind_ok]
        obtain ⟨g, g1, g2⟩ := tail3_ok hf (update (st j1) i false) hr hj
          ((sgn (st j1) i : ℤ) * star t)
        refine ⟨g, g1, ?_⟩
        intro r' p q hp hq
        rw [g2 r' p q hp hq]
        congr 1
        by_cases hrr : r = r'
        · simp only [hrr, if_true]
          rw [Matrix.add_apply, Matrix.smul_apply, Matrix.smul_apply, cre_apply, ann_apply]
          simp only [hi, if_true, smul_eq_mul, mul_zero, zero_add, mul_ite]
          rw [mul_comm]
        · simp [hrr]
      · simp only [hi, Bool.false_eq_true, if_true, if_false, pySet_ofOcc1, py_bind_ok]
        obtain ⟨g, g1, g2⟩ := tail3_ok hf (update (st j1) i true) hr hj
          ((sgn (st j1) i : ℤ) * t)
        refine ⟨g, g1, ?_⟩
        intro r' p q hp hq
        rw [g2 r' p q hp hq]
        congr 1
        by_cases hrr : r = r'
        · simp only [hrr, if_true]
          rw [Matrix.add_apply, Matrix.smul_apply, Matrix.smul_apply, cre_apply, ann_apply]
          simp only [hi, Bool.false_eq_true, if_false, smul_eq_mul, mul_zero, add_zero, mul_ite]
          rw [mul_comm]
        · simp [hrr])
    (tba?.getD (Arr.zeros [L, si.nmany, si.nmany]))
    (by cases tba? with
      | none => rfl
      | some a => exact hd a rfl)
  obtain ⟨g, g1, g2⟩ := this
  refine ⟨g, ?_, ?_⟩
  · simp only [List.foldlM_map]
    exact g1
  · intro r p q hp hq
    rw [g2 r p q hp hq, tunOp, sum_apply]

/-- `elph_construct_Vbbp`. -/
theorem vbbp_ok {si : SI} {st : Nat → Occ n} (hf : Full n si st) (L : Nat)
    (vs : List ((Nat × Fin n × Fin n) × ℂ)) (hvs : ∀ e ∈ vs, e.1.1 < L) (v? : Option Arr)
    (hd : ∀ a, v? = some a → a.dims = [L, si.nmany, si.nmany]) :
    ∃ g : List Nat → ℂ, constructVbbp si L (phKeys vs) v?
        = .ok ((v?.getD (Arr.zeros [L, si.nmany, si.nmany])).plus g) ∧
      ∀ r p q, p < si.nmany → q < si.nmany → g [r, p, q] = phOp r vs (st p) (st q) := by
  unfold constructVbbp phKeys
  have := columns3_ok hf L vs
    (fun j1 state a e => vbbpStep si j1 state a ((e.1.1, e.1.2.1.val, e.1.2.2.val), e.2))
    (fun e r s' s => (if e.1.1 = r then e.2 • (cre e.1.2.1 * ann e.1.2.2) else 0 :
      Matrix (Occ n) (Occ n) ℂ) s' s)
    (by
      rintro j1 hj ⟨⟨r, j, i⟩, v⟩ he
      have hr : r < L := hvs _ he
      have skip : ∀ (X : Nat → Occ n → ℂ), (∀ r s, X r s = 0) → ∃ g : List Nat → ℂ,
          (∀ a : Arr, a.dims = [L, si.nmany, si.nmany] → (pure a : Py Arr) = .ok (a.plus g)) ∧
          ∀ r p q, p < si.nmany → q < si.nmany →
            g [r, p, q] = if q = j1 then X r (st p) else 0 := by
        intro X hX
        exact ⟨fun _ => 0, fun a _ => by rw [Arr.plus_zero]; rfl, fun _ _ _ _ _ => by simp [hX]⟩
      have entry : ∀ (r' : Nat) (s' s : Occ n),
          (if r = r' then v • (cre j * ann i) else 0 : Matrix (Occ n) (Occ n) ℂ) s' s
            = if r = r' then v * (cre j * ann i : Matrix (Occ n) (Occ n) ℂ) s' s else 0 := by
        intro r' s' s
        split <;> simp
      unfold vbbpStep
      simp only [Fin.val_inj, entry, pyGet_ofOcc, py_bind_ok]
      by_cases hij : i = j
      · subst hij
        simp only [if_true, number_mono i _ _]
        by_cases hi : st j1 i = true
        · simp only [hi, if_true]
          refine ⟨single [r, j1, j1] v, ?_, ?_⟩
          · intro a ha
            exact Arr.add_ok (by rw [ha]; exact forall2_triple hr hj hj)
          · intro r' p q hp hq
            unfold single
            have hone : st p = st j1 ↔ p = j1 := by
              rcases hf.has (st j1) with ⟨_, h2⟩ | ⟨b, h1, h2, h3⟩
              · exact absurd rfl (h2 j1 hj)
              · rw [h3 p hp, (h3 j1 hj).1 rfl]
            simp only [hone, List.cons.injEq, and_true]
            by_cases e1 : r = r' <;> by_cases e2 : q = j1 <;> by_cases e3 : p = j1 <;>
              simp [e1, e2, e3, eq_comm]
        · simp only [hi]
          simpa using skip (fun _ _ => 0) (fun _ _ => rfl)
      · simp only [if_neg hij, hop_mono hij _ _]
        by_cases hi : st j1 i = true
        · by_cases hjj : st j1 j = true
          · simp only [hi, hjj]
            simpa using skip (fun _ _ => 0) (fun _ _ => rfl)
          · have hj' : st j1 j = false := by simpa using hjj
            simp only [hi, hj', Bool.false_eq_true, if_false, if_true, and_self, pySet_ofOcc0,
              py_bind_ok, pySet_ofOcc1]
            have hsg : (-1 : ℤ) ^ ((List.take (↑i) (ofOcc (st j1))).sum +
                (List.take (↑j) (ofOcc (st j1))).sum) * (if (i : Nat) > (j : Nat) then 1 else -1)
                = sgn (st j1) i * sgn (st j1) j * (if i > j then 1 else -1) := by
              rw [pow_add, pow_take, pow_take]
              rfl
            rw [hsg]
            obtain ⟨g, g1, g2⟩ := tail3_ok hf (update (update (st j1) i false) j true) hr hj
              (v * ((sgn (st j1) i * sgn (st j1) j * (if i > j then 1 else -1) : ℤ) : ℂ))
            refine ⟨g, g1, ?_⟩
            intro r' p q hp hq
            rw [g2 r' p q hp hq]
            simp only [mul_ite, mul_zero]
        · simp only [hi]
          simpa using skip (fun _ _ => 0) (fun _ _ => rfl))
    (v?.getD (Arr.zeros [L, si.nmany, si.nmany]))
    (by cases v? with
      | none => rfl
      | some a => exact hd a rfl)
  obtain ⟨g, g1, g2⟩ := this
  refine ⟨g, ?_, ?_⟩
  · simp only [List.foldlM_map]
    exact g1
  · intro r p q hp hq
    rw [g2 r p q hp hq, phOp, sum_apply]

end

end Verif
