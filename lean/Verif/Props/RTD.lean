import Verif.Lemmas.RTDOut
import Verif.Props.View
import Mathlib.LinearAlgebra.Matrix.ToLinearEquiv

/-! Properties of the RTD approach. -/

namespace Verif

open Finset
open scoped ComplexConjugate

noncomputable section

namespace RTD

/-- With 'Lin' or 'charge' indexing all coherences between considered states of one charge are included. -/
theorem all_coherences {n nleads : Nat} {indexing : String} {d : DM} {S : List (List Nat)}
    (h : Reach .dm n indexing d S) (hix : d.si.indexing ≠ .ssq) (hiz : d.si.indexing ≠ .sz) (hS : S.length = n + 1) :
    AllCoherences (d.view nleads) d.labOf := by
  obtain ⟨hi, hk, _⟩ := h.inv
  have L := (hi.lab hix).dm hk
  intro c b bp hb hbp
  have hrow : (d.view nleads).row c = rowOf S c := by
    simp only [View.row, DM.view, hi.sdm, rowOf]
    rcases Nat.lt_trichotomy c S.length with hc | hc | hc
    · rw [List.getElem?_append_left hc]
    · subst hc; simp
    · rw [List.getElem?_eq_none (by simp; omega), List.getElem?_eq_none (by omega)]
  have hc : c < n + 1 := by
    have := (view_ok (nleads := nleads) h hix hS).row_lt hb
    have e := hi.shape.ncharge
    simp only [DM.view] at this
    omega
  rw [hrow] at hb hbp
  by_cases e : b = bp
  · subst e
    simp only [DM.labOf, (L.diag c b hc hb).1, okD]
    simp
  · obtain ⟨k, x, _, _, a, _⟩ := L.off c b bp hc hb hbp e (by simp [inclOf, hiz])
    simp only [DM.labOf, a, okD]
    simp

/-- **C28**, the columns: every column of the kernel of every lead, and of the whole kernel, sums to zero. `fct` are
the first-order rates, `off` says if the off-diagonal corrections are made, the values of the integrals are those
of an arbitrary `s.lib`. -/
theorem c28_columns {s : In} {la : Lab} (h : VOk s.v la) {fct : Nat → Nat → ℝ × ℝ} {off symq : Bool} {st : St}
    (hst : genKern s fct off (fresh s.v symq) = .ok st) :
    (∀ l < s.v.nleads, ∀ j, ∑ i ∈ range s.v.npauli, (st.acc.mats.ten .Wdd).val l i j = 0) ∧
      ∀ j < s.v.npauli, ∑ i ∈ range s.v.npauli, st.kern.val i j = 0 := by
  obtain ⟨S⟩ := genKern_steps hst
  refine ⟨fun l hl j => S.col h hl j, fun j hj => ?_⟩
  have : ∀ i ∈ range s.v.npauli, st.kern.val i j = ∑ l ∈ range s.v.nleads, (st.acc.mats.ten .Wdd).val l i j :=
    fun i hi => S.kern_eq h (mem_range.1 hi) hj
  rw [sum_congr rfl this, sum_comm]
  exact sum_eq_zero fun l hl => S.col h (mem_range.1 hl) j

/-- **C28**, the kernel of the leads adds up to the kernel that is solved. -/
theorem c28_total {s : In} {la : Lab} (h : VOk s.v la) {fct : Nat → Nat → ℝ × ℝ} {off symq : Bool} {st : St}
    (hst : genKern s fct off (fresh s.v symq) = .ok st) {i j : Nat} (hi : i < s.v.npauli) (hj : j < s.v.npauli) :
    st.kern.val i j = ∑ l ∈ range s.v.nleads, (st.acc.mats.ten .Wdd).val l i j := by
  obtain ⟨S⟩ := genKern_steps hst
  exact S.kern_eq h hi hj

/-- A vector annihilated by all rows but one is annihilated by that row as well. -/
theorem c28_row {s : In} {la : Lab} (h : VOk s.v la) {fct : Nat → Nat → ℝ × ℝ} {off symq : Bool} {st : St}
    (hst : genKern s fct off (fresh s.v symq) = .ok st) {φ : Nat → ℝ} {r : Nat}
    (hφ : ∀ i < s.v.npauli, i ≠ r → ∑ j ∈ range s.v.npauli, st.kern.val i j * φ j = 0) :
    ∀ i < s.v.npauli, ∑ j ∈ range s.v.npauli, st.kern.val i j * φ j = 0 := by
  have tot : ∑ i ∈ range s.v.npauli, ∑ j ∈ range s.v.npauli, st.kern.val i j * φ j = 0 := by
    rw [sum_comm]
    refine sum_eq_zero fun j hj => ?_
    rw [← sum_mul, (c28_columns h hst).2 j (mem_range.1 hj), zero_mul]
  intro i hi
  by_cases e : i = r
  · subst e
    rw [sum_eq_single_of_mem i (mem_range.2 hi)] at tot
    · exact tot
    · intro k hk hne
      exact hφ k (mem_range.1 hk) hne
  · exact hφ i hi e

/-- **C28**, the currents: let `φ` be annihilated by the kernel, except possibly by the row `r`, which is replaced by
the normalisation. Then the lead particle currents sum to zero, for all charges `LN`. -/
theorem c28_current {s : In} {la : Lab} (h : VOk s.v la) {fct : Nat → Nat → ℝ × ℝ} {off symq : Bool} {st : St}
    (hst : genKern s fct off (fresh s.v symq) = .ok st) {LN φ : Vec} {cur : Currents}
    (hc : genCurrent s LN st.acc φ = .ok cur) {r : Nat}
    (hφ : ∀ i < s.v.npauli, i ≠ r → ∑ j ∈ range s.v.npauli, st.kern.val i j * φ.val j = 0) :
    ∑ l ∈ range s.v.nleads, cur.current l = 0 := by
  obtain ⟨S⟩ := genKern_steps hst
  obtain ⟨w, hw, rfl⟩ := genCurrent_inv hc
  have e : ∀ l ∈ range s.v.nleads, (w l).1 = 0.5 * ∑ i ∈ range s.v.npauli, LN.val i *
      ∑ j ∈ range s.v.npauli, (st.acc.mats.ten .Wdd).val l i j * φ.val j :=
    fun l hl => (leadCurrent_inv S.sh (hw l (mem_range.1 hl))).2.2.2.1
  simp only
  rw [sum_congr rfl e, ← mul_sum, sum_comm]
  refine mul_eq_zero_of_right _ (sum_eq_zero fun i hi => ?_)
  rw [← mul_sum, sum_comm]
  refine mul_eq_zero_of_right _ ?_
  rw [← c28_row h hst hφ i (mem_range.1 hi)]
  refine sum_congr rfl fun j hj => ?_
  rw [← sum_mul, c28_total h hst (mem_range.1 hi) (mem_range.1 hj)]

/-- The kernel and the currents are calculated without an error: if the Ozaki expansion has been made or is not
needed, and, for the corrections, all coherences are there. -/
theorem c28_runs {s : In} {la : Lab} (h : VOk s.v la) (he : Evaluable s) (fct : Nat → Nat → ℝ × ℝ) (off symq : Bool)
    (hall : off = true → AllCoherences s.v la) {LN φ : Vec} (h1 : LN.size = s.v.npauli) (h2 : s.nmany = s.v.npauli)
    (h3 : φ.size = s.v.npauli) : ∃ st cur, genKern s fct off (fresh s.v symq) = .ok st ∧
      genCurrent s LN st.acc φ = .ok cur := by
  obtain ⟨st, hst⟩ := genKern_some h he fct off symq hall
  obtain ⟨S⟩ := genKern_steps hst
  obtain ⟨cur, hc⟩ := genCurrent_some (LN := LN) (φ := φ) S.sh h1 h2 h3
  exact ⟨st, cur, hst, hc⟩

/-- A vector different from zero that the kernel annihilates exists. -/
theorem c28_state {s : In} {la : Lab} (h : VOk s.v la) {fct : Nat → Nat → ℝ × ℝ} {off symq : Bool} {st : St}
    (hst : genKern s fct off (fresh s.v symq) = .ok st) (hn : 0 < s.v.npauli) :
    ∃ φ : Nat → ℝ, (∃ i < s.v.npauli, φ i ≠ 0) ∧
      ∀ i < s.v.npauli, ∑ j ∈ range s.v.npauli, st.kern.val i j * φ j = 0 := by
  let M : Matrix (Fin s.v.npauli) (Fin s.v.npauli) ℝ := fun i j => st.kern.val i j
  have hdet : M.det = 0 := by
    rw [← Matrix.exists_vecMul_eq_zero_iff]
    refine ⟨fun _ => 1, fun e => one_ne_zero (congrFun e ⟨0, hn⟩), ?_⟩
    funext j
    simp only [Matrix.vecMul, dotProduct, one_mul, Pi.zero_apply, M]
    rw [← (c28_columns h hst).2 j j.2, Finset.sum_range]
  obtain ⟨x, hx, e⟩ := Matrix.exists_mulVec_eq_zero_iff.2 hdet
  obtain ⟨k, hk⟩ := Function.ne_iff.1 hx
  refine ⟨fun i => if hi : i < s.v.npauli then x ⟨i, hi⟩ else 0, ⟨k, k.2, by simpa using hk⟩, fun i hi => ?_⟩
  have := congrFun e ⟨i, hi⟩
  simp only [Matrix.mulVec, dotProduct, Pi.zero_apply, M] at this
  rw [Finset.sum_range, ← this]
  simp

/-- Numerical routines for the examples. -/
def lib0 : Lib where
  base := ⟨fun x _ _ _ => x, fun x => x⟩
  Poles := Unit
  ozaki _ := ()
  dEq _ a b c d := a + b + c + d
  xEq _ a b c d := a * b * c * d
  dOz _ _ a _ _ _ _ _ _ _ := a
  xOz _ _ a _ _ _ _ _ _ _ := a

/-- A concrete object for the examples: two single particle states, 'charge' indexing, two leads. -/
theorem view_all : ∃ d, DM.init .dm 2 "charge" = .ok d ∧ VOk (d.view 2) d.labOf ∧ AllCoherences (d.view 2) d.labOf ∧
    d.statesdm = [[0], [1, 2], [3], []] ∧ d.npauli = 4 := by
  have key : (SI.init 2 "charge" >>= fun si => DM.init .dm 2 "charge" >>= fun d =>
      .ok (d.statesdm, d.npauli, si.chargelst.length, decide (d.si.indexing = .charge))) =
      .ok ([[0], [1, 2], [3], []], 4, 3, true) := by decide +kernel
  rcases h1 : SI.init 2 "charge" with e | si
  · rw [h1] at key
    exact absurd (show (Except.error e : Py (List (List Nat) × Nat × Nat × Bool)) = .ok _ from key) (by simp)
  · rcases h2 : DM.init .dm 2 "charge" with e | d
    · rw [h1, h2] at key
      exact absurd (show (Except.error e : Py (List (List Nat) × Nat × Nat × Bool)) = .ok _ from key) (by simp)
    · rw [h1, h2] at key
      simp only [py_bind_ok, Except.ok.injEq, Prod.mk.injEq, decide_eq_true_iff] at key
      obtain ⟨k1, k2, k4, k5⟩ := key
      have hx : d.si.indexing ≠ .ssq := by rw [k5]; decide
      have hz : d.si.indexing ≠ .sz := by rw [k5]; decide
      exact ⟨d, rfl, view_ok (Reach.init h1 h2) hx k4, all_coherences (Reach.init h1 h2) hx hz k4, k1, k2⟩

/-- Input for the examples: leads of different temperature, complex amplitudes. -/
def in0 (v : View) : In where
  v := v
  E b := b
  nmany := 4
  L := ⟨fun l => l, fun l => l + 1, fun _ => -60, fun _ => 60,
    fun _ b c => if b = c then 0 else if b < c then Complex.I else -Complex.I, 2, 10000⟩
  tl _ _ := 1
  nsingle := 2
  lib := lib0
  poles := some ()

/-- All hypotheses of the theorems for C28 hold for a system with off-diagonal corrections, leads of different
temperature, complex amplitudes and a density matrix different from zero. -/
example : ∃ (s : In) (la : Lab) (fct : Nat → Nat → ℝ × ℝ) (LN φ : Vec) (st : St) (cur : Currents), VOk s.v la ∧
    s.v.nleads = 2 ∧ s.L.T 0 ≠ s.L.T 1 ∧ (s.L.Tba 0 0 1).im ≠ 0 ∧
    genKern s fct true (fresh s.v true) = .ok st ∧ genCurrent s LN st.acc φ = .ok cur ∧
    (∃ i < s.v.npauli, φ.val i ≠ 0) ∧
    ∀ i < s.v.npauli, i ≠ 0 → ∑ j ∈ range s.v.npauli, st.kern.val i j * φ.val j = 0 := by
  obtain ⟨d, _, hv, ha, _, hp⟩ := view_all
  have hp' : (in0 (d.view 2)).v.npauli = 4 := hp
  obtain ⟨st, hst⟩ := genKern_some (s := in0 (d.view 2)) hv (Or.inl rfl) (fun _ _ => (1, 2)) true true (fun _ => ha)
  obtain ⟨φ, h1, h2⟩ := c28_state (s := in0 (d.view 2)) hv hst (by omega)
  obtain ⟨S⟩ := genKern_steps hst
  obtain ⟨cur, hc⟩ := genCurrent_some (s := in0 (d.view 2)) (LN := ⟨4, fun i => i⟩) (φ := ⟨4, φ⟩) S.sh hp'.symm hp'.symm
    hp'.symm
  refine ⟨in0 (d.view 2), d.labOf, _, _, _, st, cur, hv, rfl, ?_, ?_, hst, hc, h1, fun i hi _ => h2 i hi⟩
  · simp [in0]
  · simp [in0]

end RTD

end

end Verif
