import Verif.Props.View
import Verif.Spec.LabelsC

/-! Objects of class `StateIndexingDMc` label all ordered pairs (`VOkC`). -/

namespace Verif

/-- Labels of the elements of the density matrix. -/
def DM.lab0 (d : DM) (c b bp : Nat) : Nat := (okD (-1) (d.getIndDm0 b bp c)).toNat

/-- Labels of the first order elements. -/
def DM.lab1 (d : DM) (q c b : Nat) : Nat := okD 0 (d.getIndDm1 c b q)

/-- Objects of class `StateIndexingDMc` with 'Lin' or 'charge' indexing, after any history in which the argument of
`set_statesdm` has no states beyond the lists of the charges. -/
theorem view_okC' {n nleads : Nat} {indexing : String} {d : DM} {S : List (List Nat)}
    (h : Reach .dmc n indexing d S) (hix : d.si.indexing = .Lin ∨ d.si.indexing = .charge)
    (hS : ∀ c, n + 1 ≤ c → S[c]?.getD [] = []) :
    VOkC (d.view nleads) d.lab0 d.lab1 := by
  obtain ⟨hi, hk, _⟩ := h.inv
  obtain ⟨A, B, C, _⟩ := c50_dmc_labels h hix
  have hssq : d.si.indexing ≠ .ssq := by rcases hix with h | h <;> rw [h] <;> simp
  have L := (hi.lab hssq).dmc hk
  have hg := hi.good
  have hd := hi.dict
  have hz := hi.sizes
  have hnc := hi.shape.ncharge
  have hsdm := hi.sdm
  have hrow : ∀ c, (d.view nleads).row c = rowOf S c := by
    intro c
    simp only [View.row, DM.view, hsdm, rowOf]
    rcases Nat.lt_trichotomy c S.length with hc | hc | hc
    · rw [List.getElem?_append_left hc]
    · subst hc; simp
    · rw [List.getElem?_eq_none (by simp; omega), List.getElem?_eq_none (by omega)]
  have hlt : ∀ {c b}, b ∈ rowOf S c → c < n + 1 := by
    intro c b hb
    by_contra hc
    rw [rowOf, hS c (by omega)] at hb
    simp at hb
  have hcon : ∀ {c b}, b ∈ (d.view nleads).row c → Considered n S c b := by
    intro c b hb
    rw [hrow] at hb
    exact ⟨by have := hlt hb; omega, hb⟩
  have key : ∀ c b bp, b ∈ (d.view nleads).row c → bp ∈ (d.view nleads).row c →
      d.getIndDm0 b bp c = .ok (d.lab0 c b bp : Int) ∧ d.lab0 c b bp < d.ndm0 ∧ (d.lab0 c b bp < d.npauli ↔ b = bp) := by
    intro c b bp hb hbp
    obtain ⟨k, k1, k2, k3, _⟩ := A c b bp (hcon hb) (hcon hbp)
    have : d.lab0 c b bp = k := by simp [DM.lab0, k1, okD]
    rw [this]
    exact ⟨k1, k2, k3⟩
  constructor
  · have := hg.len
    simp only [DM.view, hsdm, hnc, List.length_append, List.length_singleton]
    omega
  · intro c hc
    rw [hrow, rowOf]
    exact hS c (by simpa [DM.view, hnc] using hc)
  · intro c; rw [hrow]
    by_cases hc : c < n + 1
    · exact hg.nodup c hc
    · rw [rowOf, hS c (by omega)]; simp
  · intro c c' b hb hb'
    rw [hrow] at hb hb'
    by_contra hne
    exact hg.disj c c' (hlt hb) (hlt hb') hne b hb hb'
  · intro c b bp hb hbp
    exact (key c b bp hb hbp).1
  · intro c b bp hb hbp
    exact (key c b bp hb hbp).2.1
  · intro c b bp hb hbp
    exact (key c b bp hb hbp).2.2
  · intro c b bp c' b' bp' hb hbp hb' hbp' e
    refine B c b bp c' b' bp' (hcon hb) (hcon hbp) (hcon hb') (hcon hbp') ?_
    rw [(key c b bp hb hbp).1, (key c' b' bp' hb' hbp').1, e]
  · intro k hk
    obtain ⟨c, b, bp, h1, h2, h3⟩ := C k hk
    refine ⟨c, b, bp, by rw [hrow]; exact h1.2, by rw [hrow]; exact h2.2, ?_⟩
    simp [DM.lab0, h3, okD]
  · exact L.le
  · intro q c b hc hb
    rw [hrow] at hc hb
    simp only [DM.view, DM.lab1]
    rw [hd.ind1 (hlt hc) hb hc]; rfl
  · intro q c b hc hb
    rw [hrow] at hc hb
    simp only [DM.view, DM.lab1]
    rw [hd.ind1 (hlt hc) hb hc, hz.ndm1, hz.ndm1_]
    exact pos1_lt (by have := hlt hc; omega) hb hc
  · intro q c b q' c' b' hc hb hc' hb' e
    rw [hrow] at hc hb hc' hb'
    simp only [DM.lab1] at e
    rw [hd.ind1 (hlt hc) hb hc, hd.ind1 (hlt hc') hb' hc'] at e
    exact pos1_inj hb hc hb' hc' e

/-- The usual case: exactly one list per charge. -/
theorem view_okC {n nleads : Nat} {indexing : String} {d : DM} {S : List (List Nat)}
    (h : Reach .dmc n indexing d S) (hix : d.si.indexing = .Lin ∨ d.si.indexing = .charge) (hS : S.length = n + 1) :
    VOkC (d.view nleads) d.lab0 d.lab1 :=
  view_okC' h hix fun c hc => by rw [List.getElem?_eq_none (by omega)]; rfl

/-- A concrete object: two single particle states, 'charge' indexing, `nleads` leads. Its density matrix has four populations
and two coherences. -/
theorem viewC_example (nleads : Nat) : ∃ d, DM.init .dmc 2 "charge" = .ok d ∧ VOkC (d.view nleads) d.lab0 d.lab1 ∧
    d.statesdm = [[0], [1, 2], [3], []] ∧ d.npauli = 4 ∧ d.ndm0 = 6 := by
  have key : (SI.init 2 "charge" >>= fun si => DM.init .dmc 2 "charge" >>= fun d =>
      .ok (d.statesdm, d.npauli, d.ndm0, si.chargelst.length, decide (d.si.indexing = .charge))) =
      .ok ([[0], [1, 2], [3], []], 4, 6, 3, true) := by decide +kernel
  rcases h1 : SI.init 2 "charge" with e | si
  · rw [h1] at key
    exact absurd (show (Except.error e : Py (List (List Nat) × Nat × Nat × Nat × Bool)) = .ok _ from key) (by simp)
  · rcases h2 : DM.init .dmc 2 "charge" with e | d
    · rw [h1, h2] at key
      exact absurd (show (Except.error e : Py (List (List Nat) × Nat × Nat × Nat × Bool)) = .ok _ from key)
        (by simp)
    · rw [h1, h2] at key
      simp only [py_bind_ok, Except.ok.injEq, Prod.mk.injEq, decide_eq_true_iff] at key
      obtain ⟨k1, k2, k3, k4, k5⟩ := key
      exact ⟨d, rfl, view_okC (Reach.init h1 h2) (Or.inr k5) k4, k1, k2, k3⟩

/-- The same for one single particle state. -/
theorem viewC_example1 (nleads : Nat) : ∃ d, DM.init .dmc 1 "charge" = .ok d ∧ VOkC (d.view nleads) d.lab0 d.lab1 ∧
    d.statesdm = [[0], [1], []] ∧ d.npauli = 2 ∧ d.ndm0 = 2 ∧ d.si.ncharge = 2 ∧ d.ndm1 = 1 := by
  have key : (SI.init 1 "charge" >>= fun si => DM.init .dmc 1 "charge" >>= fun d =>
      .ok (d.statesdm, d.npauli, d.ndm0, [d.si.ncharge, d.ndm1], si.chargelst.length, decide (d.si.indexing = .charge))) =
      .ok ([[0], [1], []], 2, 2, [2, 1], 2, true) := by decide +kernel
  rcases h1 : SI.init 1 "charge" with e | si
  · rw [h1] at key
    exact absurd (show (Except.error e : Py (List (List Nat) × Nat × Nat × List Nat × Nat × Bool)) = .ok _ from key) (by simp)
  · rcases h2 : DM.init .dmc 1 "charge" with e | d
    · rw [h1, h2] at key
      exact absurd (show (Except.error e : Py (List (List Nat) × Nat × Nat × List Nat × Nat × Bool)) = .ok _ from key)
        (by simp)
    · rw [h1, h2] at key
      simp only [py_bind_ok, Except.ok.injEq, Prod.mk.injEq, decide_eq_true_iff] at key
      obtain ⟨k1, k2, k3, k6, k4, k5⟩ := key
      exact ⟨d, rfl, view_okC (Reach.init h1 h2) (Or.inr k5) k4, k1, k2, k3, by simpa using k6⟩

end Verif
