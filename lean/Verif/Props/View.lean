import Verif.Props.DM
import Verif.Spec.Labels

/-! Objects of class `StateIndexingDM` label a density matrix (`VOk`). -/

namespace Verif

/-- Answer of `get_ind_dm0` as a number. -/
def okD {α : Type} (d : α) : Py α → α
  | .ok a => a
  | .error _ => d

/-- The names of the answers of an object. -/
def DM.labOf (d : DM) : Lab where
  inc c b bp := okD (-1) (d.getIndDm0 b bp c) != -1
  can c b bp := okD false (d.getConjDm0 b bp c)
  lab c b bp := (okD (-1) (d.getIndDm0 b bp c)).toNat
  ix1 q c b := okD 0 (d.getIndDm1 c b q)

/-- An object of class `StateIndexingDM` whose arrays are right labels a density matrix. -/
theorem vok_of {m N nleads : Nat} {d : DM} {S : List (List Nat)} {incl : Nat → Nat → Bool}
    (hg : GoodStates m N S) (hd : DictOk m N S d) (L : LabDM m S incl d) (hz : Sizes m S d)
    (hsym : ∀ b bp, incl b bp = incl bp b) (hnc : d.si.ncharge = m) (hsdm : d.statesdm = S ++ [[]])
    (hS : ∀ c, m ≤ c → S[c]?.getD [] = []) : VOk (d.view nleads) d.labOf := by
  have hrow : ∀ c, (d.view nleads).row c = rowOf S c := by
    intro c
    simp only [View.row, DM.view, hsdm, rowOf]
    rcases Nat.lt_trichotomy c S.length with hc | hc | hc
    · rw [List.getElem?_append_left hc]
    · subst hc; simp
    · rw [List.getElem?_eq_none (by simp; omega), List.getElem?_eq_none (by omega)]
  have hlt : ∀ {c b}, b ∈ rowOf S c → c < m := by
    intro c b hb
    by_contra hc
    rw [rowOf, hS c (by omega)] at hb
    simp at hb
  have hind : ∀ {c b bp k}, d.getIndDm0 b bp c = .ok (k : Int) →
      okD (-1) (d.getIndDm0 b bp c) = k := by
    intro c b bp k e; rw [e]; rfl
  -- the answers, case by case
  have cs : ∀ {c b bp}, b ∈ rowOf S c → bp ∈ rowOf S c →
      (b = bp ∧ d.getIndDm0 b bp c = .ok (posP S c b : Int) ∧ d.getBoolDm0 b bp c = .ok true ∧
        d.getConjDm0 b bp c = .ok true ∧ posP S c b < d.npauli) ∨
      (b ≠ bp ∧ incl b bp = true ∧ ∃ (k : Nat) (x : Bool), d.npauli ≤ k ∧ k < d.ndm0 ∧
        d.getIndDm0 b bp c = .ok (k : Int) ∧ d.getIndDm0 bp b c = .ok (k : Int) ∧
        d.getBoolDm0 b bp c = .ok x ∧ d.getConjDm0 b bp c = .ok x ∧
        d.getConjDm0 bp b c = .ok (!x)) ∨
      (b ≠ bp ∧ incl b bp = false ∧ d.getIndDm0 b bp c = .ok (-1) ∧
        d.getIndDm0 bp b c = .ok (-1) ∧
        d.getBoolDm0 b bp c = .ok false ∧ d.getConjDm0 b bp c = .ok false) := by
    intro c b bp hb hbp
    by_cases e : b = bp
    · subst e
      obtain ⟨a1, a2, a3, _⟩ := L.diag c b (hlt hb) hb
      exact Or.inl ⟨rfl, a1, a2, a3, by rw [L.npauli]; exact posP_lt (hlt hb) hb⟩
    · right
      by_cases hin : incl b bp = true
      · left
        obtain ⟨k, x, a1, a2, a3, a4, a5, _, a7, a8, _⟩ := L.off c b bp (hlt hb) hb hbp e hin
        exact ⟨e, hin, k, x, a1, a2, a3, a4, a5, a7, a8⟩
      · right
        have hin' : incl b bp = false := by simpa using hin
        obtain ⟨a1, a2, a3⟩ := L.excl c b bp (hlt hb) hb hbp e hin'
        obtain ⟨b1, _, _⟩ := L.excl c bp b (hlt hb) hbp hb (Ne.symm e)
          (by rw [← hsym]; exact hin')
        exact ⟨e, hin', a1, b1, a2, a3⟩
  refine VOk.intro ?_ ?_ ?_ ?_ ?_ ?_ ?_ ?_ ?_ ?_ ?_ ?_ ?_ ?_ ?_ ?_ ?_ ?_ ?_ ?_ ?_ ?_
  · have := hg.len
    simp only [DM.view, hsdm, hnc, List.length_append, List.length_singleton]
    omega
  · intro c hc
    rw [hrow, rowOf]
    exact hS c (by simpa [DM.view, hnc] using hc)
  · intro c; rw [hrow]
    by_cases hc : c < m
    · exact hg.nodup c hc
    · rw [rowOf, hS c (by omega)]; simp
  · intro c c' b hb hb'
    rw [hrow] at hb hb'
    by_contra hne
    exact hg.disj c c' (hlt hb) (hlt hb') hne b hb hb'
  · intro c b bp hb hbp
    rw [hrow] at hb hbp
    rcases cs hb hbp with ⟨_, a, _⟩ | ⟨_, _, k, x, _, _, a, _⟩ | ⟨_, _, a, _⟩ <;>
      simp [DM.view, DM.labOf, okD, a]
  · intro c b bp hb hbp _
    rw [hrow] at hb hbp
    rcases cs hb hbp with ⟨_, a, a2, a3, _⟩ | ⟨_, _, k, x, _, _, a, _, a2, a3, _⟩ |
      ⟨_, _, a, _, a2, a3⟩ <;> simp [DM.view, DM.labOf, okD, a2, a3]
  · intro c b bp hb hbp _
    rw [hrow] at hb hbp
    rcases cs hb hbp with ⟨_, a, a2, a3, _⟩ | ⟨_, _, k, x, _, _, a, _, a2, a3, _⟩ |
      ⟨_, _, a, _, a2, a3⟩ <;> simp [DM.view, DM.labOf, okD, a3]
  · intro c b hb
    rw [hrow] at hb
    rcases cs hb hb with ⟨_, a, _⟩ | ⟨h, _⟩ | ⟨h, _⟩
    · simp [DM.labOf, a, okD]
    · exact absurd rfl h
    · exact absurd rfl h
  · intro c b bp hb hbp
    rw [hrow] at hb hbp
    simp only [DM.labOf]
    rcases cs hb hbp with ⟨e, _⟩ | ⟨_, _, k, x, _, _, a, a', _⟩ | ⟨_, _, a, a', _⟩
    · rw [e]
    · rw [a, a']
    · rw [a, a']
  · intro c b hb
    rw [hrow] at hb
    rcases cs hb hb with ⟨_, a, a2, a3, _⟩ | ⟨h, _⟩ | ⟨h, _⟩
    · simp [DM.labOf, a3, okD]
    · exact absurd rfl h
    · exact absurd rfl h
  · intro c b bp hb hbp hne hinc
    rw [hrow] at hb hbp
    simp only [DM.labOf] at hinc ⊢
    rcases cs hb hbp with ⟨e, _⟩ | ⟨_, _, k, x, _, _, a, _, _, a3, a4⟩ | ⟨_, _, a, _⟩
    · exact absurd e hne
    · rw [a3, a4]; rfl
    · rw [a] at hinc; simp [okD] at hinc
  · intro c b bp hmem hinc
    rw [hrow] at hmem
    obtain ⟨hb, hbp⟩ := combs2_mem hmem
    simp only at hb hbp
    simp only [DM.labOf] at hinc ⊢
    rcases cs hb hbp with ⟨e, _, _, a3, _⟩ | ⟨_, hin, k, x, _, _, a, _, a2, a3, a4⟩ | ⟨_, _, a, _⟩
    · rw [a3]; rfl
    · have := L.ord c b bp (hlt hb) hmem hin
      rw [a2] at this
      simp only [Except.ok.injEq] at this
      rw [a3, this]; rfl
    · rw [a] at hinc; simp [okD] at hinc
  · intro c b hb
    rw [hrow] at hb
    rcases cs hb hb with ⟨_, a, _, _, a4⟩ | ⟨h, _⟩ | ⟨h, _⟩
    · simpa [DM.labOf, a, okD, DM.view] using a4
    · exact absurd rfl h
    · exact absurd rfl h
  · intro c b bp hb hbp hne hinc
    rw [hrow] at hb hbp
    simp only [DM.labOf, DM.view] at hinc ⊢
    rcases cs hb hbp with ⟨e, _⟩ | ⟨_, _, k, x, a1, a2, a, _⟩ | ⟨_, _, a, _⟩
    · exact absurd e hne
    · rw [a]; simpa [okD] using ⟨a1, a2⟩
    · rw [a] at hinc; simp [okD] at hinc
  · intro c b bp hb hbp hinc
    rw [hrow] at hb hbp
    simp only [DM.labOf] at hinc ⊢
    rcases cs hb hbp with ⟨e, _⟩ | ⟨_, _, k, x, a1, a2, a, a', _⟩ | ⟨_, _, a, _⟩
    · rw [e]
    · rw [a, a']
    · rw [a] at hinc; simp [okD] at hinc
  · intro c b bp c' b' bp' hb hbp hinc hb' hbp' hinc' e
    rw [hrow] at hb hbp hb' hbp'
    simp only [DM.labOf] at hinc hinc' e
    rcases cs hb hbp with ⟨e1, a, _, _, a4⟩ | ⟨hn, hin, k, x, a1, a2, a, _⟩ | ⟨_, _, a, _⟩
    · rcases cs hb' hbp' with ⟨e1', a', _⟩ | ⟨_, _, k', x', a1', a2', a', _⟩ | ⟨_, _, a', _⟩
      · rw [a, a'] at e
        simp only [okD, Int.toNat_natCast] at e
        obtain ⟨r1, r2⟩ := posP_inj hb hb' e
        exact ⟨r1, Or.inl ⟨r2, by rw [← e1, ← e1', r2]⟩⟩
      · rw [a, a'] at e
        simp only [okD, Int.toNat_natCast] at e
        omega
      · rw [a'] at hinc'; simp [okD] at hinc'
    · rcases cs hb' hbp' with ⟨e1', a', _⟩ | ⟨hn', hin', k', x', a1', a2', a', _⟩ | ⟨_, _, a', _⟩
      · rw [a, a'] at e
        simp only [okD, Int.toNat_natCast] at e
        omega
      · have e2 : d.getIndDm0 b bp c = d.getIndDm0 b' bp' c' := by
          rw [a, a'] at e ⊢
          simp only [okD, Int.toNat_natCast] at e
          rw [e]
        exact L.inj c b bp c' b' bp' (hlt hb) hb hbp hn hin (hlt hb') hb' hbp' hn' hin' e2
      · rw [a'] at hinc'; simp [okD] at hinc'
    · rw [a] at hinc; simp [okD] at hinc
  · intro k hk
    simp only [DM.view] at hk
    by_cases hp : k < d.npauli
    · rw [L.npauli] at hp
      obtain ⟨c, b, h1, h2, rfl⟩ := posP_surj hg.nodup hp
      refine ⟨c, b, b, by rw [hrow]; exact h2, by rw [hrow]; exact h2, ?_, ?_⟩
      · simp [DM.labOf, (L.diag c b h1 h2).1, okD]
      · simp [DM.labOf, (L.diag c b h1 h2).1, okD]
    · obtain ⟨c, b, bp, a1, a2, a3, a4, a5, a6, _⟩ := L.surj k (by omega) hk
      refine ⟨c, b, bp, by rw [hrow]; exact a2, by rw [hrow]; exact a3, ?_, ?_⟩
      · simp [DM.labOf, a6, okD]
      · simp [DM.labOf, a6, okD]
  · exact L.le
  · simp only [DM.view]; rw [L.ndm0r]; have := L.le; omega
  · intro q c b hc hb
    rw [hrow] at hc hb
    simp only [DM.view, DM.labOf]
    rw [hd.ind1 (hlt hc) hb hc]; rfl
  · intro q c b hc hb
    rw [hrow] at hc hb
    simp only [DM.view, DM.labOf]
    rw [hd.ind1 (hlt hc) hb hc, hz.ndm1, hz.ndm1_]
    exact pos1_lt (by have := hlt hc; omega) hb hc
  · intro q c b q' c' b' hc hb hc' hb' e
    rw [hrow] at hc hb hc' hb'
    simp only [DM.labOf] at e
    rw [hd.ind1 (hlt hc) hb hc, hd.ind1 (hlt hc') hb' hc'] at e
    exact pos1_inj hb hc hb' hc' e

/-- Every object of class `StateIndexingDM` with 'Lin', 'charge' or 'sz' indexing labels a
density matrix, after any history in which the argument of `set_statesdm` has no states beyond
the lists of the charges. -/
theorem view_ok' {n nleads : Nat} {indexing : String} {d : DM} {S : List (List Nat)}
    (h : Reach .dm n indexing d S) (hix : d.si.indexing ≠ .ssq)
    (hS : ∀ c, n + 1 ≤ c → S[c]?.getD [] = []) :
    VOk (d.view nleads) d.labOf := by
  obtain ⟨hi, hk, _⟩ := h.inv
  exact vok_of hi.good hi.dict ((hi.lab hix).dm hk) hi.sizes (inclOf_symm _ _) hi.shape.ncharge hi.sdm hS

/-- The usual case: exactly one list per charge. -/
theorem view_ok {n nleads : Nat} {indexing : String} {d : DM} {S : List (List Nat)}
    (h : Reach .dm n indexing d S) (hix : d.si.indexing ≠ .ssq) (hS : S.length = n + 1) :
    VOk (d.view nleads) d.labOf :=
  view_ok' h hix fun c hc => by rw [List.getElem?_eq_none (by omega)]; rfl

/-- A concrete object: two single particle states, 'charge' indexing, `nleads` leads. Its density
matrix has four populations and one coherence. -/
theorem view_example' (nleads : Nat) : ∃ d, DM.init .dm 2 "charge" = .ok d ∧ VOk (d.view nleads) d.labOf ∧
    d.statesdm = [[0], [1, 2], [3], []] ∧ d.npauli = 4 ∧ d.ndm0r = 6 := by
  have key : (SI.init 2 "charge" >>= fun si => DM.init .dm 2 "charge" >>= fun d =>
      .ok (d.statesdm, d.npauli, d.ndm0r, si.chargelst.length, decide (d.si.indexing = .ssq))) =
      .ok ([[0], [1, 2], [3], []], 4, 6, 3, false) := by decide +kernel
  rcases h1 : SI.init 2 "charge" with e | si
  · rw [h1] at key
    exact absurd (show (Except.error e : Py (List (List Nat) × Nat × Nat × Nat × Bool)) = .ok _ from key) (by simp)
  · rcases h2 : DM.init .dm 2 "charge" with e | d
    · rw [h1, h2] at key
      exact absurd (show (Except.error e : Py (List (List Nat) × Nat × Nat × Nat × Bool)) = .ok _ from key)
        (by simp)
    · rw [h1, h2] at key
      simp only [py_bind_ok, Except.ok.injEq, Prod.mk.injEq, decide_eq_false_iff_not] at key
      obtain ⟨k1, k2, k3, k4, k5⟩ := key
      exact ⟨d, rfl, view_ok (Reach.init h1 h2) k5 k4, k1, k2, k3⟩

/-- The same with two leads. -/
theorem view_example : ∃ d, DM.init .dm 2 "charge" = .ok d ∧ VOk (d.view 2) d.labOf ∧
    d.statesdm = [[0], [1, 2], [3], []] ∧ d.npauli = 4 ∧ d.ndm0r = 6 := view_example' 2

end Verif
