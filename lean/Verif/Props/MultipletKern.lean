import Verif.Props.Multiplets
import Verif.Props.View
import Verif.Lemmas.MultipletKern

/-! With 'ssq' indexing: one equation per multiplet. -/

namespace Verif

/-- The element whose equation is set up. -/
def DM.uniOf (d : DM) (c b bp : Nat) : Bool := okD false (d.getBoolDm0 b bp c)

/-- An object of class `StateIndexingDM` with the labels of multiplets. -/
theorem vrep_of {m N nleads : Nat} {d : DM} {S : List (List Nat)} {Z Q A : Nat → Int}
    (hg : GoodStates m N S) (hd : DictOk m N S d) (L : LabS m S Z Q A d) (hz : Sizes m S d)
    (hnc : d.si.ncharge = m) (hsdm : d.statesdm = S ++ [[]])
    (hS : ∀ c, m ≤ c → S[c]?.getD [] = [])
    (inj : ∀ c, c < m → ∀ b ∈ rowOf S c, ∀ b' ∈ rowOf S c, Z b = Z b' → Q b = Q b' → A b = A b' →
      b = b') : VRep (d.view nleads) d.labOf d.uniOf := by
  have hrow : ∀ c, (d.view nleads).row c = rowOf S c := by
    intro c
    simp only [View.row, DM.view, hsdm, rowOf]
    rcases Nat.lt_trichotomy c S.length with hc | hc | hc
    · rw [List.getElem?_append_left hc]
    · subst hc; simp
    · rw [List.getElem?_eq_none (by simp; omega), List.getElem?_eq_none (by omega)]
  have hlt : ∀ {c b}, b ∈ rowOf S c → c < m := by
    intro c b hb
    by_contra hc
    rw [rowOf, hS c (by omega)] at hb
    simp at hb
  -- the answers, case by case
  have cs : ∀ {c b bp}, b ∈ rowOf S c → bp ∈ rowOf S c →
      (b = bp ∧ ∃ k : Nat, k < d.npauli ∧ d.getIndDm0 b bp c = .ok (k : Int) ∧
        d.getBoolDm0 b bp c = .ok (decide (Z b = -Q b)) ∧ d.getConjDm0 b bp c = .ok true) ∨
      (b ≠ bp ∧ (Z b = Z bp ∧ Q b = Q bp) ∧ ∃ (k : Nat) (x : Bool), d.npauli ≤ k ∧ k < d.ndm0 ∧
        d.getIndDm0 b bp c = .ok (k : Int) ∧ d.getIndDm0 bp b c = .ok (k : Int) ∧
        d.getBoolDm0 b bp c = .ok (x && decide (Z b = -Q b)) ∧ d.getConjDm0 b bp c = .ok x ∧
        d.getConjDm0 bp b c = .ok (!x)) ∨
      (b ≠ bp ∧ d.getIndDm0 b bp c = .ok (-1) ∧ d.getIndDm0 bp b c = .ok (-1) ∧
        d.getBoolDm0 b bp c = .ok false ∧ d.getConjDm0 b bp c = .ok false) := by
    intro c b bp hb hbp
    by_cases e : b = bp
    · subst e
      obtain ⟨k, a1, a2, a3, a4⟩ := L.diag c b (hlt hb) hb
      exact Or.inl ⟨rfl, k, a1, a2, a3, a4⟩
    · right
      by_cases hin : Z b = Z bp ∧ Q b = Q bp
      · left
        obtain ⟨k, x, a1, a2, a3, a4, a5, a6, a7, a8⟩ := L.off c b bp (hlt hb) hb hbp e hin.1 hin.2
        exact ⟨e, hin, k, x, a1, a2, a3, a4, a7, a5, a6⟩
      · right
        obtain ⟨a1, a2, a3⟩ := L.excl c b bp (hlt hb) hb hbp e hin
        obtain ⟨b1, _, _⟩ := L.excl c bp b (hlt hb) hbp hb (Ne.symm e)
          (fun h => hin ⟨h.1.symm, h.2.symm⟩)
        exact ⟨e, a1, b1, a2, a3⟩
  refine { len := ?_, last := ?_, nodup := ?_, disj := ?_, ind0 := ?_, conj0 := ?_, inc_diag := ?_,
           inc_symm := ?_, can_diag := ?_, can_off := ?_, lab_diag := ?_, lab_off := ?_,
           lab_symm := ?_, np_le := ?_, ndm0r := ?_, ind1 := ?_, ix1_lt := ?_, ix1_inj := ?_,
           bool0 := ?_, uni_can := ?_, uni_ord := ?_, uni_inj := ?_, uni_surj := ?_ }
  · have := hg.len
    simp only [DM.view, hsdm, hnc, List.length_append, List.length_singleton]
    omega
  · intro c hc
    rw [hrow, rowOf]
    exact hS c (by simpa [DM.view, hnc] using hc)
  · intro c; rw [hrow]
    by_cases hc : c < m
    · exact hg.nodup c hc
    · rw [rowOf, hS c (by omega)]; simp
  · intro c c' b hb hb'
    rw [hrow] at hb hb'
    by_contra hne
    exact hg.disj c c' (hlt hb) (hlt hb') hne b hb hb'
  · intro c b bp hb hbp
    rw [hrow] at hb hbp
    rcases cs hb hbp with ⟨_, k, _, a, _⟩ | ⟨_, _, k, x, _, _, a, _⟩ | ⟨_, a, _⟩ <;>
      simp [DM.view, DM.labOf, okD, a]
  · intro c b bp hb hbp _
    rw [hrow] at hb hbp
    rcases cs hb hbp with ⟨_, k, _, _, _, a⟩ | ⟨_, _, k, x, _, _, _, _, _, a, _⟩ | ⟨_, _, _, _, a⟩ <;>
      simp [DM.view, DM.labOf, okD, a]
  · intro c b hb
    rw [hrow] at hb
    rcases cs hb hb with ⟨_, k, _, a, _⟩ | ⟨h, _⟩ | ⟨h, _⟩
    · simp [DM.labOf, a, okD]
    · exact absurd rfl h
    · exact absurd rfl h
  · intro c b bp hb hbp
    rw [hrow] at hb hbp
    simp only [DM.labOf]
    rcases cs hb hbp with ⟨e, _⟩ | ⟨_, _, k, x, _, _, a, a', _⟩ | ⟨_, a, a', _⟩
    · rw [e]
    · rw [a, a']
    · rw [a, a']
  · intro c b hb
    rw [hrow] at hb
    rcases cs hb hb with ⟨_, k, _, _, _, a⟩ | ⟨h, _⟩ | ⟨h, _⟩
    · simp [DM.labOf, a, okD]
    · exact absurd rfl h
    · exact absurd rfl h
  · intro c b bp hb hbp hne hinc
    rw [hrow] at hb hbp
    simp only [DM.labOf] at hinc ⊢
    rcases cs hb hbp with ⟨e, _⟩ | ⟨_, _, k, x, _, _, a, _, _, a3, a4⟩ | ⟨_, a, _⟩
    · exact absurd e hne
    · rw [a3, a4]; rfl
    · rw [a] at hinc; simp [okD] at hinc
  · intro c b hb
    rw [hrow] at hb
    rcases cs hb hb with ⟨_, k, a4, a, _⟩ | ⟨h, _⟩ | ⟨h, _⟩
    · simpa [DM.labOf, a, okD, DM.view] using a4
    · exact absurd rfl h
    · exact absurd rfl h
  · intro c b bp hb hbp hne hinc
    rw [hrow] at hb hbp
    simp only [DM.labOf, DM.view] at hinc ⊢
    rcases cs hb hbp with ⟨e, _⟩ | ⟨_, _, k, x, a1, a2, a, _⟩ | ⟨_, a, _⟩
    · exact absurd e hne
    · rw [a]; simpa [okD] using ⟨a1, a2⟩
    · rw [a] at hinc; simp [okD] at hinc
  · intro c b bp hb hbp hinc
    rw [hrow] at hb hbp
    simp only [DM.labOf] at hinc ⊢
    rcases cs hb hbp with ⟨e, _⟩ | ⟨_, _, k, x, a1, a2, a, a', _⟩ | ⟨_, a, _⟩
    · rw [e]
    · rw [a, a']
    · rw [a] at hinc; simp [okD] at hinc
  · exact L.le
  · simp only [DM.view]; rw [L.ndm0r]; have := L.le; omega
  · intro q c b hc hb
    rw [hrow] at hc hb
    simp only [DM.view, DM.labOf]
    rw [hd.ind1 (hlt hc) hb hc]; rfl
  · intro q c b hc hb
    rw [hrow] at hc hb
    simp only [DM.view, DM.labOf]
    rw [hd.ind1 (hlt hc) hb hc, hz.ndm1, hz.ndm1_]
    exact pos1_lt (by have := hlt hc; omega) hb hc
  · intro q c b q' c' b' hc hb hc' hb' e
    rw [hrow] at hc hb hc' hb'
    simp only [DM.labOf] at e
    rw [hd.ind1 (hlt hc) hb hc, hd.ind1 (hlt hc') hb' hc'] at e
    exact pos1_inj hb hc hb' hc' e
  · intro c b bp hb hbp _
    rw [hrow] at hb hbp
    rcases cs hb hbp with ⟨_, k, _, _, a, _⟩ | ⟨_, _, k, x, _, _, _, _, a, _⟩ | ⟨_, _, _, a, _⟩ <;>
      simp [DM.view, DM.uniOf, okD, a]
  · intro c b bp hb hbp hinc hu
    rw [hrow] at hb hbp
    simp only [DM.labOf, DM.uniOf] at hinc hu ⊢
    rcases cs hb hbp with ⟨_, k, _, _, a, a'⟩ | ⟨_, _, k, x, _, _, _, _, a, a', _⟩ | ⟨_, _, _, a, _⟩
    · rw [a']; rfl
    · rw [a] at hu; rw [a']
      simp only [okD, Bool.and_eq_true] at hu
      exact hu.1
    · rw [a] at hu; cases hu
  · intro c b bp hb hbp hne hinc hu
    rw [hrow] at hb hbp ⊢
    simp only [DM.labOf, DM.uniOf] at hinc hu
    rcases cs hb hbp with ⟨e, _⟩ | ⟨_, hq, k, x, _, _, _, _, a, a', a''⟩ | ⟨_, _, _, a, _⟩
    · exact absurd e hne
    · rw [a] at hu
      simp only [okD, Bool.and_eq_true, decide_eq_true_eq] at hu
      rcases combs2_complete hb hbp hne with hm | hm
      · exact hm
      · have := L.ord c bp b (hlt hb) hm (by rw [← hq.1, ← hq.2]; exact hu.2) hq.1.symm hq.2.symm
        rw [a''] at this
        simp [hu.1] at this
    · rw [a] at hu; cases hu
  · intro c b bp c' b' bp' hb hbp hinc hb' hbp' hinc' hu hu' e
    rw [hrow] at hb hbp hb' hbp'
    simp only [DM.labOf, DM.uniOf] at hinc hinc' hu hu' e
    rcases cs hb hbp with ⟨e1, k, a0, a, a2, _⟩ | ⟨hn, hq, k, x, a0, _, a, _, a2, a3, _⟩ | ⟨_, a, _⟩
    · rcases cs hb' hbp' with ⟨e1', k', _, a', a2', _⟩ | ⟨_, _, k', x', _, _, a', _⟩ | ⟨_, a', _⟩
      · rw [a, a'] at e
        rw [a2] at hu
        rw [a2'] at hu'
        simp only [okD, Int.toNat_natCast, decide_eq_true_eq] at e hu hu'
        subst e1; subst e1'
        have e2 : d.getIndDm0 b b c = d.getIndDm0 b' b' c' := by rw [a, a', e]
        obtain ⟨rfl, h1, h2⟩ := (L.diag_iff c b c' b' (hlt hb) hb (hlt hb') hb').1 e2
        have := inj c (hlt hb) b hb b' hb' (by rw [hu, hu', h1]) h1 h2
        exact ⟨rfl, this, this⟩
      · rw [a, a'] at e
        simp only [okD, Int.toNat_natCast] at e
        omega
      · rw [a'] at hinc'; simp [okD] at hinc'
    · rcases cs hb' hbp' with ⟨e1', k', _, a', _⟩ | ⟨hn', hq', k', x', _, _, a', _, a2', a3', a4'⟩ |
        ⟨_, a', _⟩
      · rw [a, a'] at e
        simp only [okD, Int.toNat_natCast] at e
        omega
      · rw [a, a'] at e
        rw [a2] at hu
        rw [a2'] at hu'
        simp only [okD, Int.toNat_natCast, decide_eq_true_eq, Bool.and_eq_true] at e hu hu'
        have e2 : d.getIndDm0 b bp c = d.getIndDm0 b' bp' c' := by rw [a, a', e]
        obtain ⟨rfl, h1, h2⟩ := (L.off_iff c b bp c' b' bp' (hlt hb) hb hbp hn hq.1 hq.2 (hlt hb') hb'
          hbp' hn' hq'.1 hq'.2).1 e2
        rcases h2 with ⟨h2, h3⟩ | ⟨h2, h3⟩
        · exact ⟨rfl, inj c (hlt hb) b hb b' hb' (by rw [hu.2, hu'.2, h1]) h1 h2,
            inj c (hlt hb) bp hbp bp' hbp' (by rw [← hq.1, ← hq'.1, hu.2, hu'.2, h1])
              (by rw [← hq.2, ← hq'.2, h1]) h3⟩
        · have := L.off_conj c b bp bp' b' (hlt hb) hb hbp hn hq.1 hq.2 hbp' hb' hq'.1.symm
            (by rw [h1, hq'.2]) h1 h2 h3
          rw [a3, a4'] at this
          simp [hu.1, hu'.1] at this
      · rw [a'] at hinc'; simp [okD] at hinc'
    · rw [a] at hinc; simp [okD] at hinc
  · intro k hk
    simp only [DM.view] at hk
    by_cases hp : k < d.npauli
    · obtain ⟨c, b, h1, h2, h3, h4⟩ := L.surjD k hp
      refine ⟨c, b, b, by rw [hrow]; exact h2, by rw [hrow]; exact h2, ?_, ?_, ?_⟩
      · simp [DM.labOf, h4, okD]
      · obtain ⟨_, _, _, a, _⟩ := L.diag c b h1 h2
        simp [DM.uniOf, a, okD, h3]
      · simp [DM.labOf, h4, okD]
    · obtain ⟨c, b, bp, h1, h2, h3, h4, h5, h6⟩ := L.surjO k (by omega) hk
      have hm := combs2_mem h2
      refine ⟨c, b, bp, by rw [hrow]; exact hm.1, by rw [hrow]; exact hm.2, ?_, ?_, ?_⟩
      · simp [DM.labOf, h6, okD]
      · obtain ⟨_, x, _, _, _, _, a, _, a', _⟩ := L.off c b bp h1 hm.1 hm.2
          (combs2_ne (hg.nodup c h1) h2) h4 h5
        have := L.ord c b bp h1 h2 h3 h4 h5
        rw [a] at this
        simp only [Except.ok.injEq] at this
        simp [DM.uniOf, a', okD, h3, this]
      · simp [DM.labOf, h6, okD]

/-- The same with complete multiplets. -/
theorem multLab_of {m N nleads : Nat} {d : DM} {S : List (List Nat)} {Z Q A : Nat → Int}
    (hg : GoodStates m N S) (hd : DictOk m N S d) (L : LabS m S Z Q A d) (hz : Sizes m S d)
    (hnc : d.si.ncharge = m) (hsdm : d.statesdm = S ++ [[]])
    (hS : ∀ c, m ≤ c → S[c]?.getD [] = [])
    (inj : ∀ c, c < m → ∀ b ∈ rowOf S c, ∀ b' ∈ rowOf S c, Z b = Z b' → Q b = Q b' → A b = A b' →
      b = b')
    (rng : ∀ c, c < m → ∀ b ∈ rowOf S c, Proj (Q b) (Z b))
    (full : ∀ c, c < m → ∀ b ∈ rowOf S c, ∀ z, Proj (Q b) z → ∃ b' ∈ rowOf S c, Z b' = z ∧ Q b' = Q b ∧ A b' = A b) :
    MultLab (d.view nleads) d.labOf d.uniOf Z Q A := by
  have hrow : ∀ c, (d.view nleads).row c = rowOf S c := by
    intro c
    simp only [View.row, DM.view, hsdm, rowOf]
    rcases Nat.lt_trichotomy c S.length with hc | hc | hc
    · rw [List.getElem?_append_left hc]
    · subst hc; simp
    · rw [List.getElem?_eq_none (by simp; omega), List.getElem?_eq_none (by omega)]
  have hlt : ∀ {c b}, b ∈ rowOf S c → c < m := by
    intro c b hb
    by_contra hc
    rw [rowOf, hS c (by omega)] at hb
    simp at hb
  refine { vrep_of (nleads := nleads) hg hd L hz hnc hsdm hS inj with
           rng := ?_, full := ?_, inj := ?_, inc := ?_, same_lab := ?_, uni_low := ?_ }
  · intro c b hb
    rw [hrow] at hb
    exact rng c (hlt hb) b hb
  · intro c b hb z h1 h2 h3
    rw [hrow] at hb ⊢
    exact full c (hlt hb) b hb z ⟨h1, h2, h3⟩
  · intro c b hb b' hb'
    rw [hrow] at hb hb'
    exact inj c (hlt hb) b hb b' hb'
  · intro c b hb bp hbp
    rw [hrow] at hb hbp
    simp only [DM.labOf]
    by_cases e : b = bp
    · subst e
      obtain ⟨k, _, a, _⟩ := L.diag c b (hlt hb) hb
      rw [a]; simp [okD]
    · by_cases hin : Z b = Z bp ∧ Q b = Q bp
      · obtain ⟨k, x, _, _, a, _⟩ := L.off c b bp (hlt hb) hb hbp e hin.1 hin.2
        rw [a]; simp [okD, hin]
      · obtain ⟨a, _⟩ := L.excl c b bp (hlt hb) hb hbp e hin
        rw [a]; simp [okD, hin]
  · intro c b hb bp hbp b' hb' bp' hbp' h1 h2 h3 h4 h5 h6 h7
    rw [hrow] at hb hbp hb' hbp'
    have hc := hlt hb
    simp only [DM.labOf]
    by_cases e : b = bp
    · subst e
      obtain rfl : b' = bp' := inj c hc b' hb' bp' hbp' h3 (by omega) (by omega)
      rw [(L.diag_iff c b c b' hc hb hc hb').2 ⟨rfl, h4, h5⟩]
      obtain ⟨_, _, _, _, a⟩ := L.diag c b hc hb
      obtain ⟨_, _, _, _, a'⟩ := L.diag c b' hc hb'
      rw [a, a']
      exact ⟨rfl, rfl⟩
    · have e' : b' ≠ bp' := by
        rintro rfl
        exact e (inj c hc b hb bp hbp h1 h2 (by omega))
      rw [(L.off_iff c b bp c b' bp' hc hb hbp e h1 h2 hc hb' hbp' e' h3 (by omega)).2
        ⟨rfl, h4, Or.inl ⟨h5, h7⟩⟩,
        L.off_conj c b bp b' bp' hc hb hbp e h1 h2 hb' hbp' h3 h4 (by omega) h5 h7]
      exact ⟨rfl, rfl⟩
  · intro c b hb bp hbp hi
    rw [hrow] at hb hbp
    simp only [DM.labOf, DM.uniOf] at hi ⊢
    by_cases e : b = bp
    · subst e
      obtain ⟨_, _, _, a, a'⟩ := L.diag c b (hlt hb) hb
      rw [a, a']; simp [okD]
    · by_cases hin : Z b = Z bp ∧ Q b = Q bp
      · obtain ⟨k, x, _, _, _, _, a, _, a', _⟩ := L.off c b bp (hlt hb) hb hbp e hin.1 hin.2
        rw [a, a']; simp [okD]
      · obtain ⟨a, _⟩ := L.excl c b bp (hlt hb) hb hbp e hin
        rw [a] at hi; simp [okD] at hi

/-- Objects of class `StateIndexingDM` with 'ssq' indexing and complete multiplets. -/
theorem view_ssq {n nleads : Nat} {indexing : String} {d : DM} {S : List (List Nat)}
    (h : Reach .dm n indexing d S) (hix : d.si.indexing = .ssq) (hc : Complete n d.si S)
    (hS : ∀ c, n + 1 ≤ c → S[c]?.getD [] = []) :
    MultLab (d.view nleads) d.labOf d.uniOf d.si.spinZ d.si.spinS d.si.multNo := by
  obtain ⟨hi, hk, _⟩ := h.inv
  obtain ⟨k, ⟨s, hs, e⟩, _⟩ := hi.si
  have q2 : d.si.indQn = s.indQn := by rw [e]
  have q3 : s.indexing = .ssq := by rw [e] at hix; exact hix
  have cons : ∀ {c b}, c < n + 1 → b ∈ rowOf S c → Considered n S c b := fun hc hb => ⟨by omega, hb⟩
  refine multLab_of hi.good hi.dict (h.labS hix hc) hi.sizes hi.shape.ncharge hi.sdm hS ?_ ?_ ?_
  · intro c hcm b hb b' hb' h1 h2 h3
    obtain ⟨g1, _⟩ := hc c b (cons hcm hb)
    obtain ⟨g2, _⟩ := hc c b' (cons hcm hb')
    rw [q2] at g1 g2
    rw [← h1, ← h2, ← h3] at g2
    have f1 := ((dictsOk_of_inv hs).inverse _ _).2 g1
    have f2 := ((dictsOk_of_inv hs).inverse _ _).2 g2
    rw [f1] at f2
    simpa using f2
  · intro c hcm b hb
    obtain ⟨g1, _⟩ := hc c b (cons hcm hb)
    rw [q2] at g1
    obtain ⟨c', k, q, α, f1, f2, f3, f4, f5⟩ := hs.ssq_key q3 g1
    simp only [List.cons.injEq] at f4
    have hE : ssqE n c' k = min k (szW n c' - k) := rfl
    have hp := szW_parity (hs.sz (Or.inr q3)).1 f1
    unfold Proj
    omega
  · intro c hcm b hb z hz
    obtain ⟨_, g⟩ := hc c b (cons hcm hb)
    obtain ⟨b', hb', e'⟩ := g z hz
    obtain ⟨e1, e2, e3⟩ := SI.spin_of e'
    exact ⟨b', hb'.2, e1, e2, e3⟩

/-- Objects of class `StateIndexingDM` with 'Lin' or 'charge' indexing leave out nothing. -/
theorem view_all_inc {n nleads : Nat} {indexing : String} {d : DM} {S : List (List Nat)}
    (h : Reach .dm n indexing d S) (hix : d.si.indexing ≠ .ssq) (hix' : d.si.indexing ≠ .sz)
    (hS : ∀ c, n + 1 ≤ c → S[c]?.getD [] = []) {c b bp : Nat} (hb : b ∈ (d.view nleads).row c)
    (hbp : bp ∈ (d.view nleads).row c) : d.labOf.inc c b bp = true := by
  obtain ⟨hi, hk, _⟩ := h.inv
  have L := (hi.lab hix).dm hk
  have hrow : ∀ c, (d.view nleads).row c = rowOf S c := by
    intro c
    simp only [View.row, DM.view, hi.sdm, rowOf]
    rcases Nat.lt_trichotomy c S.length with hc | hc | hc
    · rw [List.getElem?_append_left hc]
    · subst hc; simp
    · rw [List.getElem?_eq_none (by simp; omega), List.getElem?_eq_none (by omega)]
  rw [hrow] at hb hbp
  have hc : c < n + 1 := by
    by_contra hc
    rw [rowOf, hS c (by omega)] at hb
    simp at hb
  simp only [DM.labOf]
  by_cases e : b = bp
  · subst e
    rw [(L.diag c b hc hb).1]; simp [okD]
  · obtain ⟨k, x, _, _, a, _⟩ := L.off c b bp hc hb hbp e (by
      unfold inclOf
      rw [if_neg hix'])
    rw [a]; simp [okD]

open Finset
open scoped ComplexConjugate
open Complex (I)

noncomputable section

/-! ### The equations in terms of the density matrix -/

theorem Coh.SL_congr {v : View} {la : Lab} (h : VMul v la) (T : TMat) {k0 k1 : KFct} {K0 K1 : Nat → Nat → Nat → Nat → ℂ}
    {l : Nat} (h0 : ∀ q, ∀ x ∈ v.row (q + 1), ∀ b ∈ v.row q, ∀ bp ∈ v.row q, k0 l q x b bp = K0 l x b bp)
    (h1 : ∀ q, ∀ x ∈ v.row (q + 1), ∀ xp ∈ v.row (q + 1), ∀ b ∈ v.row q, k1 l q x xp b = K1 l x xp b)
    (ρ : Nat → Nat → Nat → ℂ) {c b bp : Nat} (hb : b ∈ v.row c) (hbp : bp ∈ v.row c) :
    Coh.SL v T k0 k1 ρ l c b bp = gen v T (cohFac K0 K1) ρ l c b bp := by
  rw [← Coh.SL_gen]
  have hR : ∀ q, ∀ a ∈ v.R q, a ∈ v.row q := fun q a ha => List.mem_toFinset.1 ha
  unfold Coh.SL
  refine congrArg₂ (· + ·) (congrArg₂ (· + ·) (congrArg₂ (· + ·) (congrArg₂ (· + ·) (congrArg₂ (· + ·) ?_ ?_) ?_) ?_) ?_) ?_
  · rcases c with _ | c
    · rw [VMul.Lo_zero h]; simp
    · rw [VMul.Lo_succ h]
      refine sum_congr rfl fun a ha => sum_congr rfl fun ap hap => ?_
      rw [Nat.add_sub_cancel, h0 c bp hbp a (hR c a ha) ap (hR c ap hap), h0 c b hb ap (hR c ap hap) a (hR c a ha)]
  · rcases c with _ | c
    · rw [VMul.Lo_zero h]; simp
    · rw [VMul.Lo_succ h]
      refine sum_congr rfl fun y hy => sum_congr rfl fun a ha => ?_
      rw [Nat.add_sub_cancel, h1 c bp hbp y (hR _ y hy) a (hR c a ha)]
  · refine sum_congr rfl fun y hy => sum_congr rfl fun x hx => ?_
    rw [h0 c x (hR _ x hx) bp hbp y (hR c y hy)]
  · rcases c with _ | c
    · rw [VMul.Lo_zero h]; simp
    · rw [VMul.Lo_succ h]
      refine sum_congr rfl fun y hy => sum_congr rfl fun a ha => ?_
      rw [Nat.add_sub_cancel, h1 c b hb y (hR _ y hy) a (hR c a ha)]
  · refine sum_congr rfl fun y hy => sum_congr rfl fun x hx => ?_
    rw [h0 c x (hR _ x hx) b hb y (hR c y hy)]
  · refine sum_congr rfl fun x hx => sum_congr rfl fun xp hxp => ?_
    rw [h1 c x (hR _ x hx) xp (hR _ xp hxp) bp hbp, h1 c xp (hR _ xp hxp) x (hR _ x hx) b hb]

theorem Coh.S_gen {v : View} {la : Lab} (h : VMul v la) (T : TMat) {k0 k1 : KFct} {K0 K1 : Nat → Nat → Nat → Nat → ℂ}
    (h0 : ∀ l < v.nleads, ∀ q, ∀ x ∈ v.row (q + 1), ∀ b ∈ v.row q, ∀ bp ∈ v.row q, k0 l q x b bp = K0 l x b bp)
    (h1 : ∀ l < v.nleads, ∀ q, ∀ x ∈ v.row (q + 1), ∀ xp ∈ v.row (q + 1), ∀ b ∈ v.row q, k1 l q x xp b = K1 l x xp b)
    (ρ : Nat → Nat → Nat → ℂ) {c b bp : Nat} (hb : b ∈ v.row c) (hbp : bp ∈ v.row c) :
    Coh.S v T k0 k1 ρ c b bp = ∑ l ∈ range v.nleads, gen v T (cohFac K0 K1) ρ l c b bp := by
  rw [Coh.S_leads]
  exact sum_congr rfl fun l hl => Coh.SL_congr h T (h0 l (mem_range.1 hl)) (h1 l (mem_range.1 hl)) ρ hb hbp

/-- The sums in the currents. -/
theorem Coh.Z_congr {v w : View} {la la' : Lab} (hs : SameStates v w la la') (T : TMat) {k0 k1 k0' k1' : KFct}
    {K0 K1 : Nat → Nat → Nat → Nat → ℂ} {l : Nat} (hl : l < v.nleads)
    (h0 : ∀ l < v.nleads, ∀ q, ∀ x ∈ v.row (q + 1), ∀ b ∈ v.row q, ∀ bp ∈ v.row q, k0 l q x b bp = K0 l x b bp)
    (h1 : ∀ l < v.nleads, ∀ q, ∀ x ∈ v.row (q + 1), ∀ xp ∈ v.row (q + 1), ∀ b ∈ v.row q, k1 l q x xp b = K1 l x xp b)
    (h0' : ∀ l < w.nleads, ∀ q, ∀ x ∈ w.row (q + 1), ∀ b ∈ w.row q, ∀ bp ∈ w.row q, k0' l q x b bp = K0 l x b bp)
    (h1' : ∀ l < w.nleads, ∀ q, ∀ x ∈ w.row (q + 1), ∀ xp ∈ w.row (q + 1), ∀ b ∈ w.row q, k1' l q x xp b = K1 l x xp b)
    {φ φ' : Vec} (hd : SameDens v w la la' φ.val φ'.val) :
    ∑ q ∈ range (w.ncharge - 1), ∑ c ∈ w.R (q + 1), ∑ b ∈ w.R q,
      -2 * (Coh.Z w T k0' k1' (dens w la' φ'.val) l q c b).im =
    ∑ q ∈ range (v.ncharge - 1), ∑ c ∈ v.R (q + 1), ∑ b ∈ v.R q,
      -2 * (Coh.Z v T k0 k1 (dens v la φ.val) l q c b).im := by
  have hR : ∀ q, w.R q = v.R q := fun q => by ext b; simp only [View.R, List.mem_toFinset]; exact hs.row q b
  have hm : ∀ q, ∀ a ∈ v.R q, a ∈ v.row q := fun q a ha => List.mem_toFinset.1 ha
  have hm' : ∀ q, ∀ a ∈ v.R q, a ∈ w.row q := fun q a ha => (hs.row q a).2 (List.mem_toFinset.1 ha)
  have hl' : l < w.nleads := by rw [hs.nleads]; exact hl
  rw [hs.ncharge]
  refine sum_congr rfl fun q _ => ?_
  rw [hR, hR]
  refine sum_congr rfl fun x hx => sum_congr rfl fun b hb => ?_
  unfold Coh.Z
  rw [hR, hR]
  refine congrArg (fun z : ℂ => -2 * z.im) (congrArg₂ (· + ·) (sum_congr rfl fun bp hbp => ?_) (sum_congr rfl fun xp hxp => ?_))
  · rw [hd q bp (hm q bp hbp) b (hm q b hb), h0 l hl q x (hm _ x hx) b (hm _ b hb) bp (hm _ bp hbp),
      h0' l hl' q x (hm' _ x hx) b (hm' _ b hb) bp (hm' _ bp hbp)]
  · rw [hd (q + 1) x (hm _ x hx) xp (hm _ xp hxp), h1 l hl q x (hm _ x hx) xp (hm _ xp hxp) b (hm _ b hb),
      h1' l hl' q x (hm' _ x hx) xp (hm' _ xp hxp) b (hm' _ b hb)]

theorem Lindblad.SL_congr {v : View} {la : Lab} (h : VMul v la) {T t : TMat} (hT : ∀ l b c, T l b c = conj (T l c b))
    {E : Nat → ℝ} {fp fm : Nat → ℝ → ℝ} {l : Nat}
    (ht : ∀ q, ∀ x ∈ v.row (q + 1), ∀ b ∈ v.row q, t l x b = Real.sqrt (fp l (E x - E b)) * T l x b ∧
      t l b x = Real.sqrt (fm l (E x - E b)) * T l b x)
    (ρ : Nat → Nat → Nat → ℂ) {c b bp : Nat} (hb : b ∈ v.row c) (hbp : bp ∈ v.row c) :
    Lindblad.SL v t ρ l c b bp = gen v T (lindFac E fp fm) ρ l c b bp := by
  have hR : ∀ q, ∀ a ∈ v.R q, a ∈ v.row q := fun q a ha => List.mem_toFinset.1 ha
  have cu : ∀ q, ∀ x ∈ v.row (q + 1), ∀ b ∈ v.row q, conj (t l x b) = Real.sqrt (fp l (E x - E b)) * T l b x :=
    fun q x hx b hb => by rw [(ht q x hx b hb).1, map_mul, Complex.conj_ofReal, ← hT]
  have cd : ∀ q, ∀ x ∈ v.row (q + 1), ∀ b ∈ v.row q, conj (t l b x) = Real.sqrt (fm l (E x - E b)) * T l x b :=
    fun q x hx b hb => by rw [(ht q x hx b hb).2, map_mul, Complex.conj_ofReal, ← hT]
  unfold Lindblad.SL gen tri lindFac
  rw [sum_comm (s := v.R c) (t := v.Lo c), sum_comm (s := v.R c) (t := v.R (c + 1))]
  refine congrArg₂ (· + ·) (congrArg₂ (· + ·) (congrArg₂ (· + ·) (congrArg₂ (· + ·) (congrArg₂ (· + ·) ?_ ?_) ?_) ?_) ?_) ?_
  · rcases c with _ | c
    · rw [VMul.Lo_zero h]; simp
    · rw [VMul.Lo_succ h]
      refine sum_congr rfl fun a ha => sum_congr rfl fun ap hap => ?_
      rw [Nat.add_sub_cancel, (ht c b hb a (hR c a ha)).1, cu c bp hbp ap (hR c ap hap)]
      ring
  · rcases c with _ | c
    · rw [VMul.Lo_zero h]; simp
    · rw [VMul.Lo_succ h]
      refine sum_congr rfl fun a ha => sum_congr rfl fun y hy => ?_
      rw [cd c b hb a (hR c a ha), (ht c y (hR _ y hy) a (hR c a ha)).2]
      ring
  · refine sum_congr rfl fun x hx => sum_congr rfl fun y hy => ?_
    rw [cu c x (hR _ x hx) b hb, (ht c x (hR _ x hx) y (hR c y hy)).1]
    ring
  · rcases c with _ | c
    · rw [VMul.Lo_zero h]; simp
    · rw [VMul.Lo_succ h]
      refine sum_congr rfl fun y hy => sum_congr rfl fun a ha => ?_
      rw [cd c y (hR _ y hy) a (hR c a ha), (ht c bp hbp a (hR c a ha)).2]
      ring
  · refine sum_congr rfl fun y hy => sum_congr rfl fun x hx => ?_
    rw [cu c x (hR _ x hx) y (hR _ y hy), (ht c x (hR _ x hx) bp hbp).1]
    ring
  · refine sum_congr rfl fun x hx => sum_congr rfl fun xp hxp => ?_
    rw [(ht c x (hR _ x hx) b hb).2, cd c xp (hR _ xp hxp) bp hbp]
    ring

theorem Lindblad.S_gen {v : View} {la : Lab} (h : VMul v la) {T t : TMat} (hT : ∀ l b c, T l b c = conj (T l c b))
    {E : Nat → ℝ} {fp fm : Nat → ℝ → ℝ}
    (ht : ∀ l < v.nleads, ∀ q, ∀ x ∈ v.row (q + 1), ∀ b ∈ v.row q, t l x b = Real.sqrt (fp l (E x - E b)) * T l x b ∧
      t l b x = Real.sqrt (fm l (E x - E b)) * T l b x)
    (ρ : Nat → Nat → Nat → ℂ) {c b bp : Nat} (hb : b ∈ v.row c) (hbp : bp ∈ v.row c) :
    Lindblad.S v t ρ c b bp = ∑ l ∈ range v.nleads, gen v T (lindFac E fp fm) ρ l c b bp := by
  rw [Lindblad.S_leads']
  exact sum_congr rfl fun l hl => Lindblad.SL_congr h hT (ht l (mem_range.1 hl)) ρ hb hbp

theorem Lindblad.flow_congr {v w : View} {la la' : Lab} (hs : SameStates v w la la') {t t' : TMat} {l : Nat}
    (ht : ∀ q, ∀ x ∈ v.row (q + 1), ∀ b ∈ v.row q, t' l x b = t l x b ∧ t' l b x = t l b x)
    {φ φ' : Vec} (hd : SameDens v w la la' φ.val φ'.val) (g : Nat → Nat → ℂ) :
    Lindblad.flow w t' (dens w la' φ'.val) g l = Lindblad.flow v t (dens v la φ.val) g l := by
  have hR : ∀ q, w.R q = v.R q := fun q => by ext b; simp only [View.R, List.mem_toFinset]; exact hs.row q b
  have hm : ∀ q, ∀ a ∈ v.R q, a ∈ v.row q := fun q a ha => List.mem_toFinset.1 ha
  unfold Lindblad.flow Lindblad.P
  rw [hs.ncharge]
  refine sum_congr rfl fun q _ => ?_
  rw [hR, hR]
  refine sum_congr rfl fun x hx => sum_congr rfl fun b hb => ?_
  have hx' := hm _ x hx
  have hb' := hm _ b hb
  refine congrArg₂ (· + ·) (sum_congr rfl fun xp hxp => ?_) (sum_congr rfl fun bp hbp => ?_)
  · rw [hd (q + 1) x hx' xp (hm _ xp hxp), (ht q x hx' b hb').2, (ht q xp (hm _ xp hxp) b hb').2]
  · rw [hd q b hb' bp (hm _ bp hbp), (ht q x hx' b hb').1, (ht q x hx' bp (hm _ bp hbp)).1]

theorem SpinSymm.amp {v : View} {Z Q A : Nat → Int} {E : Nat → ℝ} {L : Leads} {k : Nat} (h : SpinSymm v Z Q A E L k)
    (lib : NumLib) {l l' : Nat} (hl : l ∈ range v.nleads) (hl' : l' ∈ range v.nleads) (e : gUp k l l' ≠ 0) :
    amp1vN lib E L l = amp1vN lib E L l' := by
  obtain ⟨h1, h2, h3, h4⟩ := h.lead hl hl' e
  funext x b
  unfold amp1vN
  rw [h1, h2, h3, h4]

section
variable {v w : View} {la la' : Lab} {uni : Nat → Nat → Nat → Bool} {Z Q A : Nat → Int} (h : MultLab v la uni Z Q A)
  (hw : VOk w la') (hs : SameStates v w la la') {E : Nat → ℝ} {L : Leads} {k : Nat} (hE : SpinSymm v Z Q A E L k)
include h hw hs hE

/-- **C75** for 1vN: with one unknown per multiplet the equations say the same as with one unknown per element. -/
theorem c75_1vN (symq : Bool) (lib : NumLib) :
    ∃ f f' m m', genFct1vN v lib E L = .ok f ∧ genFct1vN w lib E L = .ok f' ∧
      VN1.kernel v symq E L.Tba f = .ok m ∧ VN1.kernel w symq E L.Tba f' = .ok m' ∧
      SameReduced v w la la' Z Q A m m' (fun φ => List.map (·.ev) <$> VN1.genCurrent v L.Tba f φ)
        (fun φ => List.map (·.ev) <$> VN1.genCurrent w L.Tba f' φ) := by
  obtain ⟨f, gf, hf⟩ := VMul.fillFct_ok h.toVMul (⟨0, 0, 0, 0⟩ : Amp) (amp1vN lib E L)
  obtain ⟨f', gf', hf'⟩ := VMul.fillFct_ok hw.toVMul (⟨0, 0, 0, 0⟩ : Amp) (amp1vN lib E L)
  obtain ⟨m, g, hc, _, rows⟩ := h.toVRep.assemble_rows symq E (VN1.coup v L.Tba f) _
    (fun c b bp hb hbp hi => VN1.VMul.coup_ok h.toVMul L.Tba f hb hbp hi)
  obtain ⟨m', g', hc', _, rows'⟩ := assemble_rows hw symq E (VN1.coup w L.Tba f') _
    (fun c b bp hb hbp hi => VN1.coup_ok hw L.Tba f' hb hbp hi)
  have a0 : ∀ p : Amp → ℂ, ∀ l < v.nleads, ∀ q, ∀ x ∈ v.row (q + 1), ∀ b ∈ v.row q, ∀ bp ∈ v.row q,
      p (f l (la.ix1 q x b)) = p (amp1vN lib E L l x b) := fun p l hl q x hx b hb _ _ => by rw [hf q x b l hx hb hl]
  have a1 : ∀ p : Amp → ℂ, ∀ l < v.nleads, ∀ q, ∀ x ∈ v.row (q + 1), ∀ xp ∈ v.row (q + 1), ∀ b ∈ v.row q,
      p (f l (la.ix1 q x b)) = p (amp1vN lib E L l x b) := fun p l hl q x hx _ _ b hb => by rw [hf q x b l hx hb hl]
  have b0 : ∀ p : Amp → ℂ, ∀ l < w.nleads, ∀ q, ∀ x ∈ w.row (q + 1), ∀ b ∈ w.row q, ∀ bp ∈ w.row q,
      p (f' l (la'.ix1 q x b)) = p (amp1vN lib E L l x b) := fun p l hl q x hx b hb _ _ => by rw [hf' q x b l hx hb hl]
  have b1 : ∀ p : Amp → ℂ, ∀ l < w.nleads, ∀ q, ∀ x ∈ w.row (q + 1), ∀ xp ∈ w.row (q + 1), ∀ b ∈ w.row q,
      p (f' l (la'.ix1 q x b)) = p (amp1vN lib E L l x b) := fun p l hl q x hx _ _ b hb => by rw [hf' q x b l hx hb hl]
  refine ⟨f, f', m, m', gf, gf', g, g', SameStates.same h hw hs hE
    (κ := cohFac (fun l x b _ => (amp1vN lib E L l x b).cur0) (fun l x _ b => (amp1vN lib E L l x b).cur1))
    (cohFac_ok (fun l x b bp x' b' bp' e1 e2 _ => by rw [amp1vN_energy lib E L l e1 e2])
      (fun l x b bp x' b' bp' e1 _ e2 => by rw [amp1vN_energy lib E L l e1 e2])
      (fun l hl l' hl' e => by rw [hE.amp lib hl hl' e]) (fun l hl l' hl' e => by rw [hE.amp lib hl hl' e]))
    hc hc' rows rows'
    (fun φ c b bp hb hbp => Coh.S_gen h.toVMul L.Tba (a0 (·.cur0)) (a1 (·.cur1)) _ hb hbp)
    (fun φ c b bp hb hbp => Coh.S_gen hw.toVMul L.Tba (b0 (·.cur0)) (b1 (·.cur1)) _ hb hbp)
    (fun φ c b bp hb hbp => Coh.S_anti' hw hE.herm _ _ φ c b bp hb hbp) ?_⟩
  intro φ φ' s1 s2 hd
  obtain ⟨evs, ge, _, hev⟩ := VN1.VMul.genCurrent_ok h.toVMul L.Tba f φ (by omega)
  obtain ⟨evs', ge', _, hev'⟩ := VN1.genCurrent_ok hw L.Tba f' φ' (by omega)
  refine ⟨evs.map (·.ev), evs'.map (·.ev), by rw [ge]; rfl, by rw [ge']; rfl, fun l hl => ?_⟩
  have hl' : l < w.nleads := by rw [hs.nleads]; exact hl
  rw [(hev l hl).1, (hev l hl).2, (hev' l hl').1, (hev' l hl').2]
  exact ⟨Coh.Z_congr hs L.Tba hl (a0 (·.cur0)) (a1 (·.cur1)) (b0 (·.cur0)) (b1 (·.cur1)) hd,
    Coh.Z_congr hs L.Tba hl (a0 (·.en0)) (a1 (·.en1)) (b0 (·.en0)) (b1 (·.en1)) hd⟩

/-- **C75** for Redfield. -/
theorem c75_redfield (symq : Bool) (lib : NumLib) :
    ∃ f f' m m', genFct1vN v lib E L = .ok f ∧ genFct1vN w lib E L = .ok f' ∧
      Redfield.kernel v symq E L.Tba f = .ok m ∧ Redfield.kernel w symq E L.Tba f' = .ok m' ∧
      SameReduced v w la la' Z Q A m m' (fun φ => List.map (·.ev) <$> Redfield.genCurrent v L.Tba f φ)
        (fun φ => List.map (·.ev) <$> Redfield.genCurrent w L.Tba f' φ) := by
  obtain ⟨f, gf, hf⟩ := VMul.fillFct_ok h.toVMul (⟨0, 0, 0, 0⟩ : Amp) (amp1vN lib E L)
  obtain ⟨f', gf', hf'⟩ := VMul.fillFct_ok hw.toVMul (⟨0, 0, 0, 0⟩ : Amp) (amp1vN lib E L)
  obtain ⟨m, g, hc, _, rows⟩ := h.toVRep.assemble_rows symq E (Redfield.coup v L.Tba f) _
    (fun c b bp hb hbp hi => Redfield.VMul.coup_ok h.toVMul L.Tba f hb hbp hi)
  obtain ⟨m', g', hc', _, rows'⟩ := assemble_rows hw symq E (Redfield.coup w L.Tba f') _
    (fun c b bp hb hbp hi => Redfield.coup_ok hw L.Tba f' hb hbp hi)
  have a0 : ∀ p : Amp → ℂ, ∀ l < v.nleads, ∀ q, ∀ x ∈ v.row (q + 1), ∀ b ∈ v.row q, ∀ bp ∈ v.row q,
      p (f l (la.ix1 q x bp)) = p (amp1vN lib E L l x bp) := fun p l hl q x hx _ _ b hb => by rw [hf q x b l hx hb hl]
  have a1 : ∀ p : Amp → ℂ, ∀ l < v.nleads, ∀ q, ∀ x ∈ v.row (q + 1), ∀ xp ∈ v.row (q + 1), ∀ b ∈ v.row q,
      p (f l (la.ix1 q xp b)) = p (amp1vN lib E L l xp b) := fun p l hl q _ _ x hx b hb => by rw [hf q x b l hx hb hl]
  have b0 : ∀ p : Amp → ℂ, ∀ l < w.nleads, ∀ q, ∀ x ∈ w.row (q + 1), ∀ b ∈ w.row q, ∀ bp ∈ w.row q,
      p (f' l (la'.ix1 q x bp)) = p (amp1vN lib E L l x bp) := fun p l hl q x hx _ _ b hb => by rw [hf' q x b l hx hb hl]
  have b1 : ∀ p : Amp → ℂ, ∀ l < w.nleads, ∀ q, ∀ x ∈ w.row (q + 1), ∀ xp ∈ w.row (q + 1), ∀ b ∈ w.row q,
      p (f' l (la'.ix1 q xp b)) = p (amp1vN lib E L l xp b) := fun p l hl q _ _ x hx b hb => by rw [hf' q x b l hx hb hl]
  refine ⟨f, f', m, m', gf, gf', g, g', SameStates.same h hw hs hE
    (κ := cohFac (fun l x _ bp => (amp1vN lib E L l x bp).cur0) (fun l _ xp b => (amp1vN lib E L l xp b).cur1))
    (cohFac_ok (fun l x b bp x' b' bp' e1 _ e2 => by rw [amp1vN_energy lib E L l e1 e2])
      (fun l x b bp x' b' bp' _ e1 e2 => by rw [amp1vN_energy lib E L l e1 e2])
      (fun l hl l' hl' e => by rw [hE.amp lib hl hl' e]) (fun l hl l' hl' e => by rw [hE.amp lib hl hl' e]))
    hc hc' rows rows'
    (fun φ c b bp hb hbp => Coh.S_gen h.toVMul L.Tba (a0 (·.cur0)) (a1 (·.cur1)) _ hb hbp)
    (fun φ c b bp hb hbp => Coh.S_gen hw.toVMul L.Tba (b0 (·.cur0)) (b1 (·.cur1)) _ hb hbp)
    (fun φ c b bp hb hbp => Coh.S_anti' hw hE.herm _ _ φ c b bp hb hbp) ?_⟩
  intro φ φ' s1 s2 hd
  obtain ⟨evs, ge, _, hev⟩ := Redfield.VMul.genCurrent_ok h.toVMul L.Tba f φ (by omega)
  obtain ⟨evs', ge', _, hev'⟩ := Redfield.genCurrent_ok hw L.Tba f' φ' (by omega)
  refine ⟨evs.map (·.ev), evs'.map (·.ev), by rw [ge]; rfl, by rw [ge']; rfl, fun l hl => ?_⟩
  have hl' : l < w.nleads := by rw [hs.nleads]; exact hl
  rw [(hev l hl).1, (hev l hl).2, (hev' l hl').1, (hev' l hl').2]
  exact ⟨Coh.Z_congr hs L.Tba hl (a0 (·.cur0)) (a1 (·.cur1)) (b0 (·.cur0)) (b1 (·.cur1)) hd,
    Coh.Z_congr hs L.Tba hl (a0 (·.en0)) (a1 (·.en1)) (b0 (·.en0)) (b1 (·.en1)) hd⟩

/-- **C75** for Lindblad. -/
theorem c75_lindblad (symq : Bool) :
    ∃ t t' m m', Lindblad.genFct v E L = .ok t ∧ Lindblad.genFct w E L = .ok t' ∧
      Lindblad.kernel v symq E t = .ok m ∧ Lindblad.kernel w symq E t' = .ok m' ∧
      SameReduced v w la la' Z Q A m m' (Lindblad.genCurrent v E t) (Lindblad.genCurrent w E t') := by
  obtain ⟨t, gt, ht⟩ := Lindblad.VMul.genFct_ok h.toVMul E L
  obtain ⟨t', gt', ht'⟩ := Lindblad.genFct_ok hw E L
  obtain ⟨m, g, hc, _, rows⟩ := h.toVRep.assemble_rows symq E (Lindblad.coup v t) _
    (fun c b bp hb hbp hi => Lindblad.VMul.coup_ok h.toVMul t hb hbp hi)
  obtain ⟨m', g', hc', _, rows'⟩ := assemble_rows hw symq E (Lindblad.coup w t') _
    (fun c b bp hb hbp hi => Lindblad.coup_ok hw t' hb hbp hi)
  refine ⟨t, t', m, m', gt, gt', g, g', SameStates.same h hw hs hE
    (κ := lindFac E (fun l e => (funcPauli e (L.mu l) (L.T l) (L.Dm l) (L.Dp l) L.itype).1)
      (fun l e => (funcPauli e (L.mu l) (L.T l) (L.Dm l) (L.Dp l) L.itype).2))
    (lindFac_ok fun l hl l' hl' e => by
      obtain ⟨h1, h2, h3, h4⟩ := hE.lead hl hl' e
      rw [h1, h2, h3, h4]; exact ⟨rfl, rfl⟩)
    hc hc' rows rows'
    (fun φ c b bp hb hbp => Lindblad.S_gen h.toVMul hE.herm (fun l hl q x hx b hb => ht q x b l hx hb hl) _ hb hbp)
    (fun φ c b bp hb hbp => Lindblad.S_gen hw.toVMul hE.herm (fun l hl q x hx b hb => ht' q x b l hx hb hl) _ hb hbp)
    (fun φ c b bp hb hbp => Lindblad.S_anti hw t' φ c b bp hb hbp) ?_⟩
  intro φ φ' s1 s2 hd
  obtain ⟨evs, ge, hev⟩ := Lindblad.VMul.genCurrent_ok h.toVMul E t φ (by omega)
  obtain ⟨evs', ge', hev'⟩ := Lindblad.genCurrent_ok hw E t' φ' (by omega)
  refine ⟨evs, evs', ge, ge', fun l hl => ?_⟩
  have hl' : l < w.nleads := by rw [hs.nleads]; exact hl
  have htt : ∀ q, ∀ x ∈ v.row (q + 1), ∀ b ∈ v.row q, t' l x b = t l x b ∧ t' l b x = t l b x := by
    intro q x hx b hb
    obtain ⟨e1, e2⟩ := ht q x b l hx hb hl
    obtain ⟨e1', e2'⟩ := ht' q x b l ((hs.row _ x).2 hx) ((hs.row _ b).2 hb) hl'
    exact ⟨by rw [e1, e1'], by rw [e2, e2']⟩
  rw [(hev l hl).1, (hev l hl).2, (hev' l hl').1, (hev' l hl').2, Lindblad.flow_congr hs htt hd,
    Lindblad.flow_congr hs htt hd]
  exact ⟨rfl, rfl⟩

end

/-- **C75** is about these objects: one of class `StateIndexingDM` with 'ssq' indexing, and one with 'Lin' or 'charge'
indexing that considers the same states. -/
theorem c75_objects {n nleads : Nat} {ix ix' : String} {d d' : DM} {S S' : List (List Nat)}
    (h : Reach .dm n ix d S) (hix : d.si.indexing = .ssq) (hc : Complete n d.si S)
    (hS : ∀ c, n + 1 ≤ c → S[c]?.getD [] = [])
    (h' : Reach .dm n ix' d' S') (hix' : d'.si.indexing ≠ .ssq) (hix'' : d'.si.indexing ≠ .sz)
    (hS' : ∀ c, n + 1 ≤ c → S'[c]?.getD [] = []) (hSS : ∀ c b : Nat, b ∈ S'[c]?.getD [] ↔ b ∈ S[c]?.getD []) :
    MultLab (d.view nleads) d.labOf d.uniOf d.si.spinZ d.si.spinS d.si.multNo ∧ VOk (d'.view nleads) d'.labOf ∧
      SameStates (d.view nleads) (d'.view nleads) d.labOf d'.labOf := by
  have hr : ∀ c b, b ∈ (d'.view nleads).row c ↔ b ∈ (d.view nleads).row c := by
    intro c b
    have e : ∀ {T : List (List Nat)}, (T ++ [[]])[c]?.getD [] = T[c]?.getD [] := by
      intro T
      rcases Nat.lt_trichotomy c T.length with hc | hc | hc
      · rw [List.getElem?_append_left hc]
      · subst hc; simp
      · rw [List.getElem?_eq_none (by simp; omega), List.getElem?_eq_none (by omega)]
    simp only [View.row, DM.view, h.inv.1.sdm, h'.inv.1.sdm, e]
    exact hSS c b
  refine ⟨view_ssq h hix hc hS, view_ok' h' hix' hS', rfl, ?_, hr, ?_⟩
  · simp only [DM.view]; rw [h.inv.1.shape.ncharge, h'.inv.1.shape.ncharge]
  · intro c b bp hb hbp _
    exact view_all_inc (nleads := nleads) h' hix' hix'' hS' ((hr c b).2 hb) ((hr c bp).2 hbp)

/-! ### A concrete case -/

/-- One level with spin; the tunnelling amplitudes of the two spin directions of a lead. -/
def exTba (l b c : Nat) : ℂ :=
  if l = 0 then
    if (b = 2 ∧ c = 0) ∨ (b = 0 ∧ c = 2) ∨ (b = 3 ∧ c = 1) ∨ (b = 1 ∧ c = 3) then 1 else 0
  else
    if (b = 1 ∧ c = 0) ∨ (b = 0 ∧ c = 1) then 1 else if (b = 3 ∧ c = 2) ∨ (b = 2 ∧ c = 3) then -1 else 0

def exLeads : Leads := ⟨fun _ => 1, fun _ => 1, fun _ => -10, fun _ => 10, exTba, 0, 100⟩

def exEn (b : Nat) : ℝ := if b = 0 then 0 else if b < 3 then 1 else 5

theorem exSpin {v : View} {Z Q A : Nat → Int} (hr : v.statesdm = [[0], [1, 2], [3], []]) (hn : v.nleads = 2)
    (hz : [Z 0, Z 1, Z 2, Z 3] = [0, -1, 1, 0]) (hq : [Q 0, Q 1, Q 2, Q 3] = [0, 1, 1, 0])
    (ha : [A 0, A 1, A 2, A 3] = [0, 0, 0, 0]) : SpinSymm v Z Q A exEn exLeads 1 := by
  simp only [List.cons.injEq, and_true] at hz hq ha
  obtain ⟨z0, z1, z2, z3⟩ := hz
  obtain ⟨q0, q1, q2, q3⟩ := hq
  obtain ⟨a0, a1, a2, a3⟩ := ha
  have r0 : v.row 0 = [0] := by simp [View.row, hr]
  have r1 : v.row 1 = [1, 2] := by simp [View.row, hr]
  have r2 : v.row 2 = [3] := by simp [View.row, hr]
  have r3 : ∀ c, v.row (c + 3) = [] := by
    intro c
    rcases c with _ | c
    · simp [View.row, hr]
    · simp only [View.row, hr]
      rw [List.getElem?_eq_none (by simp)]; rfl
  have s4 : Real.sqrt 4 = 2 := by rw [show (4 : ℝ) = 2 ^ 2 by norm_num]; exact Real.sqrt_sq (by norm_num)
  have u : ∀ b y, b < 4 → y < 4 → sUp Z Q A b y = if b = 2 ∧ y = 1 then 1 else 0 := by
    intro b y hb hy
    unfold sUp
    interval_cases b <;> interval_cases y <;> simp [z0, z1, z2, z3, q0, q1, q2, q3, a0, a1, a2, a3]
    · norm_num [s4]
  have dn : ∀ b y, b < 4 → y < 4 → sDn Z Q A b y = if b = 1 ∧ y = 2 then 1 else 0 := by
    intro b y hb hy
    unfold sDn
    rw [u y b hy hb]
    simp only [and_comm]
  refine ⟨?_, by rw [hn], ?_, ?_, ?_, ?_, ?_, ?_⟩
  · intro c b hb y hy _ _
    rcases c with _ | _ | _ | c
    · simp_all [exEn]
    · rw [r1] at hb hy
      simp only [List.mem_cons, List.not_mem_nil, or_false] at hb hy
      rcases hb with rfl | rfl <;> rcases hy with rfl | rfl <;> simp [exEn]
    · simp_all [exEn]
    · rw [r3] at hb; simp at hb
  · intro i _; simp [exLeads]
  · intro l b c
    simp only [exLeads, exTba]
    split_ifs <;> first | (simp; done) | (exfalso; omega)
  all_goals
    intro i hi q x hx b hb
    obtain rfl : i = 0 := by omega
    rcases q with _ | _ | q
    · rw [r1] at hx; rw [r0] at hb
      simp only [List.mem_cons, List.not_mem_nil, or_false] at hx hb
      subst hb
      rcases hx with rfl | rfl <;> simp [comm, r0, r1, u, dn, exLeads, exTba]
    · rw [r2] at hx; rw [r1] at hb
      simp only [List.mem_cons, List.not_mem_nil, or_false] at hx hb
      subst hx
      rcases hb with rfl | rfl <;> simp [comm, r1, r2, u, dn, exLeads, exTba]
    · rw [r3] at hx; simp at hx

/-- The hypotheses of **C75** for one level with spin, coupled to one lead, with the double occupation costing
energy. With 'ssq' indexing there are three unknowns, with 'charge' indexing six. -/
example : ∃ d d', DM.init .dm 2 "ssq" = .ok d ∧ DM.init .dm 2 "charge" = .ok d' ∧
    MultLab (d.view 2) d.labOf d.uniOf d.si.spinZ d.si.spinS d.si.multNo ∧ VOk (d'.view 2) d'.labOf ∧
    SameStates (d.view 2) (d'.view 2) d.labOf d'.labOf ∧
    SpinSymm (d.view 2) d.si.spinZ d.si.spinS d.si.multNo exEn exLeads 1 ∧ d.ndm0r = 3 ∧ d'.ndm0r = 6 := by
  have key : (SI.init 2 "ssq" >>= fun si => DM.init .dm 2 "ssq" >>= fun d =>
      .ok (si.chargelst, d.si.chargelst, d.statesdm, decide (d.si.indexing = .ssq), d.ndm0r)) =
      .ok ([[0], [1, 2], [3]], [[0], [1, 2], [3]], [[0], [1, 2], [3], []], true, 3) := by decide +kernel
  have key2 : (DM.init .dm 2 "ssq" >>= fun d =>
      .ok ([0, 1, 2, 3].map d.si.spinZ, [0, 1, 2, 3].map d.si.spinS, [0, 1, 2, 3].map d.si.multNo)) =
      .ok ([0, -1, 1, 0], [0, 1, 1, 0], [0, 0, 0, 0]) := by decide +kernel
  have key' : (SI.init 2 "charge" >>= fun si' => DM.init .dm 2 "charge" >>= fun d' =>
      .ok (si'.chargelst, decide (d'.si.indexing = .ssq), decide (d'.si.indexing = .sz), d'.ndm0r)) =
      .ok ([[0], [1, 2], [3]], false, false, 6) := by decide +kernel
  obtain ⟨si, h1, _⟩ := init_inv 2 "ssq"
  obtain ⟨si', h1', _⟩ := init_inv 2 "charge"
  obtain ⟨⟨d, h2, h2'⟩, h3⟩ := c74_total (n := 2) rfl
  obtain ⟨d', h4, _⟩ := view_example
  rw [h1, h2] at key
  rw [h2] at key2
  rw [h1', h4] at key'
  simp only [py_bind_ok, Except.ok.injEq, Prod.mk.injEq, decide_eq_false_iff_not, decide_eq_true_eq] at key key' key2
  obtain ⟨k1, k2, k3, k4, k5⟩ := key
  obtain ⟨k6, k7, k8⟩ := key2
  obtain ⟨k9, k10, k11, k12⟩ := key'
  have r := Reach.init h1 h2
  have hc := (h3 d _ r).1
  rw [k2, ← k1] at hc
  have ho : ∀ c, 2 + 1 ≤ c → ([[0], [1, 2], [3]] : List (List Nat))[c]?.getD [] = [] := fun c hc => by
    rw [List.getElem?_eq_none (by simpa using hc)]; rfl
  obtain ⟨o1, o2, o3⟩ := c75_objects (nleads := 2) r k4 hc (by rw [k1]; exact ho) (Reach.init h1' h4) k10 k11
    (by rw [k9]; exact ho) (by intro c b; rw [k1, k9])
  exact ⟨d, d', h2, h4, o1, o2, o3, exSpin k3 rfl k6 k7 k8, k5, k12⟩

end

end Verif
