import Verif.Lemmas.Product
import Verif.Spec.Independent
import Verif.Props.Unique

/-! C94: independent levels in the Pauli approach. -/

namespace Verif

open Finset

noncomputable section

section
variable {v : View} {la : Lab} (h : VOk v la) {E : Nat → ℝ} {L : Leads} {N : Nat} {E0 : ℝ} {ε : Nat → ℝ}
  {t : Nat → Nat → ℂ} {occ : Nat → Finset Nat} (lev : Levels v E L N E0 ε t occ)

/-- Two states of neighbouring charge differ by one electron, or are not coupled. -/
theorem Levels.pair (lev : Levels v E L N E0 ε t occ) {q b c : Nat} (hb : b ∈ v.row q) (hc : c ∈ v.row (q + 1)) :
    (∃ i, i ∈ range N ∧ i ∉ occ b ∧ occ c = insert i (occ b) ∧ E c - E b = ε i) ∨
      (¬ occ b ⊆ occ c ∧ ∀ l, l < v.nleads → L.Tba l c b = 0) := by
  by_cases hs : occ b ⊆ occ c
  · left
    have h1 := lev.card q b hb
    have h2 := lev.card (q + 1) c hc
    obtain ⟨i, hi⟩ := card_eq_one.1 (by rw [card_sdiff_of_subset hs, h1, h2]; omega : (occ c \ occ b).card = 1)
    have hic : i ∈ occ c \ occ b := by rw [hi]; exact mem_singleton_self i
    rw [mem_sdiff] at hic
    have e : occ c = insert i (occ b) := by
      rw [← sdiff_union_of_subset hs, hi]; rfl
    refine ⟨i, lev.sub _ c hc hic.1, hic.2, e, ?_⟩
    rw [lev.energy _ c hc, lev.energy _ b hb, e, sum_insert hic.2]
    ring
  · exact .inr ⟨hs, fun l hl => lev.none l q b c hl hb hc hs⟩

theorem width_rate {l : Nat} (hT : 0 < L.T l) (t : ℂ) (x : ℝ) :
    Complex.normSq t * (L.rate l x).1 = L.width l t x * L.filling l x ∧
      Complex.normSq t * (L.rate l x).2 = L.width l t x * (1 - L.filling l x) := by
  have e : L.InBand l x ↔ (L.itype = 1 ∨ L.itype = 3 ∨
      ((L.Dm l - L.mu l) / L.T l < (x - L.mu l) / L.T l ∧ (x - L.mu l) / L.T l < (L.Dp l - L.mu l) / L.T l)) := by
    unfold Leads.InBand
    rw [div_lt_div_iff_of_pos_right hT, div_lt_div_iff_of_pos_right hT, sub_lt_sub_iff_right, sub_lt_sub_iff_right]
  have hf : fermiFunc ((x - L.mu l) / L.T l) = L.filling l x := by
    unfold fermiFunc Leads.filling
    by_cases hx : (x - L.mu l) / L.T l ≤ 709.77
    · rw [if_neg (not_lt.2 hx), if_pos hx]
    · rw [if_pos (not_le.1 hx), if_neg hx]
  unfold Leads.rate funcPauli Leads.width
  dsimp only
  rw [hf]
  by_cases hb : L.InBand l x
  · rw [if_pos (e.1 hb), if_pos hb]
    constructor <;> ring
  · rw [if_neg (mt e.2 hb), if_neg hb]
    simp

theorem filling_mem (l : Nat) (x : ℝ) : 0 ≤ L.filling l x ∧ L.filling l x < 1 := by
  unfold Leads.filling
  split
  · have := Real.exp_pos ((x - L.mu l) / L.T l)
    refine ⟨by positivity, ?_⟩
    rw [div_lt_one (by linarith)]
    linarith
  · exact ⟨le_rfl, one_pos⟩

theorem width_nonneg (l : Nat) (t : ℂ) (x : ℝ) : 0 ≤ L.width l t x := by
  unfold Leads.width
  split
  · have := Complex.normSq_nonneg t
    positivity
  · exact le_rfl

variable (hcpl : ∀ i, i < N → ∃ l, l < v.nleads ∧ t l i ≠ 0 ∧ L.InBand l (ε i))

include hcpl in
theorem width_pos {i : Nat} (hi : i < N) : 0 < ∑ l ∈ range v.nleads, L.width l (t l i) (ε i) := by
  obtain ⟨l, hl, ht, hb⟩ := hcpl i hi
  refine sum_pos' (fun l _ => width_nonneg l _ _) ⟨l, mem_range.2 hl, ?_⟩
  unfold Leads.width
  rw [if_pos hb]
  have := Complex.normSq_pos.2 ht
  positivity

include hcpl in
theorem mean_eq {i : Nat} (hi : i < N) :
    ∑ l ∈ range v.nleads, L.width l (t l i) (ε i) * L.filling l (ε i)
      = (∑ l ∈ range v.nleads, L.width l (t l i) (ε i)) * L.mean v.nleads ε t i ∧
    ∑ l ∈ range v.nleads, L.width l (t l i) (ε i) * (1 - L.filling l (ε i))
      = (∑ l ∈ range v.nleads, L.width l (t l i) (ε i)) * (1 - L.mean v.nleads ε t i) := by
  have h1 : ∑ l ∈ range v.nleads, L.width l (t l i) (ε i) * L.filling l (ε i)
      = (∑ l ∈ range v.nleads, L.width l (t l i) (ε i)) * L.mean v.nleads ε t i := by
    unfold Leads.mean
    rw [mul_div_cancel₀ _ (width_pos hcpl hi).ne']
  refine ⟨h1, ?_⟩
  simp only [mul_sub, mul_one, sum_sub_distrib, h1]

include h lev in
/-- A sum over the considered states is a sum over the sets of levels. -/
theorem sum_levels (F : Finset Nat → ℝ) :
    ∑ q ∈ range v.ncharge, ∑ b ∈ v.R q, F (occ b) = ∑ S ∈ (range N).powerset, F S := by
  rw [sum_sigma']
  refine sum_bij (fun x _ => occ x.2) ?_ ?_ ?_ ?_
  · rintro ⟨q, b⟩ hx
    simp only [mem_sigma, mem_range] at hx
    exact mem_powerset.2 (lev.sub q b ((mem_R h).1 hx.2))
  · rintro ⟨q, b⟩ hx ⟨q', b'⟩ hx' e
    simp only [mem_sigma, mem_range] at hx hx' e
    have hb := (mem_R h).1 hx.2
    have hb' := (mem_R h).1 hx'.2
    have : q = q' := by rw [← lev.card q b hb, ← lev.card q' b' hb', e]
    subst this
    rw [lev.inj q b b' hb hb' e]
  · intro S hS
    obtain ⟨b, hb, e⟩ := lev.surj S (mem_powerset.1 hS)
    exact ⟨⟨S.card, b⟩, mem_sigma.2 ⟨mem_range.2 (h.toVMul.row_lt hb), (mem_R h).2 hb⟩, e⟩
  · rintro ⟨q, b⟩ _
    rfl

include h lev in
/-- A sum over the pairs of states of neighbouring charge is a sum over the sets of levels and the empty levels. -/
theorem sum_levels_pairs (G : Nat → Nat → Nat → ℝ) (F : Nat → Finset Nat → ℝ)
    (h0 : ∀ q c b, c ∈ v.row (q + 1) → b ∈ v.row q → ¬ occ b ⊆ occ c → G q c b = 0)
    (h1 : ∀ q c b i, c ∈ v.row (q + 1) → b ∈ v.row q → i ∉ occ b → occ c = insert i (occ b) →
      G q c b = F i (occ b)) :
    ∑ q ∈ range (v.ncharge - 1), ∑ c ∈ v.R (q + 1), ∑ b ∈ v.R q, G q c b
      = ∑ i ∈ range N, ∑ S ∈ ((range N).erase i).powerset, F i S := by
  rw [← sum_missing, ← sum_levels h lev]
  have inner : ∀ q b, b ∈ v.R q → ∑ c ∈ v.R (q + 1), G q c b = ∑ i ∈ range N \ occ b, F i (occ b) := by
    intro q b hb
    have hb' := (mem_R h).1 hb
    symm
    have ex : ∀ i ∈ range N \ occ b, ∃ c, c ∈ v.row (q + 1) ∧ occ c = insert i (occ b) := by
      intro i hi
      obtain ⟨c, hc, e⟩ := lev.surj (insert i (occ b))
        (insert_subset (mem_sdiff.1 hi).1 (lev.sub q b hb'))
      rw [card_insert_of_notMem (mem_sdiff.1 hi).2, lev.card q b hb'] at hc
      exact ⟨c, hc, e⟩
    choose! g g1 g2 using ex
    rw [← sum_subset (s₁ := (range N \ occ b).image g) (s₂ := v.R (q + 1))]
    · rw [sum_image]
      · exact sum_congr rfl fun i hi => (h1 q (g i) b i (g1 i hi) hb' (mem_sdiff.1 hi).2 (g2 i hi)).symm
      · intro i hi j hj e
        have e' : insert i (occ b) = insert j (occ b) := by rw [← g2 i hi, ← g2 j hj, e]
        have : i ∈ insert j (occ b) := by rw [← e']; exact mem_insert_self _ _
        rcases mem_insert.1 this with rfl | hm
        · rfl
        · exact absurd hm (mem_sdiff.1 hi).2
    · intro c hc
      obtain ⟨i, hi, rfl⟩ := mem_image.1 hc
      exact (mem_R h).2 (g1 i hi)
    · intro c hc hn
      have hc' := (mem_R h).1 hc
      refine h0 q c b hc' hb' fun hs => hn ?_
      rcases lev.pair hb' hc' with ⟨i, hi, hib, e, _⟩ | ⟨hns, _⟩
      · have him : i ∈ range N \ occ b := mem_sdiff.2 ⟨hi, hib⟩
        have : g i = c := lev.inj (q + 1) (g i) c (g1 i him) hc' (by rw [g2 i him, e])
        exact mem_image.2 ⟨i, him, this⟩
      · exact absurd hs hns
  have top : ∀ q, q ∈ range v.ncharge → q ∉ range (v.ncharge - 1) →
      ∑ b ∈ v.R q, ∑ i ∈ range N \ occ b, F i (occ b) = 0 := by
    intro q hq hq'
    refine sum_eq_zero fun b hb => ?_
    rw [← inner q b hb]
    have : v.R (q + 1) = ∅ := by
      refine eq_empty_of_forall_notMem fun c hc => ?_
      have := h.toVMul.row_lt ((mem_R h).1 hc)
      rw [mem_range] at hq'
      omega
    rw [this, sum_empty]
  rw [← sum_subset (range_subset_range.2 (Nat.sub_le _ _)) top]
  refine sum_congr rfl fun q _ => ?_
  rw [sum_comm]
  exact sum_congr rfl fun b hb => inner q b hb

include h lev hcpl in
/-- Whatever the state of the system is, the set of levels with a nonzero mean occupation can be reached. -/
theorem levels_attained (hT : ∀ l, l < v.nleads → 0 < L.T l) : ∃ s, Attained v E L s := by
  classical
  set M := (range N).filter fun i => 0 < L.mean v.nleads ε t i with hM
  have hMs : M ⊆ range N := filter_subset _ _
  obtain ⟨b0, hb0, e0⟩ := lev.surj M hMs
  refine ⟨(M.card, b0), hb0, fun c a ha => ?_⟩
  generalize hk : ((M \ occ a) ∪ (occ a \ M)).card = k
  induction k generalizing c a with
  | zero =>
    have h1 : M ⊆ occ a := sdiff_eq_empty_iff_subset.1 (subset_empty.1 ((subset_union_left).trans
      (card_eq_zero.1 hk).subset))
    have h2 : occ a ⊆ M := sdiff_eq_empty_iff_subset.1 (subset_empty.1 ((subset_union_right).trans
      (card_eq_zero.1 hk).subset))
    have e := h1.antisymm h2
    have hc : c = M.card := by rw [e, lev.card c a ha]
    subst hc
    rw [lev.inj _ a b0 ha hb0 (by rw [e0, ← e])]
  | succ k ih =>
    obtain ⟨i, hi⟩ := card_pos.1 (by rw [hk]; omega : 0 < ((M \ occ a) ∪ (occ a \ M)).card)
    rcases mem_union.1 hi with hi | hi
    · obtain ⟨hiM, hia⟩ := mem_sdiff.1 hi
      have hiN := hMs hiM
      obtain ⟨c', hc', e'⟩ := lev.surj (insert i (occ a)) (insert_subset hiN (lev.sub c a ha))
      rw [card_insert_of_notMem hia, lev.card c a ha] at hc'
      have hE : E c' - E a = ε i := by
        rw [lev.energy _ c' hc', lev.energy _ a ha, e', sum_insert hia]; ring
      have hmean := (mem_filter.1 hiM).2
      have hpos : 0 < ∑ l ∈ range v.nleads, L.width l (t l i) (ε i) * L.filling l (ε i) := by
        rw [(mean_eq hcpl (mem_range.1 hiN)).1]
        exact mul_pos (width_pos hcpl (mem_range.1 hiN)) hmean
      rw [sum_pos_iff_of_nonneg fun l _ => mul_nonneg (width_nonneg l _ _) (filling_mem l _).1] at hpos
      obtain ⟨l, hl, hp⟩ := hpos
      have hl := mem_range.1 hl
      have hr : 0 < Complex.normSq (t l i) * (L.rate l (ε i)).1 := by rw [(width_rate (hT l hl) _ _).1]; exact hp
      have htl : t l i ≠ 0 := fun e => by rw [e, map_zero, zero_mul] at hr; exact lt_irrefl _ hr
      have hr2 := (rate_pos (hT l hl) (ε i)).1.1 ((mul_pos_iff_of_pos_left (Complex.normSq_pos.2 htl)).1 hr)
      have hTl : L.Tba l c' a ≠ 0 := fun e => by
        have := lev.enter l c a c' i hl ha hc' hia e'
        rw [e, map_zero] at this
        exact htl (Complex.normSq_eq_zero.1 this.symm)
      refine .head (.enter ha hc' hl hTl (by rw [hE]; exact hr2.1) (by rw [hE]; exact hr2.2)) (ih _ c' hc' ?_)
      have : (M \ occ c') ∪ (occ c' \ M) = ((M \ occ a) ∪ (occ a \ M)).erase i := by
        rw [e']; ext x; simp only [mem_union, mem_sdiff, mem_insert, mem_erase]
        by_cases hx : x = i
        · subst hx; simp [hiM]
        · simp [hx]
      rw [this, card_erase_of_mem (mem_union_left _ hi), hk]
      rfl
    · obtain ⟨hia, hiM⟩ := mem_sdiff.1 hi
      have hiN := lev.sub c a ha hia
      obtain ⟨b, hb, e'⟩ := lev.surj ((occ a).erase i) ((erase_subset _ _).trans (lev.sub c a ha))
      have hc1 : 0 < c := by rw [← lev.card c a ha]; exact card_pos.2 ⟨i, hia⟩
      rw [card_erase_of_mem hia, lev.card c a ha] at hb
      obtain ⟨q, rfl⟩ : ∃ q, c = q + 1 := ⟨c - 1, by omega⟩
      rw [Nat.add_sub_cancel] at hb
      have hib : i ∉ occ b := by rw [e']; exact notMem_erase _ _
      have ha' : occ a = insert i (occ b) := by rw [e', insert_erase hia]
      have hE : E a - E b = ε i := by
        rw [lev.energy _ a ha, lev.energy _ b hb, ha', sum_insert hib]; ring
      obtain ⟨l, hl, htl, hin⟩ := hcpl i (mem_range.1 hiN)
      have hTl : L.Tba l a b ≠ 0 := fun e => by
        have := lev.enter l q b a i hl hb ha hib ha'
        rw [e, map_zero] at this
        exact htl (Complex.normSq_eq_zero.1 this.symm)
      refine .head (.leave hb ha hl hTl (by rw [hE]; exact hin)) (ih _ b hb ?_)
      have : (M \ occ b) ∪ (occ b \ M) = ((M \ occ a) ∪ (occ a \ M)).erase i := by
        rw [e']; ext x; simp only [mem_union, mem_sdiff, mem_erase]
        by_cases hx : x = i
        · subst hx; simp [hiM]
        · simp [hx]
      rw [this, card_erase_of_mem (mem_union_right _ hi), hk]
      rfl

include h lev hcpl in
/-- The probabilities of the occupations are stationary. -/
theorem levels_stationary (hherm : L.Herm) (hT : ∀ l, l < v.nleads → 0 < L.T l) {symq : Bool} {fct : Nat → Nat → ℝ × ℝ}
    {m : Mat} (gf : Pauli.genFct v E L = .ok fct) (gm : Pauli.kernel v symq fct = .ok m) {p : Nat → ℝ}
    (hp : ∀ c b, b ∈ v.row c → p (la.lab c b b) = L.prob v.nleads N ε t (occ b)) :
    (∀ i, i < v.npauli → ∑ j ∈ range v.npauli, m.val i j * p j = 0) ∧ ∑ j ∈ range v.npauli, p j = 1 := by
  obtain ⟨fct', m', gf', gm', hoff, _⟩ := c18_rate_matrix h symq E L hherm
  rw [gf] at gf'
  obtain rfl := Except.ok.inj gf'
  rw [gm] at gm'
  obtain rfl := Except.ok.inj gm'
  obtain ⟨m', gm', -, -, hcol, -⟩ := c17_probability h symq fct
  rw [gm] at gm'
  obtain rfl := Except.ok.inj gm'
  constructor
  · have bal : ∀ q b c, b ∈ v.row q → c ∈ v.row (q + 1) →
        m.val (la.lab (q + 1) c c) (la.lab q b b) * p (la.lab q b b)
          = m.val (la.lab q b b) (la.lab (q + 1) c c) * p (la.lab (q + 1) c c) := by
      intro q b c hb hc
      have hne : (q + 1, c) ≠ (q, b) := by simp
      rw [(hoff (q + 1) c q b ((mem_R h).2 hc) ((mem_R h).2 hb) hne).1 rfl,
        (hoff q b (q + 1) c ((mem_R h).2 hb) ((mem_R h).2 hc) hne.symm).2.1 rfl, hp _ _ hb, hp _ _ hc]
      have hsym : ∀ l, Complex.normSq (L.Tba l b c) = Complex.normSq (L.Tba l c b) := fun l => by
        rw [hherm l b c, Complex.normSq_conj]
      simp only [hsym]
      rcases lev.pair hb hc with ⟨i, hi, hib, e, eE⟩ | ⟨_, h0⟩
      · have s1 : ∑ l ∈ range v.nleads, Complex.normSq (L.Tba l c b) * (L.rate l (E c - E b)).1
            = (∑ l ∈ range v.nleads, L.width l (t l i) (ε i)) * L.mean v.nleads ε t i := by
          rw [← (mean_eq hcpl (mem_range.1 hi)).1]
          refine sum_congr rfl fun l hl => ?_
          rw [lev.enter l q b c i (mem_range.1 hl) hb hc hib e, eE, (width_rate (hT l (mem_range.1 hl)) _ _).1]
        have s2 : ∑ l ∈ range v.nleads, Complex.normSq (L.Tba l c b) * (L.rate l (E c - E b)).2
            = (∑ l ∈ range v.nleads, L.width l (t l i) (ε i)) * (1 - L.mean v.nleads ε t i) := by
          rw [← (mean_eq hcpl (mem_range.1 hi)).2]
          refine sum_congr rfl fun l hl => ?_
          rw [lev.enter l q b c i (mem_range.1 hl) hb hc hib e, eE, (width_rate (hT l (mem_range.1 hl)) _ _).2]
        rw [s1, s2, e]
        unfold Leads.prob
        rw [prod_out hi hib, prod_in hi]
        ring
      · rw [sum_eq_zero, sum_eq_zero, zero_mul, zero_mul]
        all_goals
          intro l hl
          rw [h0 l (mem_range.1 hl), map_zero, zero_mul]
    intro i hi
    obtain ⟨c, b, hb, rfl⟩ := pop_label h hi
    have : ∑ j ∈ range v.npauli, m.val (la.lab c b b) j * p j
        = ∑ j ∈ range v.npauli, (m.val (la.lab c b b) j * p j - m.val j (la.lab c b b) * p (la.lab c b b)) := by
      rw [sum_sub_distrib, ← sum_mul, hcol _ hi, zero_mul, sub_zero]
    rw [this]
    refine sum_eq_zero fun j hj => ?_
    obtain ⟨c', a, ha, rfl⟩ := pop_label h (mem_range.1 hj)
    by_cases e : (c, b) = (c', a)
    · simp only [Prod.mk.injEq] at e
      obtain ⟨rfl, rfl⟩ := e
      exact sub_self _
    by_cases e1 : c = c' + 1
    · subst e1
      rw [bal c' a b ha hb, sub_self]
    by_cases e2 : c' = c + 1
    · subst e2
      rw [bal c b a hb ha, sub_self]
    rw [(hoff c b c' a ((mem_R h).2 hb) ((mem_R h).2 ha) e).2.2.1 e1 e2,
      (hoff c' a c b ((mem_R h).2 ha) ((mem_R h).2 hb) (Ne.symm e)).2.2.1 e2 e1, zero_mul, zero_mul, sub_self]
  · rw [sum_pop h]
    have : ∑ q ∈ range v.ncharge, ∑ b ∈ v.R q, p (la.lab q b b)
        = ∑ q ∈ range v.ncharge, ∑ b ∈ v.R q, L.prob v.nleads N ε t (occ b) :=
      sum_congr rfl fun q _ => sum_congr rfl fun b hb => hp q b ((mem_R h).1 hb)
    rw [this, sum_levels h lev]
    exact sum_powerset_one _ _

include h lev in
/-- The currents of the distribution. -/
theorem levels_currents (hherm : L.Herm) (hT : ∀ l, l < v.nleads → 0 < L.T l) {fct : Nat → Nat → ℝ × ℝ}
    (gf : Pauli.genFct v E L = .ok fct) {φ : Vec} (hs : v.npauli ≤ φ.size)
    (hp : ∀ c b, b ∈ v.row c → φ.val (la.lab c b b) = L.prob v.nleads N ε t (occ b)) :
    ∃ evs, Pauli.genCurrent v E fct φ = .ok evs ∧ ∀ l, l < v.nleads →
      current evs l
        = ∑ i ∈ range N, L.width l (t l i) (ε i) * (L.filling l (ε i) - L.mean v.nleads ε t i) ∧
      energyCurrent evs l
        = ∑ i ∈ range N, ε i * (L.width l (t l i) (ε i) * (L.filling l (ε i) - L.mean v.nleads ε t i)) := by
  obtain ⟨evs, g, hcur⟩ := Pauli.genCurrent_ok h E fct φ hs
  obtain ⟨fct', gf', hf⟩ := Pauli.genFct_ok h E L
  rw [gf] at gf'
  obtain rfl := Except.ok.inj gf'
  refine ⟨evs, g, fun l hl => ?_⟩
  obtain ⟨h1, h2⟩ := hcur l hl
  let Q : Nat → Finset Nat → ℝ := fun i S => ∏ j ∈ (range N).erase i,
    if j ∈ S then L.mean v.nleads ε t j else 1 - L.mean v.nleads ε t j
  have key : ∀ q c b, c ∈ v.row (q + 1) → b ∈ v.row q →
      (¬ occ b ⊆ occ c → φ.val (la.lab q b b) * (fct l (la.ix1 q c b)).1
          - φ.val (la.lab (q + 1) c c) * (fct l (la.ix1 q c b)).2 = 0) ∧
      ∀ i, i ∉ occ b → occ c = insert i (occ b) → E c - E b = ε i ∧
        φ.val (la.lab q b b) * (fct l (la.ix1 q c b)).1
          - φ.val (la.lab (q + 1) c c) * (fct l (la.ix1 q c b)).2
          = L.width l (t l i) (ε i) * (L.filling l (ε i) - L.mean v.nleads ε t i) * Q i (occ b) := by
    intro q c b hc hb
    have hr : fct l (la.ix1 q c b) = (Complex.normSq (L.Tba l c b) * (L.rate l (E c - E b)).1,
        Complex.normSq (L.Tba l c b) * (L.rate l (E c - E b)).2) := by
      rw [hf q c b l ((mem_R h).2 hc) ((mem_R h).2 hb) hl]
      simp only [Pauli.amp, hherm.re]
      rfl
    rw [hr]
    dsimp only
    refine ⟨fun hn => ?_, fun i hib e => ?_⟩
    · rw [lev.none l q b c hl hb hc hn, map_zero]
      ring
    · have hi : i ∈ range N := lev.sub _ c hc (by rw [e]; exact mem_insert_self _ _)
      have eE : E c - E b = ε i := by
        rw [lev.energy _ c hc, lev.energy _ b hb, e, sum_insert hib]; ring
      refine ⟨eE, ?_⟩
      rw [lev.enter l q b c i hl hb hc hib e, eE, (width_rate (hT l hl) _ _).1, (width_rate (hT l hl) _ _).2,
        hp _ _ hb, hp _ _ hc, e]
      unfold Leads.prob
      rw [prod_out hi hib, prod_in hi]
      dsimp only [Q]
      ring
  have hQ : ∀ i, ∑ S ∈ ((range N).erase i).powerset, Q i S = 1 := fun i => sum_powerset_one _ _
  constructor
  · rw [h1, sum_levels_pairs h lev _ (fun i S => L.width l (t l i) (ε i) *
      (L.filling l (ε i) - L.mean v.nleads ε t i) * Q i S) (fun q c b hc hb => (key q c b hc hb).1)
      fun q c b i hc hb hi e => ((key q c b hc hb).2 i hi e).2]
    refine sum_congr rfl fun i _ => ?_
    rw [← mul_sum, hQ, mul_one]
  · rw [h2, sum_levels_pairs h lev _ (fun i S => ε i * (L.width l (t l i) (ε i) *
      (L.filling l (ε i) - L.mean v.nleads ε t i)) * Q i S)
      (fun q c b hc hb hn => by rw [(key q c b hc hb).1 hn, mul_zero])
      fun q c b i hc hb hi e => by
        obtain ⟨a1, a2⟩ := (key q c b hc hb).2 i hi e
        rw [a1, a2]
        ring]
    refine sum_congr rfl fun i _ => ?_
    rw [← mul_sum, hQ, mul_one]

include h lev hcpl in
/-- **C94**. For levels without interaction, each coupled to a lead with its energy in the band, the only normalised
solution of the Pauli equations is the product distribution: the level `i` is occupied with the mean of the Fermi
functions of the leads, weighted by the widths, independently of the other levels. The particle current of the lead `l` is
the sum over the levels of the width times the difference of the occupation of the lead and that of the level, and each
electron carries the energy of its level. -/
theorem c94_levels (symq : Bool) (hherm : L.Herm) (hT : ∀ l, l < v.nleads → 0 < L.T l) :
    ∃ fct m, Pauli.genFct v E L = .ok fct ∧ Pauli.kernel v symq fct = .ok m ∧
      (∃ φ : Vec, φ.size = v.npauli ∧ (∀ i, i < v.npauli → ∑ j ∈ range v.npauli, m.val i j * φ.val j = 0) ∧
        ∑ j ∈ range v.npauli, φ.val j = 1) ∧
      ∀ φ : Vec, φ.size = v.npauli → (∀ i, i < v.npauli → ∑ j ∈ range v.npauli, m.val i j * φ.val j = 0) →
        ∑ j ∈ range v.npauli, φ.val j = 1 →
        (∀ q b, b ∈ v.row q → φ.val (la.lab q b b) = ∏ i ∈ range N,
          if i ∈ occ b then L.mean v.nleads ε t i else 1 - L.mean v.nleads ε t i) ∧
        ∃ evs, Pauli.genCurrent v E fct φ = .ok evs ∧ ∀ l, l < v.nleads →
          current evs l
            = ∑ i ∈ range N, L.width l (t l i) (ε i) * (L.filling l (ε i) - L.mean v.nleads ε t i) ∧
          energyCurrent evs l
            = ∑ i ∈ range N, ε i * (L.width l (t l i) (ε i) * (L.filling l (ε i) - L.mean v.nleads ε t i)) := by
  have hat := levels_attained h lev hcpl hT
  have hne : 0 < v.npauli := by
    obtain ⟨st, hst⟩ := hat
    exact lt_of_le_of_lt (Nat.zero_le _) (h.lab_diag _ _ hst.1)
  obtain ⟨fct, m, gf, gm, hu, _⟩ := c93_unique h symq E L hherm hT hne
  choose! cq bq hbq hlab using fun k (hk : k < v.npauli) => pop_label h hk
  let p : Vec := ⟨v.npauli, fun k => L.prob v.nleads N ε t (occ (bq k))⟩
  have hp : ∀ c b, b ∈ v.row c → p.val (la.lab c b b) = L.prob v.nleads N ε t (occ b) := by
    intro c b hb
    have hk := h.lab_diag c b hb
    obtain ⟨_, e⟩ := pop_inj h (hbq _ hk) hb (hlab _ hk)
    dsimp only [p]
    rw [e]
  obtain ⟨st, s1⟩ := levels_stationary h lev hcpl hherm hT gf gm hp
  refine ⟨fct, m, gf, gm, ⟨p, rfl, st, s1⟩, fun φ hs hφ h1 => ?_⟩
  have e := hu.2 hat φ.val p.val hφ st h1 s1
  have hφp : ∀ c b, b ∈ v.row c → φ.val (la.lab c b b) = L.prob v.nleads N ε t (occ b) := fun c b hb =>
    (e _ (h.lab_diag c b hb)).trans (hp c b hb)
  exact ⟨hφp, levels_currents h lev hherm hT gf hs.ge hφp⟩

include h lev hcpl in
/-- **C94** for `solve`: these are the probabilities and currents the object holds after `solve`, for every `norm_row`,
`symq` and history, if the linear solver solves the systems with one solution. -/
theorem c94_solve (num : NumLib) (hherm : L.Herm) (hT : ∀ l, l < v.nleads → 0 < L.T l)
    {s : AState} (hs0 : Reached Kind.pauli.size false s) (hv : s.v = v)
    (hap : s.ap = Kind.pauli.ap num E L) (hm : s.opts.mfreeq = false)
    (hs : s.opts.prepareSolver.solmethod = some "solve" ∨ s.opts.prepareSolver.solmethod = some "lsqr")
    (hrow : s.opts.symq = true → ∃ r, pyIdx v.npauli s.opts.normRow = .ok r)
    (lib : LinLib) (hlib : lib.Solves) (run : RootRun) :
    ∃ φ evs, (s.solve lib run true).1.phi0 = some φ ∧ (s.solve lib run true).1.success = some true ∧
      (s.solve lib run true).1.cur = some evs ∧
      (∀ q b, b ∈ v.row q → φ.val (la.lab q b b) = ∏ i ∈ range N,
        if i ∈ occ b then L.mean v.nleads ε t i else 1 - L.mean v.nleads ε t i) ∧
      ∀ l, l < v.nleads →
        current evs l
          = ∑ i ∈ range N, L.width l (t l i) (ε i) * (L.filling l (ε i) - L.mean v.nleads ε t i) ∧
        energyCurrent evs l
          = ∑ i ∈ range N, ε i * (L.width l (t l i) (ε i) * (L.filling l (ε i) - L.mean v.nleads ε t i)) := by
  obtain ⟨φ, g1, g2, g3, g4, -, fct, m, gf, gm, g5, g6⟩ := c93_solve h num E L hherm hT hs0 hv hap hm hs hrow lib hlib
    run true (levels_attained h lev hcpl hT)
  obtain ⟨fct', m', gf', gm', -, key⟩ := c94_levels h lev hcpl s.opts.symq hherm hT
  rw [gf] at gf'
  obtain rfl := Except.ok.inj gf'
  rw [gm] at gm'
  obtain rfl := Except.ok.inj gm'
  obtain ⟨k1, evs, k2, k3⟩ := key φ g3 g5 g4
  obtain ⟨evs', g7, g8⟩ := g6 rfl
  rw [k2] at g7
  obtain rfl := Except.ok.inj g7
  exact ⟨φ, evs, g1, g2, g8, k1, k3⟩

end

/-- The hypotheses of `c94_levels` and `c94_solve` can be met: two levels at different energies between two leads at
different chemical potentials, with their four occupations. -/
example : ∃ (v : View) (la : Lab) (E : Nat → ℝ) (L : Leads) (N : Nat) (E0 : ℝ) (ε : Nat → ℝ) (t : Nat → Nat → ℂ)
    (occ : Nat → Finset Nat), VOk v la ∧ L.Herm ∧ v.nleads = 2 ∧ N = 2 ∧ L.mu 0 ≠ L.mu 1 ∧ ε 0 ≠ ε 1 ∧
    (∀ l, l < v.nleads → 0 < L.T l) ∧ Levels v E L N E0 ε t occ ∧
    ∀ i, i < N → ∃ l, l < v.nleads ∧ t l i ≠ 0 ∧ L.InBand l (ε i) := by
  obtain ⟨d, _, hv, hst, hp, hn⟩ := view_example' 2
  have row : ∀ q b, b ∈ (d.view 2).row q → (q = 0 ∧ b = 0) ∨ (q = 1 ∧ (b = 1 ∨ b = 2)) ∨ (q = 2 ∧ b = 3) := by
    intro q b hb
    simp only [View.row, DM.view, hst] at hb
    rcases q with _ | _ | _ | _ | q <;> simp at hb <;> omega
  have row' : 0 ∈ (d.view 2).row 0 ∧ 1 ∈ (d.view 2).row 1 ∧ 2 ∈ (d.view 2).row 1 ∧ 3 ∈ (d.view 2).row 2 := by
    simp [View.row, DM.view, hst]
  let occ : Nat → Finset Nat := fun b => (range 2).filter fun i => b.testBit i
  have o : occ 0 = ∅ ∧ occ 1 = {0} ∧ occ 2 = {1} ∧ occ 3 = {0, 1} := by decide
  refine ⟨d.view 2, d.labOf, fun b => b, ⟨fun l => l, fun _ => 1, fun _ => -60, fun _ => 60,
    fun _ b c => 1, 0, 10000⟩, 2, 0, fun i => i + 1, fun _ _ => 1, occ, hv, fun _ _ _ => by simp, rfl, rfl, by simp,
    by norm_num, fun _ _ => one_pos, ⟨?_, ?_, ?_, ?_, ?_, ?_, ?_⟩, ?_⟩
  · intro q b _
    exact filter_subset _ _
  · intro q b hb
    rcases row q b hb with ⟨rfl, rfl⟩ | ⟨rfl, rfl | rfl⟩ | ⟨rfl, rfl⟩ <;> simp [o]
  · intro q b b' hb hb' e
    rcases row q b hb with ⟨rfl, rfl⟩ | ⟨rfl, rfl | rfl⟩ | ⟨rfl, rfl⟩ <;>
      rcases row _ b' hb' with ⟨hq, rfl⟩ | ⟨hq, rfl | rfl⟩ | ⟨hq, rfl⟩ <;> first | rfl | omega | simp [o] at e
  · intro S hS
    have : S ∈ (range 2).powerset := mem_powerset.2 hS
    have e : (range 2).powerset = {∅, {0}, {1}, {0, 1}} := by decide
    rw [e] at this
    simp only [mem_insert, mem_singleton] at this
    rcases this with rfl | rfl | rfl | rfl
    · exact ⟨0, row'.1, o.1⟩
    · exact ⟨1, row'.2.1, o.2.1⟩
    · exact ⟨2, row'.2.2.1, o.2.2.1⟩
    · exact ⟨3, row'.2.2.2, o.2.2.2⟩
  · intro q b hb
    rcases row q b hb with ⟨rfl, rfl⟩ | ⟨rfl, rfl | rfl⟩ | ⟨rfl, rfl⟩ <;> simp [o] <;> norm_num
  · intro l q b c i _ _ _ _ _
    rfl
  · intro l q b c _ hb hc hs
    exfalso
    rcases row q b hb with ⟨rfl, rfl⟩ | ⟨rfl, rfl | rfl⟩ | ⟨rfl, rfl⟩ <;>
      rcases row _ c hc with ⟨hq, rfl⟩ | ⟨hq, rfl | rfl⟩ | ⟨hq, rfl⟩ <;> simp_all
  · intro i hi
    have h1 : (i : ℝ) ≤ 1 := by exact_mod_cast (by omega : i ≤ 1)
    have h0 : (0 : ℝ) ≤ i := Nat.cast_nonneg i
    refine ⟨0, two_pos, one_ne_zero, .inr (.inr ⟨?_, ?_⟩)⟩ <;> dsimp only <;> linarith

end

end Verif
