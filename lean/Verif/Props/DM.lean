import Verif.Lemmas.DMInv
import Mathlib.Data.Nat.Choose.Vandermonde
import Mathlib.Data.Nat.Choose.Central

/-! C05-C08, C50: positions and labels of density matrix elements. -/

namespace Verif
open Spec

/-- `b` is a considered state of charge `c`. -/
def Considered (n : Nat) (S : List (List Nat)) (c b : Nat) : Prop := c ≤ n ∧ b ∈ S[c]?.getD []

/-- **C05**. For every object of class `StateIndexingDM` (any history) `get_ind_dm0(...,
maptype=0)` maps the ordered pairs of considered states of equal charge one-to-one onto
`0..ndm0_-1`. -/
theorem c05_raw_bijection {n : Nat} {indexing : String} {d : DM} {S : List (List Nat)}
    (h : Reach .dm n indexing d S) :
    (∀ c b bp, Considered n S c b → Considered n S c bp →
      ∃ r : Nat, d.rawInd0 b bp c = .ok r ∧ r < d.ndm0_) ∧
    (∀ c b bp c' b' bp', Considered n S c b → Considered n S c bp →
      Considered n S c' b' → Considered n S c' bp' →
      d.rawInd0 b bp c = d.rawInd0 b' bp' c' → c = c' ∧ b = b' ∧ bp = bp') ∧
    (∀ r, r < d.ndm0_ → ∃ c b bp, Considered n S c b ∧ Considered n S c bp ∧
      d.rawInd0 b bp c = .ok r) := by
  obtain ⟨hi, hk, _⟩ := h.inv
  have hk' : d.kind ≠ .pauli := by rw [hk]; simp
  refine ⟨?_, ?_, ?_⟩
  · rintro c b bp ⟨h1, h2⟩ ⟨_, h3⟩
    refine ⟨_, hi.dict.raw (by omega) h2 h3 hk', ?_⟩
    rw [hi.sizes.ndm0_]
    exact pos0_lt (by omega) h2 h3
  · rintro c b bp c' b' bp' ⟨h1, h2⟩ ⟨_, h3⟩ ⟨h1', h2'⟩ ⟨_, h3'⟩ e
    rw [hi.dict.raw (by omega) h2 h3 hk', hi.dict.raw (by omega) h2' h3' hk'] at e
    simp only [Except.ok.injEq] at e
    exact pos0_inj h2 h3 h2' h3' e
  · intro r hr
    rw [hi.sizes.ndm0_] at hr
    obtain ⟨c, b, bp, h1, h2, h3, rfl⟩ := pos0_surj hi.good.nodup hr
    exact ⟨c, b, bp, ⟨by omega, h2⟩, ⟨by omega, h3⟩, hi.dict.raw h1 h2 h3 hk'⟩

/-- **C05**, **C06**, **C50**: outside 'ssq' indexing every call of the histories succeeds. -/
theorem c05_total (kind : DMKind) (n : Nat) (indexing : String)
    (hne : ¬ (indexing = "ssq" ∧ n % 2 = 0)) :
    (∃ si d, SI.init n indexing = .ok si ∧ DM.init kind n indexing = .ok d) ∧
    ∀ d S, Reach kind n indexing d S →
      (∀ S', Legal d.si S' → ∃ d', d.setStatesdm S' = .ok d') ∧
      (∃ d', d.setStatesAll = .ok d') ∧
      (∀ inds : List Int, (d.si.indexing = .Lin → d.si.removed = none ∧ kind = .dm) →
        (∀ i ∈ inds, -((2 ^ n : Nat) : Int) ≤ i ∧ i < ((2 ^ n : Nat) : Int)) →
        ∃ si' d', d.si.removeFockStates inds = .ok si' ∧ d.removeFockStates inds = .ok d') := by
  obtain ⟨d, hd⟩ := (init_dm_inv kind n indexing).1 hne
  obtain ⟨si, hsi, _⟩ := (init_dm_inv kind n indexing).2 d hd
  refine ⟨⟨si, d, hsi, hd⟩, ?_⟩
  intro d S hr
  apply hr.total
  rw [hr.inv.2.2]
  unfold chooseIndexing
  repeat' split
  all_goals simp_all

/-- An object with considered states of charges 1 and 2 only. -/
example : (DM.init .dm 3 "charge" >>= fun d => d.setStatesdm [[], [1, 3], [6, 4], []] >>=
    fun d => d.rawInd0 6 4 2) = .ok 5 := by decide +kernel

example : (DM.init .dm 4 "ssq" >>= fun d => d.rawInd0 9 7 2) = .ok 43 := by decide +kernel

/-- The off-diagonal elements that the indexing includes: all of them, or for 'sz' indexing
those between states of equal spin projection. -/
def Included (n : Nat) (d : DM) (b bp : Nat) : Prop :=
  d.si.indexing = .sz → ∃ s s', d.si.getState b = .ok s ∧ d.si.getState bp = .ok s' ∧
    twoSz n s = twoSz n s'

theorem DMInv.getState_ok {n : Nat} {d : DM} {S : List (List Nat)} (hi : DMInv n d S) {b : Nat}
    (hb : b < d.si.nmany) : ∃ s, d.si.getState b = .ok s ∧ szOf n d.si b = twoSz n s := by
  obtain ⟨k, ⟨s, hs, e⟩, _⟩ := hi.si
  have h1 : d.si.getState b = s.getState b := by rw [e]; rfl
  have hb' : b < s.i.length := by rw [hs.ilen]; rw [e] at hb; exact hb
  refine ⟨_, by rw [h1]; exact hs.getState hb', ?_⟩
  unfold szOf
  rw [h1, hs.getState hb']

theorem included_iff {n : Nat} {d : DM} {S : List (List Nat)} (hi : DMInv n d S)
    {b bp : Nat} (hb : b < d.si.nmany) (hbp : bp < d.si.nmany) :
    Included n d b bp ↔ inclOf d.si.indexing (szOf n d.si) b bp = true := by
  obtain ⟨s, h1, h2⟩ := hi.getState_ok hb
  obtain ⟨s', h1', h2'⟩ := hi.getState_ok hbp
  unfold Included inclOf
  by_cases hix : d.si.indexing = .sz
  · simp only [hix, forall_const, if_true, decide_eq_true_eq, h1, h1', h2, h2', Except.ok.injEq]
    constructor
    · rintro ⟨_, _, rfl, rfl, h⟩; exact h
    · intro h; exact ⟨_, _, rfl, rfl, h⟩
  · simp [hix]

/-- The considered states are indices of existing states. -/
theorem Reach.lt {kind : DMKind} {n : Nat} {indexing : String} {d : DM} {S : List (List Nat)}
    (h : Reach kind n indexing d S) {c b : Nat} (hb : Considered n S c b) : b < d.si.nmany := by
  have key : ∀ c, c ≤ n → ∀ b ∈ S[c]?.getD [], b < d.si.nmany := by
    cases h with
    | init h1 h2 =>
      rename_i si
      obtain ⟨si', g1, g2, g3, g4, _⟩ := (init_dm_inv kind n indexing).2 _ h2
      obtain ⟨si'', g5, g6, _⟩ := init_inv n indexing
      rw [h1] at g5
      simp only [Except.ok.injEq] at g5
      subst g5
      have hl := (show SIX n 0 si from ⟨si, g6, by simp⟩).legal
      have hnm : d.si.nmany = si.nmany := by
        unfold DM.init at h2
        rw [h1] at h2
        simp only [py_bind_ok] at h2
        obtain ⟨k, hk⟩ := ((setStatesAll_inv (n := n) (k := 0) (d := DM.blank kind si n)
          ⟨si, g6, by simp [DM.blank]⟩ (fun _ => rfl)
          ⟨g6.ncharge, by omega, by simp [DM.blank, g6.ncharge], by simp [DM.blank, g6.ncharge],
            by simp [DM.blank], by simp [DM.blank, g6.ncharge], by simp [DM.blank, g6.ncharge],
            by
              obtain ⟨si3, g7, g8, _, g9⟩ := init_inv n indexing
              rw [h1] at g7
              simp only [Except.ok.injEq] at g7
              subst g7
              simp [DM.blank, g8.nmany, g9]⟩ rfl rfl).2 _ h2).2.2
        rw [hk]; rfl
      rw [hnm]
      intro c hc b hb
      exact hl.lt c (by rw [g6.ncharge]; omega) b hb
    | set h1 hl hs =>
      obtain ⟨hi, _⟩ := h1.inv
      obtain ⟨k, h2, h3⟩ := hi.si
      obtain ⟨_, _, a3⟩ := (setStatesdm_inv h2 h3 hi.shape hl hi.tot0 hi.tot1).2 _ hs
      rw [a3]
      intro c hc b hb
      exact hl.lt c (by rw [h2.inv.2.1]; omega) b hb
    | all h1 hs =>
      obtain ⟨hi, _⟩ := h1.inv
      obtain ⟨k, h2, h3⟩ := hi.si
      obtain ⟨_, _, k', a3⟩ := (setStatesAll_inv h2 h3 hi.shape hi.tot0 hi.tot1).2 _ hs
      rw [a3]
      intro c hc b hb
      exact h2.legal.lt c (by rw [h2.inv.2.1]; omega) b hb
    | @remove d0 S0 inds si' _ h1 hl hin hs hr =>
      obtain ⟨hi, hk, hix⟩ := h1.inv
      obtain ⟨k, h2, h3⟩ := hi.si
      obtain ⟨si'', b1, b2, b3, b4⟩ := h2.remove inds
        (fun h => ⟨(hl h).1, h3 (by rw [hk]; exact (hl h).2)⟩) hin
      rw [hs] at b1
      simp only [Except.ok.injEq] at b1
      subst b1
      unfold DM.removeFockStates at hr
      rw [hs] at hr
      simp only [py_bind_ok] at hr
      have h4 : ∃ k', SIX n k' si' ∧ (d0.kind = .dm → k' = 0) := by
        by_cases hssq : d0.si.indexing = .ssq
        · rw [b4 hssq]; exact ⟨k, h2, h3⟩
        · exact ⟨0, b3 hssq, fun _ => rfl⟩
      obtain ⟨k', c1, c2⟩ := h4
      have hsh : DMShape (n + 1) (2 ^ n) { d0 with si := si' } := by
        obtain ⟨a1, a2, a3, a4, a5, a6, a7, a8⟩ := hi.shape
        exact ⟨c1.inv.2.1, a2, a3, a4, a5, a6, a7, a8⟩
      obtain ⟨_, _, k'', a3⟩ := (setStatesAll_inv (d := { d0 with si := si' }) c1 c2 hsh
        hi.tot0 hi.tot1).2 _ hr
      rw [a3]
      intro c hc b hb
      exact c1.legal.lt c (by rw [c1.inv.2.1]; omega) b hb
  exact key c hb.1 b hb.2

/-- What C06 says about an object. -/
structure LabelsOk (n : Nat) (S : List (List Nat)) (d : DM) : Prop where
  /-- Diagonal elements have the labels `0..npauli-1`, each exactly one, and are unique. -/
  diag : ∀ c b, Considered n S c b → ∃ k : Nat, k < d.npauli ∧ d.getIndDm0 b b c = .ok (k : Int) ∧
    d.getBoolDm0 b b c = .ok true ∧ d.getConjDm0 b b c = .ok true
  diag_inj : ∀ c b c' b', Considered n S c b → Considered n S c' b' →
    d.getIndDm0 b b c = d.getIndDm0 b' b' c' → c = c' ∧ b = b'
  diag_surj : ∀ k, k < d.npauli → ∃ c b, Considered n S c b ∧ d.getIndDm0 b b c = .ok (k : Int)
  /-- Included off-diagonal elements: one label from `npauli..ndm0-1` for the pair and its
  transpose, one of the two is unique and not conjugated. -/
  off : ∀ c b bp, Considered n S c b → Considered n S c bp → b ≠ bp → Included n d b bp →
    ∃ (k : Nat) (x : Bool), d.npauli ≤ k ∧ k < d.ndm0 ∧
      d.getIndDm0 b bp c = .ok (k : Int) ∧ d.getIndDm0 bp b c = .ok (k : Int) ∧
      d.getBoolDm0 b bp c = .ok x ∧ d.getBoolDm0 bp b c = .ok (!x) ∧
      d.getConjDm0 b bp c = .ok x ∧ d.getConjDm0 bp b c = .ok (!x) ∧
      d.mp.ind.get? k = some (if x then (b, bp) else (bp, b))
  off_inj : ∀ c b bp c' b' bp', Considered n S c b → Considered n S c bp → b ≠ bp →
    Included n d b bp → Considered n S c' b' → Considered n S c' bp' → b' ≠ bp' →
    Included n d b' bp' → d.getIndDm0 b bp c = d.getIndDm0 b' bp' c' →
    c = c' ∧ ((b = b' ∧ bp = bp') ∨ (b = bp' ∧ bp = b'))
  off_surj : ∀ k, d.npauli ≤ k → k < d.ndm0 → ∃ c b bp, Considered n S c b ∧
    Considered n S c bp ∧ b ≠ bp ∧ Included n d b bp ∧ d.getIndDm0 b bp c = .ok (k : Int)
  /-- All other elements are marked as excluded. -/
  excl : ∀ c b bp, Considered n S c b → Considered n S c bp → b ≠ bp → ¬ Included n d b bp →
    d.getIndDm0 b bp c = .ok (-1) ∧ d.getBoolDm0 b bp c = .ok false
  ndm0r : d.ndm0r = d.npauli + 2 * (d.ndm0 - d.npauli)
  /-- Without 'sz' there are as many real unknowns as elements. -/
  full : d.si.indexing ≠ .sz →
    d.ndm0r = ((List.range (n + 1)).map fun c => (S[c]?.getD []).length ^ 2).sum

/-- **C06**. Labels of `StateIndexingDM` with 'Lin', 'charge' or 'sz' indexing, after any
history. -/
theorem c06_labels {n : Nat} {indexing : String} {d : DM} {S : List (List Nat)}
    (h : Reach .dm n indexing d S) (hix : d.si.indexing ≠ .ssq) : LabelsOk n S d := by
  obtain ⟨hi, hk, _⟩ := h.inv
  have L := (hi.lab hix).dm hk
  have inc : ∀ {c b bp}, Considered n S c b → Considered n S c bp →
      (Included n d b bp ↔ inclOf d.si.indexing (szOf n d.si) b bp = true) :=
    fun h1 h2 => included_iff hi (h.lt h1) (h.lt h2)
  constructor
  · rintro c b ⟨h1, h2⟩
    obtain ⟨a1, a2, a3, _⟩ := L.diag c b (by omega) h2
    exact ⟨_, by rw [L.npauli]; exact posP_lt (by omega) h2, a1, a2, a3⟩
  · rintro c b c' b' ⟨h1, h2⟩ ⟨h1', h2'⟩ e
    rw [(L.diag c b (by omega) h2).1, (L.diag c' b' (by omega) h2').1] at e
    simp only [Except.ok.injEq] at e
    exact posP_inj h2 h2' (by omega)
  · intro k hk
    rw [L.npauli] at hk
    obtain ⟨c, b, h1, h2, rfl⟩ := posP_surj hi.good.nodup hk
    exact ⟨c, b, ⟨by omega, h2⟩, (L.diag c b h1 h2).1⟩
  · intro c b bp h1 h2 h3 h4
    exact L.off c b bp (by have := h1.1; omega) h1.2 h2.2 h3 ((inc h1 h2).1 h4)
  · intro c b bp c' b' bp' h1 h2 h3 h4 h1' h2' h3' h4' e
    exact L.inj c b bp c' b' bp' (by have := h1.1; omega) h1.2 h2.2 h3 ((inc h1 h2).1 h4)
      (by have := h1'.1; omega) h1'.2 h2'.2 h3' ((inc h1' h2').1 h4') e
  · intro k h1 h2
    obtain ⟨c, b, bp, a1, a2, a3, a4, a5, a6, _⟩ := L.surj k h1 h2
    have c1 : Considered n S c b := ⟨by omega, a2⟩
    have c2 : Considered n S c bp := ⟨by omega, a3⟩
    exact ⟨c, b, bp, c1, c2, a4, (inc c1 c2).2 a5, a6⟩
  · intro c b bp h1 h2 h3 h4
    rw [inc h1 h2] at h4
    obtain ⟨a1, a2, _⟩ := L.excl c b bp (by have := h1.1; omega) h1.2 h2.2 h3 (by simpa using h4)
    exact ⟨a1, a2⟩
  · exact L.ndm0r
  · intro hsz
    exact L.full (by intro b bp; simp [inclOf, hsz])

example : (DM.init .dm 4 "sz" >>= fun d => .ok (d.npauli, d.ndm0, d.ndm0r)) = .ok (16, 26, 36) := by
  decide +kernel

example : (DM.init .dm 2 "Lin" >>= fun d => d.setStatesdm [[0], [1, 2], [3]] >>= fun d =>
    (do let a ← d.getIndDm0 1 2 1; let b ← d.getIndDm0 2 1 1; let c ← d.getConjDm0 2 1 1
        pure (a, b, c))) = .ok (4, 4, false) := by decide +kernel

/-- **C07**. `get_ind_dm1` maps the pairs of considered states of adjacent charge one-to-one
onto `0..ndm1-1`, in both classes with first order elements. -/
theorem c07_dm1_bijection {kind : DMKind} {n : Nat} {indexing : String} {d : DM}
    {S : List (List Nat)} (h : Reach kind n indexing d S) :
    (∀ q c b, Considered n S (q + 1) c → Considered n S q b →
      ∃ r : Nat, d.getIndDm1 c b q = .ok r ∧ r < d.ndm1) ∧
    (∀ q c b q' c' b', Considered n S (q + 1) c → Considered n S q b →
      Considered n S (q' + 1) c' → Considered n S q' b' →
      d.getIndDm1 c b q = d.getIndDm1 c' b' q' → q = q' ∧ c = c' ∧ b = b') ∧
    (∀ r, r < d.ndm1 → ∃ q c b, Considered n S (q + 1) c ∧ Considered n S q b ∧
      d.getIndDm1 c b q = .ok r) := by
  obtain ⟨hi, hk, _⟩ := h.inv
  have hn1 : d.ndm1 = pre (fun c => rowLen S c * rowLen S (c + 1)) n := by
    rw [hi.sizes.ndm1, hi.sizes.ndm1_]; rfl
  refine ⟨?_, ?_, ?_⟩
  · rintro q c b ⟨h1, h2⟩ ⟨_, h3⟩
    refine ⟨_, hi.dict.ind1 (by omega) h3 h2, ?_⟩
    rw [hn1]
    exact pos1_lt (by omega) h3 h2
  · rintro q c b q' c' b' ⟨h1, h2⟩ ⟨_, h3⟩ ⟨h1', h2'⟩ ⟨_, h3'⟩ e
    rw [hi.dict.ind1 (by omega) h3 h2, hi.dict.ind1 (by omega) h3' h2'] at e
    simp only [Except.ok.injEq] at e
    exact pos1_inj h3 h2 h3' h2' e
  · intro r hr
    rw [hn1] at hr
    obtain ⟨q, c, b, h1, h2, h3, rfl⟩ := pos1_surj (m := n)
      (fun c hc => hi.good.nodup c hc) hr
    exact ⟨q, c, b, ⟨by omega, h2⟩, ⟨by omega, h3⟩, hi.dict.ind1 (by omega) h3 h2⟩

example : (DM.init .dmc 3 "charge" >>= fun d => d.setStatesdm [[0], [1, 3], [6, 4], []] >>=
    fun d => do let k ← d.getIndDm1 4 3 1; pure (k, d.ndm1)) = .ok (5, 6) := by decide +kernel

/-! ### Sizes -/

theorem fact_rec (n : Nat) : (Nat.rec 1 (fun k f => (k + 1) * f) n : Nat) = n.factorial := by
  induction n with
  | zero => rfl
  | succ n ih => rw [Nat.factorial_succ, ← ih]

theorem ndm0TotOf_eq (n : Nat) : ndm0TotOf n = (2 * n).choose n := by
  unfold ndm0TotOf
  rw [fact_rec, fact_rec, Nat.choose_eq_factorial_div_factorial (by omega), pow_two]
  congr 3
  omega

theorem pre_eq_sum (f : Nat → Nat) (k : Nat) : pre f k = ∑ i ∈ Finset.range k, f i := by
  induction k with
  | zero => rfl
  | succ k ih => rw [pre_succ, ih, Finset.sum_range_succ]

theorem sum_choose_adj (n : Nat) :
    ∑ c ∈ Finset.range n, n.choose c * n.choose (c + 1) = (2 * n).choose (n + 1) := by
  rw [two_mul, Nat.add_choose_eq, Finset.Nat.sum_antidiagonal_eq_sum_range_succ_mk,
    Finset.sum_range_succ', Finset.sum_range_succ]
  simp only [Nat.sub_zero, Nat.choose_zero_right, Nat.choose_succ_self, mul_zero, add_zero]
  have : n.choose (n + 1) = 0 := Nat.choose_succ_self n
  have h2 : ∀ c ∈ Finset.range n, n.choose c * n.choose (c + 1)
      = n.choose (c + 1) * n.choose (n + 1 - (c + 1)) := by
    intro c hc
    simp only [Finset.mem_range] at hc
    rw [Nat.add_sub_add_right, Nat.choose_symm (by omega), mul_comm]
  rw [Finset.sum_congr rfl h2]
  simp

/-- **C08**. After construction the number of zeroth order elements is
`ndm0_tot = binomial(2n, n)` and that of first order elements is
`ndm1_tot = n/(n+1) * binomial(2n, n)` (an integer). -/
theorem c08_sizes (kind : DMKind) (n : Nat) (indexing : String) {d : DM}
    (h : DM.init kind n indexing = .ok d) :
    d.npauli_ = 2 ^ n ∧ d.ndm0_ = (2 * n).choose n ∧ d.ndm0Tot = (2 * n).choose n ∧
    d.ndm1_ = d.ndm1Tot ∧ (n + 1) * d.ndm1Tot = n * (2 * n).choose n := by
  obtain ⟨si, h1, hinv, _, _⟩ := (init_dm_inv kind n indexing).2 d h
  obtain ⟨si', h1', hsi, _, hr⟩ := init_inv n indexing
  rw [h1] at h1'
  simp only [Except.ok.injEq] at h1'
  subst h1'
  have hrow : ∀ c, c ≤ n → rowLen si.chargelst c = n.choose c := by
    intro c hc
    obtain ⟨l, g1, _, g3, _⟩ := hsi.charge_row c hc
    have : rowOf si.chargelst c = l := by simp [rowOf, getElem?_of_pyGet g1]
    rw [rowLen, this, g3, hr, ← count_charge n c]
    simp [keepOf]
  have hc1 : d.ndm1_ = (2 * n).choose (n + 1) := by
    rw [hinv.sizes.ndm1_, Nat.add_sub_cancel, pre_eq_sum, ← sum_choose_adj]
    apply Finset.sum_congr rfl
    intro c hc
    simp only [Finset.mem_range] at hc
    rw [hrow c (by omega), hrow (c + 1) (by omega)]
  have hmul : (2 * n).choose (n + 1) * (n + 1) = (2 * n).choose n * n := by
    have := Nat.choose_succ_right_eq (2 * n) n
    rwa [show 2 * n - n = n by omega] at this
  have htot : d.ndm1Tot = (2 * n).choose (n + 1) := by
    rw [hinv.tot1, ndm0TotOf_eq, mul_comm n, ← hmul]
    exact Nat.mul_div_cancel _ (by omega)
  refine ⟨?_, ?_, by rw [hinv.tot0, ndm0TotOf_eq], by rw [hc1, htot], ?_⟩
  · rw [hinv.sizes.npauli_, pre_eq_sum, ← Nat.sum_range_choose]
    exact Finset.sum_congr rfl (fun c hc => hrow c (by simp at hc; omega))
  · rw [hinv.sizes.ndm0_, pre_eq_sum, ← Nat.sum_range_choose_sq]
    exact Finset.sum_congr rfl (fun c hc => by rw [hrow c (by simp at hc; omega)])
  · rw [htot, mul_comm, hmul, mul_comm]

example : (DM.init .dm 4 "ssq" >>= fun d => .ok (d.ndm0_, d.ndm1_)) = .ok (70, 56) := by
  decide +kernel

/-- **C50**. `StateIndexingDMc` with 'Lin' or 'charge' indexing labels the ordered pairs of
considered states of equal charge one-to-one by `0..ndm0-1`, diagonal elements first. -/
theorem c50_dmc_labels {n : Nat} {indexing : String} {d : DM} {S : List (List Nat)}
    (h : Reach .dmc n indexing d S) (hix : d.si.indexing = .Lin ∨ d.si.indexing = .charge) :
    (∀ c b bp, Considered n S c b → Considered n S c bp →
      ∃ k : Nat, d.getIndDm0 b bp c = .ok (k : Int) ∧ k < d.ndm0 ∧ (k < d.npauli ↔ b = bp) ∧
        d.getBoolDm0 b bp c = .ok true ∧ d.mp.ind.get? k = some (b, bp)) ∧
    (∀ c b bp c' b' bp', Considered n S c b → Considered n S c bp →
      Considered n S c' b' → Considered n S c' bp' →
      d.getIndDm0 b bp c = d.getIndDm0 b' bp' c' → c = c' ∧ b = b' ∧ bp = bp') ∧
    (∀ k, k < d.ndm0 → ∃ c b bp, Considered n S c b ∧ Considered n S c bp ∧
      d.getIndDm0 b bp c = .ok (k : Int)) ∧
    d.ndm0 = ((List.range (n + 1)).map fun c => (S[c]?.getD []).length ^ 2).sum := by
  obtain ⟨hi, hk, _⟩ := h.inv
  have hssq : d.si.indexing ≠ .ssq := by rcases hix with h | h <;> rw [h] <;> simp
  have hsz : d.si.indexing ≠ .sz := by rcases hix with h | h <;> rw [h] <;> simp
  have L := (hi.lab hssq).dmc hk
  have inc : ∀ b bp, inclOf d.si.indexing (szOf n d.si) b bp = true := by
    intro b bp; simp [inclOf, hsz]
  have A : ∀ c b bp, Considered n S c b → Considered n S c bp →
      ∃ k : Nat, d.getIndDm0 b bp c = .ok (k : Int) ∧ k < d.ndm0 ∧ (k < d.npauli ↔ b = bp) ∧
        d.getBoolDm0 b bp c = .ok true ∧ d.mp.ind.get? k = some (b, bp) := by
    rintro c b bp ⟨h1, h2⟩ ⟨_, h3⟩
    by_cases e : b = bp
    · subst e
      obtain ⟨a1, a2, a3⟩ := L.diag c b (by omega) h2
      have : posP S c b < d.npauli := by rw [L.npauli]; exact posP_lt (by omega) h2
      exact ⟨_, a1, lt_of_lt_of_le this L.le, by simp [this], a2, a3⟩
    · obtain ⟨k, k1, k2, k3, k4, k5⟩ := L.off c b bp (by omega) h2 h3 e (inc _ _)
      exact ⟨k, k3, k2, by simp [e, k1], k4, k5⟩
  refine ⟨A, ?_, ?_, L.full inc⟩
  · intro c b bp c' b' bp' h1 h2 h1' h2' e
    obtain ⟨k, k1, _, k3, _⟩ := A c b bp h1 h2
    obtain ⟨k', k1', _, k3', _⟩ := A c' b' bp' h1' h2'
    rw [k1, k1'] at e
    simp only [Except.ok.injEq] at e
    have e : k = k' := by omega
    subst e
    by_cases hd : b = bp
    · have hd' := k3'.1 (k3.2 hd)
      subst hd; subst hd'
      rw [(L.diag c b (by have := h1.1; omega) h1.2).1] at k1
      rw [(L.diag c' b' (by have := h1'.1; omega) h1'.2).1] at k1'
      have : posP S c b = posP S c' b' := by
        simp only [Except.ok.injEq] at k1 k1'; omega
      obtain ⟨e1, e2⟩ := posP_inj h1.2 h1'.2 this
      exact ⟨e1, e2, e2⟩
    · have hd' : b' ≠ bp' := fun hh => hd (k3.1 (k3'.2 hh))
      exact L.inj c b bp c' b' bp' (by have := h1.1; omega) h1.2 h2.2 hd (inc _ _)
        (by have := h1'.1; omega) h1'.2 h2'.2 hd' (inc _ _) (by rw [k1, k1'])
  · intro k hk
    by_cases hp : k < d.npauli
    · rw [L.npauli] at hp
      obtain ⟨c, b, h1, h2, rfl⟩ := posP_surj hi.good.nodup hp
      exact ⟨c, b, b, ⟨by omega, h2⟩, ⟨by omega, h2⟩, (L.diag c b h1 h2).1⟩
    · obtain ⟨c, b, bp, a1, a2, a3, _, _, a6⟩ := L.surj k (by omega) hk
      exact ⟨c, b, bp, ⟨by omega, a2⟩, ⟨by omega, a3⟩, a6⟩

example : (DM.init .dmc 2 "Lin" >>= fun d =>
    (do let a ← d.getIndDm0 1 2 1; let b ← d.getIndDm0 2 1 1; pure (a, b, d.ndm0)))
    = .ok (4, 5, 6) := by decide +kernel

end Verif
