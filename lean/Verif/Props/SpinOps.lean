import Verif.Lemmas.SpinOps
import Verif.Lemmas.Ladder
import Verif.Lemmas.Params
import Mathlib.Analysis.SpecialFunctions.Sqrt

/-!
Theorems about the operators of the total spin (C43, C55).
-/

namespace Verif

open Verif.Spec Function

variable {n : Nat}

/-- The matrix `m` holds the entries of the operator `X` between the states of the lists `l` (columns)
and `l'` (rows). -/
structure Represents (n : Nat) (si : SI) (l' l : List Nat) (X : Matrix (Occ n) (Occ n) ℤ) (m : IMat) :
    Prop where
  rows : m.rows = l'.length
  cols : m.cols = l.length
  val : ∀ (p q : Nat) (hp : p < l'.length) (hq : q < l.length) (s' s : Occ n),
    si.getState (l'[p] : Nat) = .ok (ofOcc s') → si.getState (l[q] : Nat) = .ok (ofOcc s) →
    m.val p q = X s' s

theorem Represents.of {si : SI} {l' l : List Nat} {st st' : Nat → Occ n} {m : IMat}
    {X : Matrix (Occ n) (Occ n) ℤ} (hb : Basis n si l st) (hb' : Basis n si l' st')
    (h1 : m.rows = l'.length) (h2 : m.cols = l.length)
    (h : ∀ p q, p < l'.length → q < l.length → m.val p q = X (st' p) (st q)) :
    Represents n si l' l X m := by
  refine ⟨h1, h2, ?_⟩
  intro p q hp hq s' s e' e
  rw [h p q hp hq, ofOcc_inj' (hb'.get p hp) e', ofOcc_inj' (hb.get q hq) e]

/-- A new `StateIndexing` object with spin sectors. -/
def SpinSI (n : Nat) (si : SI) : Prop :=
  1 ≤ n ∧ n % 2 = 0 ∧ ∃ ix, (ix = "sz" ∨ ix = "ssq") ∧ SI.init n ix = .ok si

theorem SpinSI.facts {si : SI} (h : SpinSI n si) : Consistent n si ∧ si.nmany = 2 ^ n ∧
    (si.indexing = .sz ∨ si.indexing = .ssq) ∧ si.nsingle = n := by
  obtain ⟨hn, h2, ix, hix, h⟩ := h
  obtain ⟨si', h1, hinv, hch, hr⟩ := init_inv n ix
  rw [h] at h1
  cases h1
  refine ⟨consistent_of_inv hn hinv, by rw [← hinv.ilen]; exact nmany_init hinv hr, ?_, hinv.nsingle⟩
  rw [hch]
  unfold chooseIndexing
  rcases hix with rfl | rfl
  · simp [h2]
  · simp [h2]

theorem adm_low {c : Nat} {sz : Int} (hc : c ≤ n) (h : AdmSz n c sz) :
    AdmSz n c (sz - 2) ↔ -min (c : Int) (n - c) ≤ sz - 2 := by
  unfold AdmSz at *
  omega

theorem adm_high {c : Nat} {sz : Int} (hc : c ≤ n) (h : AdmSz n c sz) :
    AdmSz n c (sz + 2) ↔ sz + 2 ≤ min (c : Int) (n - c) := by
  unfold AdmSz at *
  omega

/-- The projections of existing states are admissible. -/
theorem adm_of_occ (hn : n % 2 = 0) (s : Occ n) : AdmSz n s.count (twoSz n (ofOcc s)) := by
  have bound : ∀ f : Fin (n / 2) → Bool,
      (List.ofFn fun i => if f i then 1 else 0).sum ≤ n / 2 := by
    intro f
    rw [List.sum_ofFn]
    calc ∑ i, (if f i then 1 else 0) ≤ ∑ _i : Fin (n / 2), 1 :=
          Finset.sum_le_sum fun i _ => by split <;> omega
      _ = n / 2 := by simp
  have b1 := bound fun i => s (up i)
  have b2 := bound fun i => s (dn i)
  have hc := ofOcc_sum s
  unfold twoSz
  rw [ofOcc_halves hn s] at hc ⊢
  rw [List.sum_append] at hc
  rw [List.take_left' (by simp), List.drop_left' (by simp)]
  unfold AdmSz
  omega

theorem spinSquare4_support (hn : n % 2 = 0) {s' s : Occ n}
    (h : (spinSquare4 : Matrix (Occ n) (Occ n) ℤ) s' s ≠ 0) :
    Occ.count s' = Occ.count s ∧ twoSz n (ofOcc s') = twoSz n (ofOcc s) := by
  by_contra hne
  apply h
  have hss : s' ≠ s := by rintro rfl; exact hne ⟨rfl, rfl⟩
  have z : (spinZ2 * spinZ2 : Matrix (Occ n) (Occ n) ℤ) s' s = 0 := by
    rw [Matrix.mul_apply]
    simp only [spinZ2_apply hn, mul_ite, mul_zero, Finset.sum_ite_eq', Finset.mem_univ, if_true, hss,
      if_false, zero_mul]
  have a : (spinPlus * spinMinus : Matrix (Occ n) (Occ n) ℤ) s' s = 0 := by
    rw [Matrix.mul_apply]
    refine Finset.sum_eq_zero fun u _ => ?_
    by_contra h0
    have x := spinPlus_support (left_ne_zero_of_mul h0)
    have y := spinMinus_support (right_ne_zero_of_mul h0)
    exact hne ⟨by rw [x.1, y.1], by rw [x.2, y.2]; ring⟩
  have b : (spinMinus * spinPlus : Matrix (Occ n) (Occ n) ℤ) s' s = 0 := by
    rw [Matrix.mul_apply]
    refine Finset.sum_eq_zero fun u _ => ?_
    by_contra h0
    have x := spinMinus_support (left_ne_zero_of_mul h0)
    have y := spinPlus_support (right_ne_zero_of_mul h0)
    exact hne ⟨by rw [x.1, y.1], by rw [x.2, y.2]; ring⟩
  unfold spinSquare4
  rw [two_mul]
  simp only [Matrix.add_apply, a, b, z, add_zero]

theorem square_eq_apply (hn : n % 2 = 0) (s' s : Occ n) :
    (spinSquare4 : Matrix (Occ n) (Occ n) ℤ) s' s
      = 4 * (spinPlus * spinMinus : Matrix (Occ n) (Occ n) ℤ) s' s
        + if s' = s then twoSz n (ofOcc s) * (twoSz n (ofOcc s) - 2) else 0 := by
  have e1 : (4 * (spinPlus * spinMinus) : Matrix (Occ n) (Occ n) ℤ) s' s
      = 4 * (spinPlus * spinMinus : Matrix (Occ n) (Occ n) ℤ) s' s := by
    rw [show ((4 : Matrix (Occ n) (Occ n) ℤ) * (spinPlus * spinMinus))
      = (4 : ℤ) • (spinPlus * spinMinus) by rw [zsmul_eq_mul]; norm_num, Matrix.smul_apply, smul_eq_mul]
  have e2 : (2 * spinZ2 : Matrix (Occ n) (Occ n) ℤ) s' s
      = 2 * (spinZ2 : Matrix (Occ n) (Occ n) ℤ) s' s := by
    rw [two_mul, Matrix.add_apply, two_mul]
  rw [square_eq, Matrix.sub_apply, Matrix.add_apply, e1, e2, Matrix.mul_apply (M := spinZ2)]
  simp only [spinZ2_apply hn, mul_ite, mul_zero, Finset.sum_ite_eq', Finset.mem_univ, if_true]
  by_cases h : s' = s
  · simp only [h, if_true]; ring
  · simp only [h, if_false]; ring

theorem square_eq'_apply (hn : n % 2 = 0) (s' s : Occ n) :
    (spinSquare4 : Matrix (Occ n) (Occ n) ℤ) s' s
      = 4 * (spinMinus * spinPlus : Matrix (Occ n) (Occ n) ℤ) s' s
        + if s' = s then twoSz n (ofOcc s) * (twoSz n (ofOcc s) + 2) else 0 := by
  have e := congrFun (congrFun (plus_minus (n := n)) s') s
  rw [Matrix.sub_apply, spinZ2_apply hn] at e
  rw [square_eq_apply hn]
  by_cases h : s' = s
  · simp only [h, if_true] at e ⊢
    linear_combination 4 * e
  · simp only [h, if_false] at e ⊢
    linear_combination 4 * e

/-! ### C43 -/

/-- **C43**, lowering. `operator_sm` returns the entries of `2 S⁻` between the states of the sectors
`(charge, sz)` and `(charge, sz-2)`. -/
theorem c43_lowering {si : SI} (h : SpinSI n si) {c : Nat} {sz : Int} (hc : c ≤ n)
    (hsz : AdmSz n c sz) (hsz' : AdmSz n c (sz - 2)) :
    ∃ l l' m, si.getLst (some c) (some sz) none = .ok (some l) ∧
      si.getLst (some c) (some (sz - 2)) none = .ok (some l') ∧
      operatorSm c sz si = .ok (some m) ∧ Represents n si l' l (2 • spinMinus) m := by
  obtain ⟨hcon, hN, hix, hns⟩ := h.facts
  obtain ⟨l, st, e, hs⟩ := sector_exists hcon hN hix hc hsz
  obtain ⟨l', st', e', hs'⟩ := sector_exists hcon hN hix hc hsz'
  obtain ⟨m, h1, h2, h3, h4⟩ := sm_ok hns hs hs' ((adm_low hc hsz).1 hsz')
  refine ⟨l, l', m, e, e', h1, Represents.of hs.basis hs'.basis h2 h3 ?_⟩
  intro p q hp hq
  rw [h4 p q hp hq]
  simp

/-- **C43**, raising. -/
theorem c43_raising {si : SI} (h : SpinSI n si) {c : Nat} {sz : Int} (hc : c ≤ n)
    (hsz : AdmSz n c sz) (hsz' : AdmSz n c (sz + 2)) :
    ∃ l l' m, si.getLst (some c) (some sz) none = .ok (some l) ∧
      si.getLst (some c) (some (sz + 2)) none = .ok (some l') ∧
      operatorSp c sz si = .ok (some m) ∧ Represents n si l' l (2 • spinPlus) m := by
  obtain ⟨hcon, hN, hix, hns⟩ := h.facts
  obtain ⟨l, st, e, hs⟩ := sector_exists hcon hN hix hc hsz
  obtain ⟨l', st', e', hs'⟩ := sector_exists hcon hN hix hc hsz'
  obtain ⟨m, h1, h2, h3, h4⟩ := sp_ok hns hs hs' ((adm_high hc hsz).1 hsz')
  refine ⟨l, l', m, e, e', h1, Represents.of hs.basis hs'.basis h2 h3 ?_⟩
  intro p q hp hq
  rw [h4 p q hp hq]
  simp

/-- **C43**, ends of the multiplets. Where the code returns the number 0 the operator vanishes on the
sector. -/
theorem c43_ends {si : SI} (h : SpinSI n si) {c : Nat} {sz : Int} (hc : c ≤ n) (hsz : AdmSz n c sz) :
    (¬ AdmSz n c (sz - 2) → operatorSm c sz si = .ok none ∧
      ∀ s' s : Occ n, s.count = c → twoSz n (ofOcc s) = sz →
        (spinMinus : Matrix (Occ n) (Occ n) ℤ) s' s = 0) ∧
    (¬ AdmSz n c (sz + 2) → operatorSp c sz si = .ok none ∧
      ∀ s' s : Occ n, s.count = c → twoSz n (ofOcc s) = sz →
        (spinPlus : Matrix (Occ n) (Occ n) ℤ) s' s = 0) := by
  obtain ⟨hcon, hN, hix, hns⟩ := h.facts
  constructor
  · intro hno
    constructor
    · unfold operatorSm
      simp only [hns]
      rw [if_pos (not_le.1 (fun hh => hno ((adm_low hc hsz).2 hh)))]
      rfl
    · intro s' s h1 h2
      by_contra hne
      have := spinMinus_support hne
      have h3 := adm_of_occ h.2.1 s'
      rw [this.1, this.2, h1, h2] at h3
      exact hno h3
  · intro hno
    constructor
    · unfold operatorSp
      simp only [hns]
      rw [if_pos (not_le.1 (fun hh => hno ((adm_high hc hsz).2 hh)))]
      rfl
    · intro s' s h1 h2
      by_contra hne
      have := spinPlus_support hne
      have h3 := adm_of_occ h.2.1 s'
      rw [this.1, this.2, h1, h2] at h3
      exact hno h3

/-- **C43**, the raising operator is the transpose of the lowering operator. -/
theorem c43_transpose {si : SI} (h : SpinSI n si) {c : Nat} {sz : Int} (hc : c ≤ n)
    (hsz : AdmSz n c sz) (hsz' : AdmSz n c (sz - 2)) {sm sp : IMat}
    (hm : operatorSm c sz si = .ok (some sm)) (hp : operatorSp c (sz - 2) si = .ok (some sp)) :
    sp.rows = sm.cols ∧ sp.cols = sm.rows ∧
      ∀ p q, p < sp.rows → q < sp.cols → sp.val p q = sm.val q p := by
  obtain ⟨hcon, hN, hix, hns⟩ := h.facts
  obtain ⟨l, st, e, hs⟩ := sector_exists hcon hN hix hc hsz
  obtain ⟨l', st', e', hs'⟩ := sector_exists hcon hN hix hc hsz'
  obtain ⟨m, h1, h2, h3, h4⟩ := sm_ok hns hs hs' ((adm_low hc hsz).1 hsz')
  have e2 : sz - 2 + 2 = sz := by ring
  obtain ⟨m', g1, g2, g3, g4⟩ := sp_ok hns hs' (by rw [e2]; exact hs) (by
    have := (adm_high hc hsz').1 (by rw [e2]; exact hsz)
    exact this)
  rw [hm] at h1
  rw [hp] at g1
  cases h1
  cases g1
  refine ⟨by rw [g2, h3], by rw [g3, h2], ?_⟩
  intro p q hp hq
  rw [g4 p q (by rwa [g2] at hp) (by rwa [g3] at hq), h4 q p (by rwa [g3] at hq) (by rwa [g2] at hp),
    ← minus_transpose]
  rfl

/-- An entry of a matrix or of the number 0. -/
def oval (m : Option IMat) (p q : Nat) : ℤ := (m.map fun m => m.val p q).getD 0

theorem spSm_ok {si : SI} (h : SpinSI n si) {c : Nat} {sz : Int} (hc : c ≤ n) (hsz : AdmSz n c sz)
    {l : List Nat} {st : Nat → Occ n} (hs : Sector n si c sz l st) :
    ∃ r, spSm c sz si = .ok r ∧ (∀ m, r = some m → m.rows = l.length ∧ m.cols = l.length) ∧
      ∀ p q, p < l.length → q < l.length →
        oval r p q = 4 * (spinPlus * spinMinus : Matrix (Occ n) (Occ n) ℤ) (st p) (st q) := by
  obtain ⟨hcon, hN, hix, hns⟩ := h.facts
  by_cases hsz' : AdmSz n c (sz - 2)
  · obtain ⟨l', st', e', hs'⟩ := sector_exists hcon hN hix hc hsz'
    obtain ⟨m, h1, h2, h3, h4⟩ := sm_ok hns hs hs' ((adm_low hc hsz).1 hsz')
    have e2 : sz - 2 + 2 = sz := by ring
    obtain ⟨m', g1, g2, g3, g4⟩ := sp_ok hns hs' (by rw [e2]; exact hs)
      ((adm_high hc hsz').1 (by rw [e2]; exact hsz))
    unfold spSm
    simp only [hns]
    rw [if_pos ((adm_low hc hsz).1 hsz'), g1]
    simp only [py_bind_ok, h1]
    unfold imatDot
    simp only
    rw [if_pos (by rw [g3, h2])]
    refine ⟨_, rfl, ?_, ?_⟩
    · rintro _ ⟨⟩
      exact ⟨g2, h3⟩
    · intro p q hp hq
      simp only [oval, Option.map_some, Option.getD_some]
      rw [foldl_sum, zero_add, g3, ← hs'.dot]
      · rw [Finset.mul_sum]
        refine Finset.sum_congr rfl fun k hk => ?_
        rw [g4 p k hp (Finset.mem_range.1 hk), h4 k q (Finset.mem_range.1 hk) hq]
        ring
      · intro u hu
        have a := spinMinus_support hu
        have b := hs.mem q hq
        omega
  · unfold spSm
    simp only [hns]
    rw [if_neg (fun hh => hsz' ((adm_low hc hsz).2 hh))]
    refine ⟨none, rfl, by simp, ?_⟩
    intro p q hp hq
    rw [Matrix.mul_apply, Finset.sum_eq_zero]
    · rfl
    · intro u _
      have b := hs.mem q hq
      rw [((c43_ends h hc hsz).1 hsz').2 u (st q) b.1 b.2, mul_zero]

theorem smSp_ok {si : SI} (h : SpinSI n si) {c : Nat} {sz : Int} (hc : c ≤ n) (hsz : AdmSz n c sz)
    {l : List Nat} {st : Nat → Occ n} (hs : Sector n si c sz l st) :
    ∃ r, smSp c sz si = .ok r ∧ (∀ m, r = some m → m.rows = l.length ∧ m.cols = l.length) ∧
      ∀ p q, p < l.length → q < l.length →
        oval r p q = 4 * (spinMinus * spinPlus : Matrix (Occ n) (Occ n) ℤ) (st p) (st q) := by
  obtain ⟨hcon, hN, hix, hns⟩ := h.facts
  by_cases hsz' : AdmSz n c (sz + 2)
  · obtain ⟨l', st', e', hs'⟩ := sector_exists hcon hN hix hc hsz'
    obtain ⟨m, h1, h2, h3, h4⟩ := sp_ok hns hs hs' ((adm_high hc hsz).1 hsz')
    have e2 : sz + 2 - 2 = sz := by ring
    obtain ⟨m', g1, g2, g3, g4⟩ := sm_ok hns hs' (by rw [e2]; exact hs)
      ((adm_low hc hsz').1 (by rw [e2]; exact hsz))
    unfold smSp
    simp only [hns]
    rw [if_pos ((adm_high hc hsz).1 hsz'), g1]
    simp only [py_bind_ok, h1]
    unfold imatDot
    simp only
    rw [if_pos (by rw [g3, h2])]
    refine ⟨_, rfl, ?_, ?_⟩
    · rintro _ ⟨⟩
      exact ⟨g2, h3⟩
    · intro p q hp hq
      simp only [oval, Option.map_some, Option.getD_some]
      rw [foldl_sum, zero_add, g3, ← hs'.dot]
      · rw [Finset.mul_sum]
        refine Finset.sum_congr rfl fun k hk => ?_
        rw [g4 p k hp (Finset.mem_range.1 hk), h4 k q (Finset.mem_range.1 hk) hq]
        ring
      · intro u hu
        have a := spinPlus_support hu
        have b := hs.mem q hq
        omega
  · unfold smSp
    simp only [hns]
    rw [if_neg (fun hh => hsz' ((adm_high hc hsz).2 hh))]
    refine ⟨none, rfl, by simp, ?_⟩
    intro p q hp hq
    rw [Matrix.mul_apply, Finset.sum_eq_zero]
    · rfl
    · intro u _
      have b := hs.mem q hq
      rw [((c43_ends h hc hsz).2 hsz').2 u (st q) b.1 b.2, mul_zero]

/-- **C43**, the commutator of the raising and the lowering operator is four times the spin
projection `sz` (in the code's units, where the operators are doubled and `sz` counts halves). -/
theorem c43_commutator {si : SI} (h : SpinSI n si) {c : Nat} {sz : Int} (hc : c ≤ n)
    (hsz : AdmSz n c sz) :
    ∃ (l : List Nat) (a b : Option IMat), si.getLst (some c) (some sz) none = .ok (some l) ∧
      spSm c sz si = .ok a ∧ smSp c sz si = .ok b ∧
      ∀ p q, p < l.length → q < l.length →
        oval a p q - oval b p q = if p = q then 4 * sz else 0 := by
  obtain ⟨hcon, hN, hix, hns⟩ := h.facts
  obtain ⟨l, st, e, hs⟩ := sector_exists hcon hN hix hc hsz
  obtain ⟨a, a1, _, a3⟩ := spSm_ok h hc hsz hs
  obtain ⟨b, b1, _, b3⟩ := smSp_ok h hc hsz hs
  refine ⟨l, a, b, e, a1, b1, ?_⟩
  intro p q hp hq
  rw [a3 p q hp hq, b3 p q hp hq, ← mul_sub, ← Matrix.sub_apply, plus_minus, spinZ2_apply h.2.1,
    (hs.mem q hq).2]
  by_cases hpq : p = q
  · simp [hpq]
  · rw [if_neg (fun e => hpq (hs.basis.inj p q hp hq e)), if_neg hpq, mul_zero]

theorem ssquare_ok {si : SI} (h : SpinSI n si) {c : Nat} {sz : Int} (hc : c ≤ n) (hsz : AdmSz n c sz)
    {l : List Nat} {st : Nat → Occ n} (hs : Sector n si c sz l st) :
    ∃ m, operatorSsquare c sz si = .ok m ∧ m.rows = l.length ∧ m.cols = l.length ∧
      ∀ p q, p < l.length → q < l.length →
        m.val p q = (spinSquare4 : Matrix (Occ n) (Occ n) ℤ) (st p) (st q) := by
  obtain ⟨a, a1, a2, a3⟩ := spSm_ok h hc hsz hs
  obtain ⟨b, b1, b2, b3⟩ := smSp_ok h hc hsz hs
  have key : ∀ p q, p < l.length → q < l.length →
      Int.fdiv (oval a p q + oval b p q) 2 + (if p = q then 1 else 0) * sz ^ 2
        = (spinSquare4 : Matrix (Occ n) (Occ n) ℤ) (st p) (st q) := by
    intro p q hp hq
    rw [a3 p q hp hq, b3 p q hp hq]
    unfold spinSquare4
    have e1 : (2 * (spinPlus * spinMinus + spinMinus * spinPlus) :
        Matrix (Occ n) (Occ n) ℤ) (st p) (st q)
        = 2 * ((spinPlus * spinMinus : Matrix (Occ n) (Occ n) ℤ) (st p) (st q)
          + (spinMinus * spinPlus : Matrix (Occ n) (Occ n) ℤ) (st p) (st q)) := by
      rw [two_mul, Matrix.add_apply, Matrix.add_apply, two_mul]
    have e2 : (spinZ2 * spinZ2 : Matrix (Occ n) (Occ n) ℤ) (st p) (st q)
        = (if p = q then 1 else 0) * sz ^ 2 := by
      rw [Matrix.mul_apply]
      simp only [spinZ2_apply h.2.1, mul_ite, mul_zero, Finset.sum_ite_eq', Finset.mem_univ, if_true]
      rw [(hs.mem q hq).2]
      by_cases hpq : p = q
      · simp [hpq, pow_two]
      · rw [if_neg (fun e => hpq (hs.basis.inj p q hp hq e)), if_neg hpq]; simp
    rw [Matrix.add_apply, e1, e2, ← mul_add]
    congr 1
    rw [show (4 : ℤ) * ((spinPlus * spinMinus : Matrix (Occ n) (Occ n) ℤ) (st p) (st q)
          + (spinMinus * spinPlus : Matrix (Occ n) (Occ n) ℤ) (st p) (st q))
        = 2 * (2 * ((spinPlus * spinMinus : Matrix (Occ n) (Occ n) ℤ) (st p) (st q)
          + (spinMinus * spinPlus : Matrix (Occ n) (Occ n) ℤ) (st p) (st q))) by ring]
    rw [Int.mul_fdiv_cancel_left _ (by norm_num)]
  unfold operatorSsquare
  simp only [a1, b1, py_bind_ok, hs.lst_eq]
  cases a with
  | none =>
    cases b with
    | none =>
      refine ⟨_, rfl, rfl, rfl, ?_⟩
      intro p q hp hq
      rw [← key p q hp hq]
      simp [oval]
    | some b =>
      obtain ⟨r1, r2⟩ := b2 b rfl
      simp only [imatAdd, py_bind_ok, imatHalf]
      rw [if_pos ⟨r1, r2⟩]
      refine ⟨_, rfl, r1, r2, ?_⟩
      intro p q hp hq
      rw [← key p q hp hq]
      simp [oval]
  | some a =>
    obtain ⟨q1, q2⟩ := a2 a rfl
    cases b with
    | none =>
      simp only [imatAdd, py_bind_ok, imatHalf]
      rw [if_pos ⟨q1, q2⟩]
      refine ⟨_, rfl, q1, q2, ?_⟩
      intro p q hp hq
      rw [← key p q hp hq]
      simp [oval]
    | some b =>
      obtain ⟨r1, r2⟩ := b2 b rfl
      simp only [imatAdd]
      rw [if_pos ⟨by rw [q1, r1], by rw [q2, r2]⟩]
      simp only [py_bind_ok, imatHalf]
      rw [if_pos ⟨q1, q2⟩]
      refine ⟨_, rfl, q1, q2, ?_⟩
      intro p q hp hq
      rw [← key p q hp hq]
      simp [oval]

/-- **C43**, total spin. `operator_ssquare` returns the entries of `4 S²`; in particular the floor
division loses nothing. -/
theorem c43_ssquare {si : SI} (h : SpinSI n si) {c : Nat} {sz : Int} (hc : c ≤ n)
    (hsz : AdmSz n c sz) :
    ∃ l m, si.getLst (some c) (some sz) none = .ok (some l) ∧
      operatorSsquare c sz si = .ok m ∧ Represents n si l l spinSquare4 m := by
  obtain ⟨hcon, hN, hix, hns⟩ := h.facts
  obtain ⟨l, st, e, hs⟩ := sector_exists hcon hN hix hc hsz
  obtain ⟨m, h1, h2, h3, h4⟩ := ssquare_ok h hc hsz hs
  exact ⟨l, m, e, h1, Represents.of hs.basis hs.basis h2 h3 h4⟩

/-- **C43**, the floor division is exact: the sum of the two products has even entries. -/
theorem c43_exact {si : SI} (h : SpinSI n si) {c : Nat} {sz : Int} (hc : c ≤ n)
    (hsz : AdmSz n c sz) :
    ∃ (l : List Nat) (a b : Option IMat), si.getLst (some c) (some sz) none = .ok (some l) ∧
      spSm c sz si = .ok a ∧ smSp c sz si = .ok b ∧
      ∀ p q, p < l.length → q < l.length → (2 : ℤ) ∣ oval a p q + oval b p q := by
  obtain ⟨hcon, hN, hix, hns⟩ := h.facts
  obtain ⟨l, st, e, hs⟩ := sector_exists hcon hN hix hc hsz
  obtain ⟨a, a1, _, a3⟩ := spSm_ok h hc hsz hs
  obtain ⟨b, b1, _, b3⟩ := smSp_ok h hc hsz hs
  refine ⟨l, a, b, e, a1, b1, ?_⟩
  intro p q hp hq
  rw [a3 p q hp hq, b3 p q hp hq]
  omega

/-- **C43**, the matrix of the total spin is symmetric. -/
theorem c43_symmetric {si : SI} (h : SpinSI n si) {c : Nat} {sz : Int} (hc : c ≤ n)
    (hsz : AdmSz n c sz) {m : IMat} (hm : operatorSsquare c sz si = .ok m) :
    m.rows = m.cols ∧ ∀ p q, p < m.rows → q < m.rows → m.val p q = m.val q p := by
  obtain ⟨hcon, hN, hix, hns⟩ := h.facts
  obtain ⟨l, st, e, hs⟩ := sector_exists hcon hN hix hc hsz
  obtain ⟨m', h1, h2, h3, h4⟩ := ssquare_ok h hc hsz hs
  rw [hm] at h1
  cases h1
  refine ⟨by rw [h2, h3], ?_⟩
  intro p q hp hq
  rw [h2] at hp hq
  rw [h4 p q hp hq, h4 q p hq hp]
  exact congrFun (congrFun (square_transpose (n := n)) (st q)) (st p)

/-- **C43**, the total spin commutes with the lowering and the raising operator:
`S²(sz-2) S⁻ = S⁻ S²(sz)` and `S²(sz) S⁺ = S⁺ S²(sz-2)`. -/
theorem c43_commutes {si : SI} (h : SpinSI n si) {c : Nat} {sz : Int} (hc : c ≤ n)
    (hsz : AdmSz n c sz) (hsz' : AdmSz n c (sz - 2)) {sm sp m m' : IMat}
    (hm : operatorSm c sz si = .ok (some sm)) (hp : operatorSp c (sz - 2) si = .ok (some sp))
    (h1 : operatorSsquare c sz si = .ok m) (h2 : operatorSsquare c (sz - 2) si = .ok m') :
    (∀ p q, p < sm.rows → q < sm.cols →
      ∑ k ∈ Finset.range sm.rows, m'.val p k * sm.val k q
        = ∑ k ∈ Finset.range sm.cols, sm.val p k * m.val k q) ∧
    (∀ p q, p < sp.rows → q < sp.cols →
      ∑ k ∈ Finset.range sp.rows, m.val p k * sp.val k q
        = ∑ k ∈ Finset.range sp.cols, sp.val p k * m'.val k q) := by
  obtain ⟨hcon, hN, hix, hns⟩ := h.facts
  obtain ⟨l, st, e, hs⟩ := sector_exists hcon hN hix hc hsz
  obtain ⟨l', st', e', hs'⟩ := sector_exists hcon hN hix hc hsz'
  obtain ⟨_, a1, a2, a3, a4⟩ := sm_ok hns hs hs' ((adm_low hc hsz).1 hsz')
  have e2 : sz - 2 + 2 = sz := by ring
  obtain ⟨_, b1, b2, b3, b4⟩ := sp_ok hns hs' (by rw [e2]; exact hs)
    ((adm_high hc hsz').1 (by rw [e2]; exact hsz))
  obtain ⟨_, c1, _, _, c4⟩ := ssquare_ok h hc hsz hs
  obtain ⟨_, d1, _, _, d4⟩ := ssquare_ok h hc hsz' hs'
  rw [hm] at a1
  rw [hp] at b1
  rw [h1] at c1
  rw [h2] at d1
  cases a1
  cases b1
  cases c1
  cases d1
  have sup : ∀ {k : Nat} {z : Int} {lst : List Nat} {f : Nat → Occ n} (_ : Sector n si c z lst f)
      (_ : k < lst.length) (u : Occ n), (spinSquare4 : Matrix (Occ n) (Occ n) ℤ) u (f k) ≠ 0 →
      u.count = c ∧ twoSz n (ofOcc u) = z := by
    intro k z lst f hsec hk u hu
    have x := spinSquare4_support h.2.1 hu
    have y := hsec.mem k hk
    exact ⟨by rw [x.1, y.1], by rw [x.2, y.2]⟩
  constructor
  · intro p q hp hq
    rw [a2] at hp
    rw [a3] at hq
    have x1 := hs'.dot spinSquare4 spinMinus (st' p) (st q) (fun u hu => by
      have x := spinMinus_support hu
      have y := hs.mem q hq
      exact ⟨by rw [x.1, y.1], by rw [x.2, y.2]⟩)
    have x2 := hs.dot spinMinus spinSquare4 (st' p) (st q) (sup hs hq)
    rw [square_minus, ← x2] at x1
    rw [a2, a3]
    have y1 : ∑ k ∈ Finset.range l'.length, m'.val p k * sm.val k q
        = 2 * ∑ k ∈ Finset.range l'.length, (spinSquare4 : Matrix (Occ n) (Occ n) ℤ) (st' p) (st' k) *
          (spinMinus : Matrix (Occ n) (Occ n) ℤ) (st' k) (st q) := by
      rw [Finset.mul_sum]
      refine Finset.sum_congr rfl fun k hk => ?_
      rw [d4 p k hp (Finset.mem_range.1 hk), a4 k q (Finset.mem_range.1 hk) hq]
      ring
    have y2 : ∑ k ∈ Finset.range l.length, sm.val p k * m.val k q
        = 2 * ∑ k ∈ Finset.range l.length, (spinMinus : Matrix (Occ n) (Occ n) ℤ) (st' p) (st k) *
          (spinSquare4 : Matrix (Occ n) (Occ n) ℤ) (st k) (st q) := by
      rw [Finset.mul_sum]
      refine Finset.sum_congr rfl fun k hk => ?_
      rw [a4 p k hp (Finset.mem_range.1 hk), c4 k q (Finset.mem_range.1 hk) hq]
      ring
    rw [y1, y2, x1]
  · intro p q hp hq
    rw [b2] at hp
    rw [b3] at hq
    have x1 := hs.dot spinSquare4 spinPlus (st p) (st' q) (fun u hu => by
      have x := spinPlus_support hu
      have y := hs'.mem q hq
      exact ⟨by rw [x.1, y.1], by rw [x.2, y.2]; ring⟩)
    have x2 := hs'.dot spinPlus spinSquare4 (st p) (st' q) (sup hs' hq)
    rw [square_plus, ← x2] at x1
    rw [b2, b3]
    have y1 : ∑ k ∈ Finset.range l.length, m.val p k * sp.val k q
        = 2 * ∑ k ∈ Finset.range l.length, (spinSquare4 : Matrix (Occ n) (Occ n) ℤ) (st p) (st k) *
          (spinPlus : Matrix (Occ n) (Occ n) ℤ) (st k) (st' q) := by
      rw [Finset.mul_sum]
      refine Finset.sum_congr rfl fun k hk => ?_
      rw [c4 p k hp (Finset.mem_range.1 hk), b4 k q (Finset.mem_range.1 hk) hq]
      ring
    have y2 : ∑ k ∈ Finset.range l'.length, sp.val p k * m'.val k q
        = 2 * ∑ k ∈ Finset.range l'.length, (spinPlus : Matrix (Occ n) (Occ n) ℤ) (st p) (st' k) *
          (spinSquare4 : Matrix (Occ n) (Occ n) ℤ) (st' k) (st' q) := by
      rw [Finset.mul_sum]
      refine Finset.sum_congr rfl fun k hk => ?_
      rw [b4 p k hp (Finset.mem_range.1 hk), d4 k q (Finset.mem_range.1 hk) hq]
      ring
    rw [y1, y2, x1]

/-- Objects to which the theorems apply; the sector with two electrons in two levels and `sz = 0` has
the lowered sector `sz = -2`. -/
example : (∃ si, SpinSI 4 si) ∧ AdmSz 4 2 0 ∧ AdmSz 4 2 (0 - 2) ∧ ¬ AdmSz 4 2 (-2 - 2) := by
  refine ⟨?_, by unfold AdmSz; omega, by unfold AdmSz; omega, by unfold AdmSz; omega⟩
  obtain ⟨si, h, _⟩ := init_consistent 4 (by norm_num) "ssq"
  exact ⟨si, by norm_num, by norm_num, "ssq", Or.inr rfl, h⟩

/-! ### C55 -/

theorem adm_k {c k : Nat} (hn : n % 2 = 0) (hc : c ≤ n) (hk : k ≤ min c (n - c)) :
    AdmSz n c (-(min c (n - c) : Nat) + 2 * (k : Int)) := by
  rw [admSz_iff hn hc]
  exact ⟨k, hk, rfl⟩

/-- The sectors of one charge form a ladder. -/
theorem ladder_exists {si : SI} (h : SpinSI n si) {c : Nat} (hc : c ≤ n) :
    ∃ (L : Nat → List Nat) (S : Nat → Nat → Occ n),
      (∀ k, k ≤ min c (n - c) →
        si.getLst (some c) (some (-(min c (n - c) : Nat) + 2 * (k : Int))) none = .ok (some (L k)) ∧
        Sector n si c (-(min c (n - c) : Nat) + 2 * (k : Int)) (L k) (S k)) ∧
      Ladder (min c (n - c)) (fun k => (L k).length)
        (fun k => Matrix.of fun i j : Fin (L k).length =>
          ((spinSquare4 : Matrix (Occ n) (Occ n) ℤ) (S k i) (S k j) : ℝ))
        (fun k => Matrix.of fun (i : Fin (L (k + 1)).length) (j : Fin (L k).length) =>
          ((2 * (spinPlus : Matrix (Occ n) (Occ n) ℤ) (S (k + 1) i) (S k j) : ℤ) : ℝ))
        (fun k => -((min c (n - c) : Nat) : ℝ) + 2 * k) := by
  obtain ⟨hcon, hN, hix, hns⟩ := h.facts
  have ex : ∀ k : Nat, k ≤ min c (n - c) → ∃ (l : List Nat) (st : Nat → Occ n),
      si.getLst (some c) (some (-(min c (n - c) : Nat) + 2 * (k : Int))) none = .ok (some l) ∧
        Sector n si c (-(min c (n - c) : Nat) + 2 * (k : Int)) l st := by
    intro k hk
    exact sector_exists hcon hN hix hc (adm_k h.2.1 hc hk)
  choose! L S hLS using ex
  generalize hw : min c (n - c) = w at hLS ⊢
  refine ⟨L, S, hLS, ?_, ?_, ?_, ?_, fun k => rfl⟩
  · intro k hk
    have hs := (hLS k (by omega)).2
    have hs' := (hLS (k + 1) (by omega)).2
    ext i j
    simp only [Matrix.of_apply, Matrix.add_apply, Matrix.smul_apply, Matrix.one_apply,
      Matrix.mul_apply, Matrix.transpose_apply, smul_eq_mul]
    have e1 := hs'.dot (spinMinus) (spinPlus) (S k i) (S k j) (fun u hu => by
      have x := spinPlus_support hu
      have y := hs.mem j j.isLt
      refine ⟨by rw [x.1, y.1], ?_⟩
      rw [x.2, y.2]; push_cast; ring)
    have e2 : (spinSquare4 : Matrix (Occ n) (Occ n) ℤ) (S k i) (S k j)
        = 4 * (spinMinus * spinPlus : Matrix (Occ n) (Occ n) ℤ) (S k i) (S k j)
          + (if i = j then (-(w : Int) + 2 * (k : Int)) * (-(w : Int) + 2 * (k : Int) + 2) else 0) := by
      rw [square_eq'_apply h.2.1, (hs.mem j j.isLt).2]
      congr 1
      by_cases hij : i = j
      · rw [if_pos hij, if_pos (by rw [hij])]
      · rw [if_neg hij, if_neg]
        exact fun e => hij (Fin.ext (hs.basis.inj i j i.isLt j.isLt e))
    rw [e2, ← e1, Finset.mul_sum]
    push_cast
    rw [Finset.sum_range fun x => (4 : ℝ) * (((spinMinus : Matrix (Occ n) (Occ n) ℤ) (S k i)
      (S (k + 1) x) : ℝ) * ((spinPlus : Matrix (Occ n) (Occ n) ℤ) (S (k + 1) x) (S k j) : ℝ))]
    congr 1
    · refine Finset.sum_congr rfl fun x _ => ?_
      have : (spinMinus : Matrix (Occ n) (Occ n) ℤ) (S k i) (S (k + 1) x)
          = (spinPlus : Matrix (Occ n) (Occ n) ℤ) (S (k + 1) x) (S k i) := by
        rw [← minus_transpose]; rfl
      rw [this]
      ring
    · by_cases hij : i = j <;> simp [hij]
  · intro k hk
    have hs := (hLS k (by omega)).2
    have hs' := (hLS (k + 1) (by omega)).2
    ext i j
    simp only [Matrix.of_apply, Matrix.add_apply, Matrix.smul_apply, Matrix.one_apply,
      Matrix.mul_apply, Matrix.transpose_apply, smul_eq_mul]
    have e1 := hs.dot (spinPlus) (spinMinus) (S (k + 1) i) (S (k + 1) j) (fun u hu => by
      have x := spinMinus_support hu
      have y := hs'.mem j j.isLt
      refine ⟨by rw [x.1, y.1], ?_⟩
      rw [x.2, y.2]; push_cast; ring)
    have e2 : (spinSquare4 : Matrix (Occ n) (Occ n) ℤ) (S (k + 1) i) (S (k + 1) j)
        = 4 * (spinPlus * spinMinus : Matrix (Occ n) (Occ n) ℤ) (S (k + 1) i) (S (k + 1) j)
          + (if i = j then (-(w : Int) + 2 * (k : Int)) * (-(w : Int) + 2 * (k : Int) + 2) else 0) := by
      rw [square_eq_apply h.2.1, (hs'.mem j j.isLt).2]
      congr 1
      by_cases hij : i = j
      · rw [if_pos hij, if_pos (by rw [hij])]; push_cast; ring
      · rw [if_neg hij, if_neg]
        exact fun e => hij (Fin.ext (hs'.basis.inj i j i.isLt j.isLt e))
    rw [e2, ← e1, Finset.mul_sum]
    push_cast
    rw [Finset.sum_range fun x => (4 : ℝ) * (((spinPlus : Matrix (Occ n) (Occ n) ℤ) (S (k + 1) i)
      (S k x) : ℝ) * ((spinMinus : Matrix (Occ n) (Occ n) ℤ) (S k x) (S (k + 1) j) : ℝ))]
    congr 1
    · refine Finset.sum_congr rfl fun x _ => ?_
      have : (spinMinus : Matrix (Occ n) (Occ n) ℤ) (S k x) (S (k + 1) j)
          = (spinPlus : Matrix (Occ n) (Occ n) ℤ) (S (k + 1) j) (S k x) := by
        rw [← minus_transpose]; rfl
      rw [this]
      ring
    · by_cases hij : i = j <;> simp [hij]
  · have hs := (hLS w (by omega)).2
    have hend := ((c43_ends h hc (by rw [← hw]; exact adm_k h.2.1 hc (by omega)) :
      _ ∧ (¬ AdmSz n c ((-(w : Int) + 2 * (w : Int)) + 2) → _)).2 (by
        unfold AdmSz; rw [hw]; omega)).2
    ext i j
    simp only [Matrix.of_apply, Matrix.smul_apply, Matrix.one_apply, smul_eq_mul]
    rw [square_eq'_apply h.2.1, (hs.mem j j.isLt).2, Matrix.mul_apply, Finset.sum_eq_zero, mul_zero,
      zero_add]
    · by_cases hij : i = j
      · rw [if_pos hij, if_pos (by rw [hij])]; push_cast; ring
      · rw [if_neg hij, if_neg (fun e => hij (Fin.ext (hs.basis.inj i j i.isLt j.isLt e)))]; simp
    · intro u _
      rw [hend u _ (hs.mem j j.isLt).1 (hs.mem j j.isLt).2, mul_zero]
  · have hs := (hLS 0 (by omega)).2
    have hend := ((c43_ends h hc (by rw [← hw]; exact adm_k h.2.1 hc (by omega)) :
      (¬ AdmSz n c ((-(w : Int) + 2 * ((0 : Nat) : Int)) - 2) → _) ∧ _).1 (by
        unfold AdmSz; rw [hw]; omega)).2
    ext i j
    simp only [Matrix.of_apply, Matrix.smul_apply, Matrix.one_apply, smul_eq_mul]
    rw [square_eq_apply h.2.1, (hs.mem j j.isLt).2, Matrix.mul_apply, Finset.sum_eq_zero, mul_zero,
      zero_add]
    · by_cases hij : i = j
      · rw [if_pos hij, if_pos (by rw [hij])]; push_cast; ring
      · rw [if_neg hij, if_neg (fun e => hij (Fin.ext (hs.basis.inj i j i.isLt j.isLt e)))]; simp
    · intro u _
      rw [hend u _ (hs.mem j j.isLt).1 (hs.mem j j.isLt).2, mul_zero]

/-- The matrix returned by the code, over the real numbers. -/
def IMat.real (m : IMat) (len : Nat) : Matrix (Fin len) (Fin len) ℝ :=
  Matrix.of fun i j => (m.val i j : ℝ)

/-- **C55**, eigenvalues. Every eigenvalue of `operator_ssquare(charge, sz)` is `ssq (ssq + 2)` for a
value `ssq` of the table of total spins, and `ssquare_eigenstates` recovers this value
from it without rounding. -/
theorem c55_eigenvalues {si : SI} (h : SpinSI n si) {c : Nat} {sz : Int} (hc : c ≤ n)
    (hsz : AdmSz n c sz) {l : List Nat} {m : IMat}
    (hl : si.getLst (some c) (some sz) none = .ok (some l)) (hm : operatorSsquare c sz si = .ok m)
    {v : Fin l.length → ℝ} (hv : v ≠ 0) {lam : ℝ} (he : (m.real l.length).mulVec v = lam • v) :
    ∃ ssq : Int, AdmSsq n c sz ssq ∧ lam = ssq * (ssq + 2) ∧ -1 + Real.sqrt (1 + lam) = ssq := by
  obtain ⟨L, S, hLS, hlad⟩ := ladder_exists h hc
  obtain ⟨k, hk, e⟩ := (admSz_iff h.2.1 hc sz).1 hsz
  unfold szW at hk e
  subst e
  obtain ⟨g1, hs⟩ := hLS k hk
  rw [hl] at g1
  cases g1
  obtain ⟨m', h1, h2, h3, h4⟩ := ssquare_ok h hc hsz hs
  rw [hm] at h1
  cases h1
  have hmat : m.real (L k).length = Matrix.of fun i j : Fin (L k).length =>
          ((spinSquare4 : Matrix (Occ n) (Occ n) ℤ) (S k i) (S k j) : ℝ) := by
    ext i j
    simp only [IMat.real, Matrix.of_apply]
    rw [h4 i j i.isLt j.isLt]
  rw [hmat] at he
  obtain ⟨j, j1, j2, j3, j4⟩ := hlad.eig hk hv he
  have hnn : (0 : Int) ≤ -(min c (n - c) : Nat) + 2 * (j : Int) := by omega
  refine ⟨-(min c (n - c) : Nat) + 2 * (j : Int), ?_, ?_, ?_⟩
  · unfold AdmSsq; omega
  · rw [j4]; push_cast; ring
  · have hnn' : (0 : ℝ) ≤ -((min c (n - c) : Nat) : ℝ) + 2 * j := by exact_mod_cast hnn
    rw [j4, show 1 + (-((min c (n - c) : Nat) : ℝ) + 2 * j) * (-((min c (n - c) : Nat) : ℝ) + 2 * j + 2)
      = (-((min c (n - c) : Nat) : ℝ) + 2 * j + 1) ^ 2 by ring, Real.sqrt_sq (by linarith)]
    push_cast
    ring

theorem flatten_tail (rows rows' : List (List Nat)) (h0 : rows.length = rows'.length + 1)
    (h : ∀ q (hq : q < rows'.length), (rows[q + 1]'(by omega)).length = rows'[q].length) :
    rows.flatten.length = (rows[0]'(by omega)).length + rows'.flatten.length := by
  cases rows with
  | nil => simp at h0
  | cons r rest =>
    simp only [List.length_cons, Nat.add_right_cancel_iff] at h0
    have : rest.map List.length = rows'.map List.length := by
      refine List.ext_getElem (by simpa using h0) ?_
      intro q h1 h2
      simp only [List.length_map] at h1 h2
      simp only [List.getElem_map]
      have := h q h2
      simpa using this
    simp only [List.flatten_cons, List.length_append, List.getElem_cons_zero]
    rw [List.length_flatten, List.length_flatten, this]

/-- **C55**, multiplicities. The eigenvalue that belongs to `ssq` has as many independent eigenvectors
in the sector `(charge, sz)` as the table of total spins has entries. -/
theorem c55_multiplicity {si : SI} (hn : 1 ≤ n) (hev : n % 2 = 0) (hsi : SI.init n "ssq" = .ok si)
    {c : Nat} {sz ssq : Int} (hc : c ≤ n) (hsz : AdmSz n c sz) (hssq : AdmSsq n c sz ssq)
    {l cell : List Nat} {m : IMat}
    (hl : si.getLst (some c) (some sz) none = .ok (some l))
    (hcell : si.getLst (some c) (some sz) (some ssq) = .ok (some cell))
    (hm : operatorSsquare c sz si = .ok m) :
    Module.finrank ℝ (Module.End.eigenspace (Matrix.toLin' (m.real l.length))
      ((ssq : ℝ) * (ssq + 2))) = cell.length := by
  have h : SpinSI n si := ⟨hn, hev, "ssq", Or.inr rfl, hsi⟩
  obtain ⟨L, S, hLS, hlad⟩ := ladder_exists h hc
  obtain ⟨k, hk, e⟩ := (admSz_iff h.2.1 hc sz).1 hsz
  unfold szW at hk e
  have hA := hssq
  unfold AdmSsq at hA
  obtain ⟨j, hj⟩ : ∃ j : Nat, ssq = -(min c (n - c) : Nat) + 2 * (j : Int) :=
    ⟨((ssq + (min c (n - c) : Nat)) / 2).toNat, by omega⟩
  have hkj : k ≤ j := by omega
  have hjw : j ≤ min c (n - c) := by omega
  have hwj : min c (n - c) ≤ j + k := by omega
  subst e
  obtain ⟨g1, hs⟩ := hLS k hk
  rw [hl] at g1
  cases g1
  obtain ⟨m', h1, h2, h3, h4⟩ := ssquare_ok h hc hsz hs
  rw [hm] at h1
  cases h1
  have hmat : m.real (L k).length = Matrix.of fun i j : Fin (L k).length =>
          ((spinSquare4 : Matrix (Occ n) (Occ n) ℤ) (S k i) (S k j) : ℝ) := by
    ext i j
    simp only [IMat.real, Matrix.of_apply]
    rw [h4 i j i.isLt j.isLt]
  have key := hlad.mult hkj hjw hwj
  rw [hmat]
  have hval : ((ssq : ℝ) * (ssq + 2)) = (-((min c (n - c) : Nat) : ℝ) + 2 * j) *
      (-((min c (n - c) : Nat) : ℝ) + 2 * j + 2) := by
    rw [hj]; push_cast; ring
  rw [hval]
  have cellLen : cell.length + (if j = min c (n - c) then 0 else (L (j + 1)).length) = (L j).length := by
    obtain ⟨si', a1, a2⟩ := c04_ssq_refines n hev
    obtain ⟨si'', b1, b2⟩ := c04_multiplets n hev
    rw [hsi] at a1 b1
    cases a1
    cases b1
    have admj : AdmSz n c ssq := by rw [hj]; exact adm_k hev hc hjw
    have hnat : (ssq.natAbs : Int) = ssq := by omega
    have admjj : AdmSsq n c ssq ssq := by unfold AdmSsq; omega
    obtain ⟨rows, r1, r2, r3⟩ := a2 c ssq hc admj
    obtain ⟨l1, l2, q1, q2, q3⟩ := b2 c _ ssq ssq hc hsz admj hssq admjj
    rw [hcell] at q1
    cases q1
    have r30 := r3 0 (by omega)
    rw [hnat] at r30
    simp only [Nat.cast_zero, mul_zero, add_zero] at r30
    rw [q2] at r30
    have q3' : cell.length = (rows[0]'(by omega)).length := by
      rw [q3]
      exact congrArg List.length (Option.some.inj (Except.ok.inj r30))
    have hLj := (hLS j hjw).1
    rw [← hj, r2] at hLj
    have hLj' : rows.flatten = L j := Option.some.inj (Except.ok.inj hLj)
    rw [← hLj']
    clear q3
    rename' q3' => q3
    by_cases hlast : j = min c (n - c)
    · rw [if_pos hlast, add_zero, q3]
      have : rows.length = 1 := by omega
      have := flatten_tail rows [] (by simpa using this) (by simp)
      simpa using this.symm
    · rw [if_neg hlast]
      have admj' : AdmSz n c (ssq + 2) := by
        rw [hj]
        have := adm_k (n := n) (c := c) (k := j + 1) hev hc (by omega)
        rw [show -(min c (n - c) : Nat) + 2 * (j : Int) + 2
          = -(min c (n - c) : Nat) + 2 * ((j + 1 : Nat) : Int) by push_cast; ring]
        exact this
      obtain ⟨rows', r1', r2', r3'⟩ := a2 c (ssq + 2) hc admj'
      have hLj' := (hLS (j + 1) (by omega)).1
      rw [show -(min c (n - c) : Nat) + 2 * ((j + 1 : Nat) : Int) = ssq + 2 by rw [hj]; push_cast; ring,
        r2'] at hLj'
      rw [← Option.some.inj (Except.ok.inj hLj')]
      rw [q3, flatten_tail rows rows' (by omega)]
      intro q hq
      have x1 := r3 (q + 1) (by omega)
      have x2 := r3' q hq
      have hnat' : ((ssq + 2).natAbs : Int) = ssq + 2 := by omega
      rw [hnat] at x1
      rw [hnat'] at x2
      have e3 : ssq + 2 + 2 * (q : Int) = ssq + 2 * ((q + 1 : Nat) : Int) := by push_cast; ring
      rw [e3] at x2
      obtain ⟨y1, y2, z1, z2, z3⟩ := b2 c ssq (ssq + 2) (ssq + 2 * ((q + 1 : Nat) : Int)) hc admj admj'
        (by unfold AdmSsq; omega) (by unfold AdmSsq; omega)
      rw [x1] at z1
      rw [x2] at z2
      cases z1
      cases z2
      exact z3
  unfold eigSp at key
  omega

/-- The hypotheses of both theorems hold for two electrons in two levels, where `sz = 0` has three
singlets and one triplet. -/
example : ∃ (si : SI) (l cell : List Nat) (m : IMat), SI.init 4 "ssq" = .ok si ∧ SpinSI 4 si ∧
    AdmSz 4 2 0 ∧ AdmSsq 4 2 0 2 ∧ si.getLst (some 2) (some 0) none = .ok (some l) ∧
    si.getLst (some 2) (some 0) (some 2) = .ok (some cell) ∧ cell.length = 1 ∧ l.length = 4 ∧
    operatorSsquare 2 0 si = .ok m := by
  have e : (SI.init 4 "ssq" >>= fun si => do
      let a ← si.getLst (some 2) (some 0) none
      let b ← si.getLst (some 2) (some 0) (some 2)
      pure (a, b)) = .ok (some [6, 7, 8, 9], some [9]) := by decide +kernel
  obtain ⟨si, h, _⟩ := init_consistent 4 (by norm_num) "ssq"
  have hs : SpinSI 4 si := ⟨by norm_num, by norm_num, "ssq", Or.inr rfl, h⟩
  have a0 : AdmSz 4 2 0 := by unfold AdmSz; omega
  obtain ⟨l, m, h1, h2, _⟩ := c43_ssquare hs (c := 2) (by norm_num) a0
  rw [h] at e
  simp only [py_bind_ok] at e
  obtain ⟨a, e1, e⟩ := bind_iff.1 e
  obtain ⟨b, e2, e⟩ := bind_iff.1 e
  cases e
  rw [show ((2 : Nat) : Int) = 2 from rfl, e1] at h1
  cases h1
  exact ⟨si, _, _, m, h, hs, a0, by unfold AdmSsq; omega, e1, e2, rfl, rfl, h2⟩

end Verif
