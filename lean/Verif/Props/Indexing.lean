import Verif.Spec.Occ
import Verif.Lemmas.SIQn

/-! Properties C01, C02, C03, C04, C09 of `StateIndexing`. -/

namespace Verif

open Spec

theorem isOcc_lt {n : Nat} {s : List Nat} (h : IsOcc n s) : ∀ d ∈ s, d < 2 := by
  intro d hd
  rcases h.2 d hd with h | h <;> omega

theorem isOcc_bits (n x : Nat) : IsOcc n (bitsN n x) := by
  refine ⟨bitsN_length n x, ?_⟩
  intro d hd
  have := bitsN_lt_two hd
  omega

theorem nmany_init {n : Nat} {si : SI} (h : SIInv n si) (hr : si.removed = none) :
    si.i.length = 2 ^ n := by
  rw [h.ilen, h.nmany, hr]; simp

/-- **C01**. For every number of orbitals `n ≥ 1` and every value of the `indexing`
argument the object is created, and `get_ind`/`get_state` are inverse to each other
between the indices `0..2^n-1` and the occupation lists. -/
theorem c01_roundtrip (n : Nat) (hn : 1 ≤ n) (indexing : String) :
    ∃ si, SI.init n indexing = .ok si ∧ si.nmany = 2 ^ n ∧
      (∀ b : Nat, b < 2 ^ n → ∃ s, si.getState b = .ok s ∧ IsOcc n s ∧
        si.getInd s = .ok (some b)) ∧
      (∀ s, IsOcc n s → ∃ b : Nat, b < 2 ^ n ∧ si.getInd s = .ok (some b) ∧
        si.getState b = .ok s) := by
  obtain ⟨si, h1, hinv, _, hr⟩ := init_inv n indexing
  have hlen := nmany_init hinv hr
  refine ⟨si, h1, by rw [← hinv.ilen, hlen], ?_, ?_⟩
  · intro b hb
    have hb' : b < si.i.length := by omega
    refine ⟨_, hinv.getState' hn hb', isOcc_bits _ _, ?_⟩
    exact (hinv.getInd hn (bitsN_length _ _) (fun d hd => bitsN_lt_two hd)).2 b hb'
      (bitsVal_bitsN (hinv.ilt hb')).symm
  · intro s hs
    have hd := isOcc_lt hs
    have hlt : bitsVal s < 2 ^ n := by rw [← hs.1]; exact bitsVal_lt hd
    have hmem : bitsVal s ∈ si.i := (hinv.imem _).2 ⟨hlt, by rw [hr]; rfl⟩
    obtain ⟨b, hb, e⟩ := List.getElem_of_mem hmem
    refine ⟨b, by omega, (hinv.getInd hn hs.1 hd).2 b hb e, ?_⟩
    rw [hinv.getState' hn hb, e, ← hs.1, bitsN_bitsVal hd]

example : (SI.init 4 "sz" >>= fun si => si.getState 7) = .ok [0, 1, 1, 0] ∧
    (SI.init 4 "sz" >>= fun si => si.getInd [0, 1, 1, 0]) = .ok (some 7) := by decide +kernel

example : IsOcc 4 [0, 1, 1, 0] := ⟨rfl, by decide⟩

/-- **C02**. `get_lst(charge=c)` lists without repetition exactly the indices of the
states with `c` electrons, and there are `binomial(n, c)` of them. -/
theorem c02_charge_lists (n : Nat) (indexing : String) :
    ∃ si, SI.init n indexing = .ok si ∧ ∀ c : Nat, c ≤ n →
      ∃ l, si.getLst (some c) none none = .ok (some l) ∧ l.Nodup ∧ l.length = n.choose c ∧
        ∀ b : Nat, b ∈ l ↔ ∃ s, si.getState b = .ok s ∧ s.sum = c := by
  obtain ⟨si, h1, hinv, _, hr⟩ := init_inv n indexing
  refine ⟨si, h1, ?_⟩
  intro c hc
  obtain ⟨l, g1, g2, g3, g4⟩ := hinv.charge_row c hc
  refine ⟨l, ?_, g2, ?_, ?_⟩
  · simp [SI.getLst, g1]
  · rw [g3, hr, keepOf_none]
    simpa using count_charge n c
  · intro b
    rw [g4 b]
    constructor
    · rintro ⟨hb, hch⟩
      exact ⟨_, hinv.getState hb, hch⟩
    · rintro ⟨s, hs, hsum⟩
      by_cases hb : b < si.i.length
      · refine ⟨hb, ?_⟩
        rw [hinv.getState hb] at hs
        simp only [Except.ok.injEq] at hs
        rw [← hs] at hsum
        exact hsum
      · rw [hinv.getState_err (by omega)] at hs
        cases hs

/-- Every state is in exactly one charge list. -/
theorem c02_cover (n : Nat) (indexing : String) :
    ∃ si, SI.init n indexing = .ok si ∧ ∀ b : Nat, b < 2 ^ n →
      ∃ c : Nat, c ≤ n ∧ ∀ c' : Nat, c' ≤ n →
        ((∃ l, si.getLst (some c') none none = .ok (some l) ∧ b ∈ l) ↔ c' = c) := by
  obtain ⟨si, h1, hinv, _, hr⟩ := init_inv n indexing
  have hlen := nmany_init hinv hr
  obtain ⟨si', h1', H⟩ := c02_charge_lists n indexing
  rw [h1] at h1'
  simp only [Except.ok.injEq] at h1'
  subst h1'
  refine ⟨si, h1, ?_⟩
  intro b hb
  have hb' : b < si.i.length := by omega
  refine ⟨(integerToBinarylist si.i[b] n).sum, charge_le (hinv.ilt hb'), ?_⟩
  intro c' hc'
  obtain ⟨l, g1, g2, g3, g4⟩ := H c' hc'
  constructor
  · rintro ⟨l', hl', hbl⟩
    rw [g1] at hl'
    simp only [Except.ok.injEq, Option.some.injEq] at hl'
    subst hl'
    obtain ⟨s, hs, hsum⟩ := (g4 b).1 hbl
    rw [hinv.getState hb'] at hs
    simp only [Except.ok.injEq] at hs
    rw [← hs] at hsum
    exact hsum.symm
  · intro e
    exact ⟨l, g1, (g4 b).2 ⟨_, hinv.getState hb', e.symm⟩⟩

example : (SI.init 3 "charge" >>= fun si => si.getLst (some 2) none none)
    = .ok (some [4, 5, 6]) := by decide +kernel

/-! ### Spin projection -/

theorem take_up {n x : Nat} (h : x < 2 ^ n) (hn : n % 2 = 0) :
    twoSz n (integerToBinarylist x n) = (upCount n x : Int) - dnCount n x := by
  unfold twoSz
  rw [code_up h]
  have := code_dn h
  have e : (integerToBinarylist x n).drop (n / 2)
      = (((integerToBinarylist x n).take n).drop (n / 2)) ∨ n = 0 := by
    rcases Nat.eq_zero_or_pos n with h0 | h0
    · exact Or.inr h0
    · left
      rw [integerToBinarylist_eq h0 h, List.take_of_length_le (by simp)]
  rcases e with e | e
  · rw [e, this]
  · subst e
    have : x = 0 := by simpa using h
    subst this
    rw [integerToBinarylist_zero]
    simp [dnCount, bitsN]

theorem admSz_iff {n c : Nat} (hn : n % 2 = 0) (hc : c ≤ n) (sz : Int) :
    AdmSz n c sz ↔ ∃ k : Nat, k ≤ szW n c ∧ sz = -(szW n c : Int) + 2 * (k : Int) := by
  unfold AdmSz szW
  constructor
  · rintro ⟨h1, h2⟩
    refine ⟨((sz + (min c (n - c) : Nat)) / 2).toNat, ?_, ?_⟩ <;> omega
  · rintro ⟨k, h1, rfl⟩
    omega

/-- **C03**. With 'sz' or 'ssq' indexing and an even number of orbitals,
`get_lst(charge=c, sz=sz)` lists without repetition exactly the states with `c`
electrons and spin projection `sz`; if `u` electrons are in the first half and `d` in
the second then there are `binomial(n/2, u) * binomial(n/2, d)` of them. -/
theorem c03_sz_lists (n : Nat) (hn : n % 2 = 0) (indexing : String)
    (hix : indexing = "sz" ∨ indexing = "ssq") :
    ∃ si, SI.init n indexing = .ok si ∧ ∀ (c : Nat) (sz : Int), c ≤ n → AdmSz n c sz →
      ∃ l, si.getLst (some c) (some sz) none = .ok (some l) ∧ l.Nodup ∧
        (∀ u d : Nat, u + d = c → (u : Int) - d = sz →
          l.length = (n / 2).choose u * (n / 2).choose d) ∧
        ∀ b : Nat, b ∈ l ↔ ∃ s, si.getState b = .ok s ∧ s.sum = c ∧ twoSz n s = sz := by
  obtain ⟨si, h1, hinv, hch, hr⟩ := init_inv n indexing
  refine ⟨si, h1, ?_⟩
  intro c sz hc hsz
  have hix' : si.indexing = .sz ∨ si.indexing = .ssq := by
    rw [hch]
    rcases hix with rfl | rfl
    · left; simp [chooseIndexing, hn]
    · right; simp [chooseIndexing, hn]
  obtain ⟨k, hk, rfl⟩ := (admSz_iff hn hc sz).1 hsz
  obtain ⟨T, R, l, g0, g1, g2, g3, g4, g5⟩ := hinv.sz_row hix' c k hc hk
  refine ⟨l, ?_, g3, ?_, ?_⟩
  · simp only [SI.getLst, g0, hinv.nsingle, g1, py_bind_ok, szToInd_range n c k hc, g2, py_pure]
  · intro u d h1 h2
    rw [g4, hr, keepOf_none]
    simp only [Bool.true_and]
    rw [szL_cell_length n c k hn hc hk]
    unfold szLen
    unfold szW at h2 hk
    by_cases hcn : c ≤ n / 2
    · have : c - n / 2 + k = u := by omega
      rw [this]
      congr 2; omega
    · have : c - n / 2 + k = u := by omega
      rw [this]
      congr 2; omega
  · intro b
    rw [g5 b]
    constructor
    · rintro ⟨hb, hch, hp⟩
      refine ⟨_, hinv.getState hb, hch, ?_⟩
      rw [take_up (hinv.ilt hb) hn, szPos_sz hn (hinv.ilt hb), hch, hp]
    · rintro ⟨s, hs, hsum, hz⟩
      by_cases hb : b < si.i.length
      · refine ⟨hb, ?_⟩
        rw [hinv.getState hb] at hs
        simp only [Except.ok.injEq] at hs
        rw [← hs] at hsum hz
        have hcc : charge n si.i[b] = c := hsum
        refine ⟨hcc, ?_⟩
        rw [take_up (hinv.ilt hb) hn, szPos_sz hn (hinv.ilt hb), hcc] at hz
        omega
      · rw [hinv.getState_err (by omega)] at hs
        cases hs

/-- Every state of an even system has an admissible spin projection, so by `c03_sz_lists`
it is in exactly one of the lists. -/
theorem c03_cover (n : Nat) (hn : n % 2 = 0) (indexing : String) :
    ∃ si, SI.init n indexing = .ok si ∧ ∀ b : Nat, b < 2 ^ n →
      ∃ s, si.getState b = .ok s ∧ s.sum ≤ n ∧ AdmSz n s.sum (twoSz n s) := by
  obtain ⟨si, h1, hinv, _, hr⟩ := init_inv n indexing
  have hlen := nmany_init hinv hr
  refine ⟨si, h1, ?_⟩
  intro b hb
  have hb' : b < si.i.length := by omega
  have hlt := hinv.ilt hb'
  refine ⟨_, hinv.getState hb', charge_le hlt, ?_⟩
  rw [take_up hlt hn, szPos_sz hn hlt]
  refine (admSz_iff hn (charge_le hlt) _).2 ⟨szPos n si.i[b], ?_, rfl⟩
  have := szPos_lt hn hlt
  omega

example : AdmSz 4 3 (-1) ∧ ¬ AdmSz 4 3 0 ∧ ¬ AdmSz 4 3 3 := by
  unfold AdmSz; decide

example : (SI.init 4 "sz" >>= fun si => si.getLst (some 2) (some 0) none)
    = .ok (some [6, 7, 8, 9]) := by decide +kernel

/-! ### Total spin -/

/-- **C04**, first part. With 'ssq' indexing the lists `get_lst(c, sz, ssq)` for
increasing `ssq` concatenate to `get_lst(c, sz)`. -/
theorem c04_ssq_refines (n : Nat) (hn : n % 2 = 0) :
    ∃ si, SI.init n "ssq" = .ok si ∧ ∀ (c : Nat) (sz : Int), c ≤ n → AdmSz n c sz →
      ∃ rows : List (List Nat), rows.length = (min c (n - c) - sz.natAbs) / 2 + 1 ∧
        si.getLst (some c) (some sz) none = .ok (some rows.flatten) ∧
        ∀ q (hq : q < rows.length),
          si.getLst (some c) (some sz) (some (sz.natAbs + 2 * q)) = .ok (some rows[q]) := by
  obtain ⟨si, h1, hinv, hch, hr⟩ := init_inv n "ssq"
  have hix : si.indexing = .ssq := by rw [hch]; simp [chooseIndexing, hn]
  obtain ⟨g1, g2, _⟩ := hinv.qn_ssq hix
  refine ⟨si, h1, ?_⟩
  intro c sz hc hsz
  obtain ⟨k, hk, rfl⟩ := (admSz_iff hn hc sz).1 hsz
  have hab : (-(szW n c : Int) + 2 * (k : Int)).natAbs = szW n c - 2 * ssqE n c k := by
    unfold ssqE; omega
  refine ⟨(List.range (ssqE n c k + 1)).map fun q => ssqCell n c k q, ?_, ?_, ?_⟩
  · rw [hab]
    simp only [List.length_map, List.length_range]
    rw [show min c (n - c) = szW n c from rfl]
    have : ssqE n c k = min k (szW n c - k) := rfl
    omega
  · simp only [SI.getLst, g1, g2, hinv.nsingle, szToInd_range n c k hc]
    rw [pyGet_map_range _ _ _ (by omega)]
    simp only [py_bind_ok]
    rw [pyGet_map_range _ _ _ (by omega)]
    simp only [py_bind_ok, py_pure]
    rw [ssqCell_flatten n c k hn hc hk]
  · intro q hq
    have hq' : q < ssqE n c k + 1 := by simpa using hq
    rw [hab]
    simp only [SI.getLst, g1, g2, hinv.nsingle, szToInd_range n c k hc]
    rw [pyGet_map_range _ _ _ (by omega)]
    simp only [py_bind_ok]
    rw [pyGet_map_range _ _ _ (by omega)]
    simp only [py_bind_ok]
    have := ssqToInd_row n c k q hk
    rw [show min k (szW n c - k) = ssqE n c k from rfl] at this
    rw [this, pyGet_map_range _ _ _ hq']
    simp

/-- **C04**, second part: complete multiplets. For fixed charge and total spin all
spin projections have the same number of states. -/
theorem c04_multiplets (n : Nat) (hn : n % 2 = 0) :
    ∃ si, SI.init n "ssq" = .ok si ∧ ∀ (c : Nat) (sz sz' ssq : Int), c ≤ n →
      AdmSz n c sz → AdmSz n c sz' → AdmSsq n c sz ssq → AdmSsq n c sz' ssq →
      ∃ l l', si.getLst (some c) (some sz) (some ssq) = .ok (some l) ∧
        si.getLst (some c) (some sz') (some ssq) = .ok (some l') ∧ l.length = l'.length := by
  obtain ⟨si, h1, hinv, hch, hr⟩ := init_inv n "ssq"
  have hix : si.indexing = .ssq := by rw [hch]; simp [chooseIndexing, hn]
  obtain ⟨g1, g2, _⟩ := hinv.qn_ssq hix
  refine ⟨si, h1, ?_⟩
  have cell : ∀ (c : Nat) (sz ssq : Int), c ≤ n → AdmSz n c sz → AdmSsq n c sz ssq →
      ∃ (l : List Nat) (t : Nat), si.getLst (some c) (some sz) (some ssq) = .ok (some l) ∧
        ssq = (szW n c : Int) - 2 * (t : Int) ∧ t ≤ szW n c / 2 ∧
        l.length = szLen n c t - (if 0 < t then szLen n c (t - 1) else 0) := by
    intro c sz ssq hc hsz hssq
    obtain ⟨k, hk, rfl⟩ := (admSz_iff hn hc sz).1 hsz
    obtain ⟨a1, a2, a3⟩ := hssq
    have hab : (-(szW n c : Int) + 2 * (k : Int)).natAbs = szW n c - 2 * min k (szW n c - k) := by
      omega
    rw [hab] at a1
    rw [show min c (n - c) = szW n c from rfl] at a2
    obtain ⟨q, hq⟩ : ∃ q : Nat, ssq = ((szW n c - 2 * min k (szW n c - k) : Nat) : Int) + 2 * (q : Int) := by
      refine ⟨((ssq - ((szW n c - 2 * min k (szW n c - k) : Nat) : Int)) / 2).toNat, ?_⟩
      omega
    have hqe : q ≤ min k (szW n c - k) := by omega
    refine ⟨ssqCell n c k q, min k (szW n c - k) - q, ?_, ?_, ?_, ?_⟩
    · simp only [SI.getLst, g1, g2, hinv.nsingle, szToInd_range n c k hc]
      rw [pyGet_map_range _ _ _ (by omega)]
      simp only [py_bind_ok]
      rw [pyGet_map_range _ _ _ (by omega)]
      simp only [py_bind_ok]
      rw [hq, ssqToInd_row n c k q hk, pyGet_map_range _ _ _ (by unfold ssqE; omega)]
      rfl
    · omega
    · omega
    · unfold ssqCell ssqM
      simp only [List.length_range']
      have : 0 < min k (szW n c - k) - q ↔ q < min k (szW n c - k) := by omega
      simp only [this]
  intro c sz sz' ssq hc h2 h3 h4 h5
  obtain ⟨l, t, e1, e2, e3, e4⟩ := cell c sz ssq hc h2 h4
  obtain ⟨l', t', e1', e2', e3', e4'⟩ := cell c sz' ssq hc h3 h5
  have : t = t' := by omega
  subst this
  exact ⟨l, l', e1, e1', by rw [e4, e4']⟩

example : AdmSz 6 3 1 ∧ AdmSz 6 3 (-3) ∧ AdmSsq 6 3 1 3 ∧ AdmSsq 6 3 (-3) 3 := by
  unfold AdmSz AdmSsq; decide

/-- The conclusions of C04 about the dictionaries, for any object. -/
structure DictsOk (si : SI) : Prop where
  inverse : ∀ key k, si.qnInd.get? key = some k ↔ si.indQn.get? k = some key
  domain : ∀ k, (∃ key, si.indQn.get? k = some key) ↔ k < si.nmany
  meaning : ∀ key k, si.indQn.get? k = some key →
    ∃ (c : Nat) (sz ssq : Option Int) (α : Nat) (l : List Nat),
      key = [(c : Int)] ++ sz.toList ++ ssq.toList ++ [(α : Int)] ∧
      (sz.isSome ↔ si.indexing = .sz ∨ si.indexing = .ssq) ∧
      (ssq.isSome ↔ si.indexing = .ssq) ∧
      si.getLst (some c) sz ssq = .ok (some l) ∧ l[α]? = some k

theorem mem_range_of_perm {l : List Nat} {N : Nat} (h : l = List.range N) (k : Nat) :
    k ∈ l ↔ k < N := by rw [h]; simp

theorem dictsOk_of_inv {n : Nat} {si : SI} (h : SIInv n si) : DictsOk si := by
  have dom : ∀ (blocks : List (QN × List Nat)), QnOk blocks si.qnInd si.indQn →
      (∀ k, k ∈ (blocks.map Prod.snd).flatten ↔ k < si.nmany) →
      ∀ k, (∃ key, si.indQn.get? k = some key) ↔ k < si.nmany := by
    intro blocks hok hmem k
    rw [← hmem k]
    simp only [List.mem_flatten, List.mem_map]
    constructor
    · rintro ⟨key, hk⟩
      obtain ⟨b, hb, α, _, hα⟩ := (hok.bwd key k).1 hk
      exact ⟨b.2, ⟨b, hb, rfl⟩, List.mem_of_getElem? hα⟩
    · rintro ⟨_, ⟨b, hb, rfl⟩, hk⟩
      obtain ⟨α, hα⟩ := List.getElem?_of_mem hk
      exact ⟨_, (hok.bwd _ k).2 ⟨b, hb, α, rfl, hα⟩⟩
  have inv : ∀ (blocks : List (QN × List Nat)), QnOk blocks si.qnInd si.indQn →
      ∀ key k, si.qnInd.get? key = some k ↔ si.indQn.get? k = some key := by
    intro blocks hok key k
    rw [hok.fwd, hok.bwd]
  have hsz := h.noSz
  by_cases h1 : si.indexing = .Lin ∨ si.indexing = .charge
  · obtain ⟨hl, hok⟩ := h.qn_charge h1
    refine ⟨inv _ hok, dom _ hok ?_, ?_⟩
    · intro k
      have e : (chargeBlocks si.chargelst).map Prod.snd = si.chargelst := by
        simp [chargeBlocks, Function.comp_def]
      rw [e, ← h.ilen]
      simp only [List.mem_flatten]
      constructor
      · rintro ⟨l, hl1, hl2⟩
        obtain ⟨c, hc, e⟩ := List.getElem_of_mem hl1
        obtain ⟨l', g1, g2, g3, g4⟩ := h.charge_row c (by omega)
        rw [pyGet_nat _ hc] at g1
        simp only [Except.ok.injEq] at g1
        rw [← e, g1] at hl2
        exact ((g4 k).1 hl2).1
      · intro hk
        have hcl := charge_le (h.ilt hk)
        obtain ⟨l', g1, g2, g3, g4⟩ := h.charge_row (charge n si.i[k]) hcl
        rw [pyGet_nat _ (by omega)] at g1
        simp only [Except.ok.injEq] at g1
        exact ⟨l', by rw [← g1]; exact List.getElem_mem _, (g4 k).2 ⟨hk, rfl⟩⟩
    · intro key k hk
      obtain ⟨b, hb, α, rfl, hα⟩ := (hok.bwd key k).1 hk
      obtain ⟨⟨lst, c⟩, hp, rfl⟩ := List.mem_map.1 hb
      have hp' : si.chargelst[c]? = some lst := by
        have := List.mem_zipIdx_iff_getElem?.1 hp
        simpa using this
      obtain ⟨hc, e⟩ := List.getElem?_eq_some_iff.1 hp'
      refine ⟨c, none, none, α, lst, by simp, ?_, ?_, ?_, hα⟩
      · rcases h1 with h1 | h1 <;> simp [h1]
      · rcases h1 with h1 | h1 <;> simp [h1]
      · simp [SI.getLst, pyGet_nat _ hc, e]
  · by_cases h2 : si.indexing = .sz
    · obtain ⟨T, hT, hlen, hw, hok⟩ := h.qn_sz h2
      have H := h.sz (Or.inl h2)
      refine ⟨inv _ hok, dom _ hok ?_, ?_⟩
      · intro k
        have e : ((szBlocks n T).map Prod.snd) = T.flatten := by
          unfold szBlocks
          rw [List.map_flatMap]
          have : (fun a : List (List Nat) × Nat => List.map Prod.snd (a.1.zipIdx.map fun p =>
              (([(a.2 : Int), -(szW n a.2 : Int) + 2 * (p.2 : Int)] : QN), p.1)))
              = fun a => a.1 := by
            funext a
            simp [Function.comp_def]
          simp only [this]
          rw [List.flatMap_def]; simp
        rw [e]
        have : T = enumSzlst (szL n (keepOf si.removed)) := by
          have := H.2.2.2.2.1
          rw [hT] at this
          simpa using this
        rw [this, enumSzlst_flatten, ← H.2.2.2.1, h.ilen]
        simp
      · intro key k hk
        obtain ⟨b, hb, α, rfl, hα⟩ := (hok.bwd key k).1 hk
        unfold szBlocks at hb
        obtain ⟨⟨row, c⟩, hp, hb⟩ := List.mem_flatMap.1 hb
        obtain ⟨⟨lst, j⟩, hp2, rfl⟩ := List.mem_map.1 hb
        have hp' : T[c]? = some row := by
          have := List.mem_zipIdx_iff_getElem?.1 hp
          simpa using this
        have hp2' : row[j]? = some lst := by
          have := List.mem_zipIdx_iff_getElem?.1 hp2
          simpa using this
        obtain ⟨hc, e⟩ := List.getElem?_eq_some_iff.1 hp'
        obtain ⟨hj, e2⟩ := List.getElem?_eq_some_iff.1 hp2'
        refine ⟨c, some (-(szW n c : Int) + 2 * (j : Int)), none, α, lst, by simp, ?_, ?_, ?_, hα⟩
        · simp [h2]
        · simp [h2]
        · simp only [SI.getLst, hT, h.nsingle, pyGet_nat _ hc, py_bind_ok,
            szToInd_range n c j (by omega), e, pyGet_nat _ hj, e2, py_pure]
    · have h3 : si.indexing = .ssq := by
        cases hx : si.indexing <;> simp_all
      obtain ⟨g1, g2, hok⟩ := h.qn_ssq h3
      have H := h.sz (Or.inr h3)
      have hn := H.1
      have hrem := h.ssqrem h3
      refine ⟨inv _ hok, dom _ hok ?_, ?_⟩
      · intro k
        have e : (enumSzlst (szL n fun _ => true)).flatten.flatten
            = List.range si.nmany := by
          rw [enumSzlst_flatten, ← h.ilen, H.2.2.2.1, hrem]
          rfl
        rw [ssqBlocks_flatten n hn, e]
        simp
      · intro key k hk
        obtain ⟨b, hb, α, rfl, hα⟩ := (hok.bwd key k).1 hk
        unfold ssqBlocks at hb
        obtain ⟨c, hc, hb⟩ := List.mem_flatMap.1 hb
        obtain ⟨j, hj, hb⟩ := List.mem_flatMap.1 hb
        obtain ⟨q, hq, rfl⟩ := List.mem_map.1 hb
        simp only [List.mem_range] at hc hj hq
        refine ⟨c, some (-(szW n c : Int) + 2 * (j : Int)),
          some (((szW n c - 2 * ssqE n c j : Nat) : Int) + 2 * (q : Int)), α, ssqCell n c j q,
          by simp, ?_, ?_, ?_, hα⟩
        · simp [h3]
        · simp [h3]
        · simp only [SI.getLst, g1, g2, h.nsingle, szToInd_range n c j (by omega)]
          rw [pyGet_map_range _ _ _ hc]
          simp only [py_bind_ok]
          rw [pyGet_map_range _ _ _ hj]
          simp only [py_bind_ok]
          have := ssqToInd_row n c j q (by omega)
          rw [show min j (szW n c - j) = ssqE n c j from rfl] at this
          rw [this, pyGet_map_range _ _ _ hq]
          rfl

/-- **C04**, third part. For every indexing the dictionaries between quantum numbers and
state indices are inverse to each other, cover every state, and an entry
`(charge[, sz[, ssq]], α) ↦ k` says that `k` is the `α`-th state of
`get_lst(charge[, sz[, ssq]])`. -/
theorem c04_dicts (n : Nat) (indexing : String) :
    ∃ si, SI.init n indexing = .ok si ∧ DictsOk si := by
  obtain ⟨si, h1, hinv, _, _⟩ := init_inv n indexing
  exact ⟨si, h1, dictsOk_of_inv hinv⟩

example : (SI.init 4 "ssq" >>= fun si => .ok (si.indQn.get? 6, si.qnInd.get? [2, 0, 0, 1]))
    = .ok (some [2, 0, 0, 0], some 7) := by decide +kernel

/-! ### Histories of removals -/

/-- The state `s` was named in one of the calls. -/
def Named (n : Nat) (calls : List (List Int)) (s : List Nat) : Prop :=
  ∃ l ∈ calls, ∃ i ∈ l, Names (2 ^ n) i (linIndex s)

/-- What a user expects of the object after removals of the states named in `calls`. -/
structure RemovedOk (n : Nat) (calls : List (List Int)) (si : SI) : Prop where
  gone : ∀ s, IsOcc n s → Named n calls s → si.getInd s = .ok none
  kept : ∀ s, IsOcc n s → ¬ Named n calls s →
    ∃ b : Nat, b < si.nmany ∧ si.getInd s = .ok (some b) ∧ si.getState b = .ok s
  only : ∀ b : Nat, b < si.nmany → ∃ s, si.getState b = .ok s ∧ IsOcc n s ∧
    ¬ Named n calls s ∧ si.getInd s = .ok (some b)
  beyond : ∀ b : Nat, si.nmany ≤ b → si.getState b = .error .index
  charges : ∀ c : Nat, c ≤ n → ∃ l, si.getLst (some c) none none = .ok (some l) ∧ l.Nodup ∧
    ∀ b : Nat, b ∈ l ↔ ∃ s, si.getState b = .ok s ∧ s.sum = c
  szs : si.indexing = .sz → ∀ (c : Nat) (sz : Int), c ≤ n → AdmSz n c sz →
    ∃ l, si.getLst (some c) (some sz) none = .ok (some l) ∧ l.Nodup ∧
      ∀ b : Nat, b ∈ l ↔ ∃ s, si.getState b = .ok s ∧ s.sum = c ∧ twoSz n s = sz
  dicts : DictsOk si

theorem names_iff {N : Nat} {i : Int} (h : -(N : Int) ≤ i ∧ i < N) (x : Nat) (hx : x < N) :
    Names N i x ↔ x = pyNorm N i := by
  unfold Names pyNorm
  split <;> omega

theorem charges_of_inv {n : Nat} {si : SI} (hinv : SIInv n si) (c : Nat) (hc : c ≤ n) :
    ∃ l, si.getLst (some c) none none = .ok (some l) ∧ l.Nodup ∧
      ∀ b : Nat, b ∈ l ↔ ∃ s, si.getState b = .ok s ∧ s.sum = c := by
  obtain ⟨l, g1, g2, g3, g4⟩ := hinv.charge_row c hc
  refine ⟨l, by simp [SI.getLst, g1], g2, ?_⟩
  intro b
  rw [g4 b]
  constructor
  · rintro ⟨hb, hch⟩
    exact ⟨_, hinv.getState hb, hch⟩
  · rintro ⟨s, hs, hsum⟩
    by_cases hb : b < si.i.length
    · refine ⟨hb, ?_⟩
      rw [hinv.getState hb] at hs
      simp only [Except.ok.injEq] at hs
      rw [← hs] at hsum
      exact hsum
    · rw [hinv.getState_err (by omega)] at hs
      cases hs

theorem szs_of_inv {n : Nat} {si : SI} (hinv : SIInv n si)
    (hix' : si.indexing = .sz ∨ si.indexing = .ssq) (c : Nat) (sz : Int) (hc : c ≤ n)
    (hsz : AdmSz n c sz) :
    ∃ l, si.getLst (some c) (some sz) none = .ok (some l) ∧ l.Nodup ∧
      ∀ b : Nat, b ∈ l ↔ ∃ s, si.getState b = .ok s ∧ s.sum = c ∧ twoSz n s = sz := by
  have hn := (hinv.sz hix').1
  obtain ⟨k, hk, rfl⟩ := (admSz_iff hn hc sz).1 hsz
  obtain ⟨T, R, l, g0, g1, g2, g3, g4, g5⟩ := hinv.sz_row hix' c k hc hk
  refine ⟨l, ?_, g3, ?_⟩
  · simp only [SI.getLst, g0, hinv.nsingle, g1, py_bind_ok, szToInd_range n c k hc, g2, py_pure]
  · intro b
    rw [g5 b]
    constructor
    · rintro ⟨hb, hch, hp⟩
      refine ⟨_, hinv.getState hb, hch, ?_⟩
      rw [take_up (hinv.ilt hb) hn, szPos_sz hn (hinv.ilt hb), hch, hp]
    · rintro ⟨s, hs, hsum, hz⟩
      by_cases hb : b < si.i.length
      · refine ⟨hb, ?_⟩
        rw [hinv.getState hb] at hs
        simp only [Except.ok.injEq] at hs
        rw [← hs] at hsum hz
        have hcc : charge n si.i[b] = c := hsum
        refine ⟨hcc, ?_⟩
        rw [take_up (hinv.ilt hb) hn, szPos_sz hn (hinv.ilt hb), hcc] at hz
        omega
      · rw [hinv.getState_err (by omega)] at hs
        cases hs

/-- **C09**. After any sequence of `remove_fock_states` calls on an object with 'charge'
or 'sz' indexing exactly the states named in the calls are gone and the remaining ones
are indexed consistently: indices and occupation lists, lists by charge and by spin
projection, and the dictionaries of quantum numbers. Indices are Python indices, so `-1`
names the last state. With 'Lin' indexing the same holds for a single call.

Missing to the full property: 'Lin' indexing with two or more calls, for which it is
false (`c09_lin_twice_false`), and 'ssq' indexing, for which the code ignores the call
(`c09_ssq_ignored`). -/
theorem c09_remove_history_partial (n : Nat) (hn : 1 ≤ n) (indexing : String)
    (calls : List (List Int))
    (hin : ∀ l ∈ calls, ∀ i ∈ l, -((2 ^ n : Nat) : Int) ≤ i ∧ i < ((2 ^ n : Nat) : Int))
    (hix : indexing = "charge" ∨ (indexing = "sz" ∧ n % 2 = 0) ∨
      (¬ (indexing = "ssq" ∧ n % 2 = 0) ∧ calls.length ≤ 1)) :
    ∃ si, SI.run n indexing calls = .ok si ∧ RemovedOk n calls si := by
  obtain ⟨si0, h1, hinv0, hch, hr⟩ := init_inv n indexing
  have hnssq : si0.indexing ≠ .ssq := by
    rw [hch]; unfold chooseIndexing
    rcases hix with rfl | ⟨rfl, h⟩ | ⟨h, _⟩
    · simp
    · simp [h]
    · split
      · simp
      · split
        · simp
        · simp
  have hlin : si0.indexing = .Lin → si0.removed = none ∧ calls.length ≤ 1 ∨ calls = [] := by
    intro h
    left
    refine ⟨hr, ?_⟩
    rw [hch] at h
    unfold chooseIndexing at h
    rcases hix with rfl | ⟨rfl, h'⟩ | ⟨_, h'⟩
    · simp at h
    · simp [h'] at h
    · exact h'
  obtain ⟨si, g1, hinv, g3, g4⟩ := removes_inv n calls si0 hinv0 hnssq hlin hin
  have hnamed : ∀ s, IsOcc n s → (keepOf si.removed (linIndex s) = false ↔ Named n calls s) := by
    intro s hs
    have hlt : linIndex s < 2 ^ n := by
      have := bitsVal_lt (isOcc_lt hs); rw [hs.1] at this; exact this
    rw [g4 _ hlt, hr, keepOf_none]
    simp only [Bool.true_eq_false, false_or, List.mem_map, Named]
    constructor
    · rintro ⟨l, hl, i, hi, e⟩
      exact ⟨l, hl, i, hi, (names_iff (hin l hl i hi) _ hlt).2 e.symm⟩
    · rintro ⟨l, hl, i, hi, e⟩
      exact ⟨l, hl, i, hi, ((names_iff (hin l hl i hi) _ hlt).1 e).symm⟩
  refine ⟨si, ?_, ?_⟩
  · unfold SI.run
    rw [h1]; exact g1
  refine ⟨?_, ?_, ?_, ?_, charges_of_inv hinv, fun h => szs_of_inv hinv (Or.inl h),
    dictsOk_of_inv hinv⟩
  · intro s hs hN
    exact (hinv.getInd hn hs.1 (isOcc_lt hs)).1 ((hnamed s hs).2 hN)
  · intro s hs hN
    have hd := isOcc_lt hs
    have hlt : bitsVal s < 2 ^ n := by rw [← hs.1]; exact bitsVal_lt hd
    have hkeep : keepOf si.removed (bitsVal s) = true := by
      by_contra h
      exact hN ((hnamed s hs).1 (Bool.eq_false_iff.2 h))
    have hmem : bitsVal s ∈ si.i := (hinv.imem _).2 ⟨hlt, hkeep⟩
    obtain ⟨b, hb, e⟩ := List.getElem_of_mem hmem
    refine ⟨b, by rw [← hinv.ilen]; exact hb, (hinv.getInd hn hs.1 hd).2 b hb e, ?_⟩
    rw [hinv.getState' hn hb, e, ← hs.1, bitsN_bitsVal hd]
  · intro b hb
    rw [← hinv.ilen] at hb
    have hval := bitsVal_bitsN (hinv.ilt hb)
    refine ⟨_, hinv.getState' hn hb, isOcc_bits _ _, ?_, ?_⟩
    · intro hN
      have := (hnamed _ (isOcc_bits _ _)).2 hN
      have h2 := ((hinv.imem _).1 (List.getElem_mem hb)).2
      rw [show linIndex (bitsN n si.i[b]) = si.i[b] from hval] at this
      rw [h2] at this
      exact absurd this (by simp)
    · exact (hinv.getInd hn (bitsN_length _ _) (fun d hd => bitsN_lt_two hd)).2 b hb hval.symm
  · intro b hb
    exact hinv.getState_err (by rw [hinv.ilen]; exact hb)

example : ∀ l ∈ ([[1, -1], [], [2, 1]] : List (List Int)), ∀ i ∈ l,
    -((2 ^ 3 : Nat) : Int) ≤ i ∧ i < ((2 ^ 3 : Nat) : Int) := by decide

example : (SI.run 3 "charge" [[1, -1], [], [2, 1]] >>= fun si =>
    .ok (si.nmany, si.i, si.chargelst)) = .ok (5, [0, 4, 3, 5, 6], [[0], [1], [2, 3, 4], []]) := by
  decide +kernel

/-- An index outside `-2^n..2^n-1` makes the call fail with an `IndexError`. -/
theorem c09_out_of_range (n : Nat) (indexing : String)
    (hix : ¬ (indexing = "ssq" ∧ n % 2 = 0)) (l : List Int)
    (h : ∃ i ∈ l, i < -((2 ^ n : Nat) : Int) ∨ ((2 ^ n : Nat) : Int) ≤ i) :
    SI.run n indexing [l] = .error .index := by
  obtain ⟨si0, h1, hinv0, hch, hr⟩ := init_inv n indexing
  have hnssq : si0.indexing ≠ .ssq := by
    rw [hch]; unfold chooseIndexing
    split
    · simp
    · split
      · simp
      · simp [hix]
  unfold SI.run
  rw [h1]
  simp only [py_bind_ok, List.foldlM_cons]
  unfold SI.removeFockStates
  rw [if_neg hnssq]
  have : si0.removedArr.length = 2 ^ n := by
    unfold SI.removedArr
    rw [hr]
    simp [hinv0.nmany, hr]
  rw [markRemoved_err (2 ^ n) l (by
    obtain ⟨i, h1, h2⟩ := h
    intro hall
    have := hall i h1
    omega) _ this]
  rfl

example : ∃ i ∈ ([3, 8] : List Int), i < -((2 ^ 3 : Nat) : Int) ∨ ((2 ^ 3 : Nat) : Int) ≤ i := by
  decide

/-- With 'ssq' indexing `remove_fock_states` leaves the object as it was. -/
theorem c09_ssq_ignored (n : Nat) (hn : n % 2 = 0) (calls : List (List Int)) :
    SI.run n "ssq" calls = SI.init n "ssq" := by
  obtain ⟨si0, h1, hinv0, hch, hr⟩ := init_inv n "ssq"
  have hix : si0.indexing = .ssq := by rw [hch]; simp [chooseIndexing, hn]
  unfold SI.run
  rw [h1]
  simp only [py_bind_ok]
  induction calls with
  | nil => rfl
  | cons l calls ih =>
    rw [List.foldlM_cons]
    unfold SI.removeFockStates
    rw [if_pos hix]
    exact ih

/-- C09 is false for 'Lin' indexing with two calls: removing state `001` and then `011` of
three orbitals also loses the state `111`, which was never named. -/
theorem c09_lin_twice_false :
    ¬ ∃ si, SI.run 3 "Lin" [[1], [3]] = .ok si ∧ RemovedOk 3 [[1], [3]] si := by
  rintro ⟨si, h1, h2⟩
  obtain ⟨b, _, g, g'⟩ := h2.kept [1, 1, 1] ⟨rfl, by decide⟩ (by
    unfold Named Names linIndex; decide)
  have h3 : (SI.run 3 "Lin" [[1], [3]] >>= fun si => si.getInd [1, 1, 1]) = .ok (some 6) := by
    decide +kernel
  have h4 : (SI.run 3 "Lin" [[1], [3]] >>= fun si => si.getState 6) = .error .index := by
    decide +kernel
  rw [h1] at h3 h4
  simp only [py_bind_ok] at h3 h4
  rw [h3] at g
  simp only [Except.ok.injEq, Option.some.injEq] at g
  subst g
  rw [show ((6 : Nat) : Int) = 6 from rfl, h4] at g'
  cases g'

end Verif
