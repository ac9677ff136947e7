import Verif.Lemmas.Fock
import Verif.Props.Indexing

/-!
Theorems about the many-body matrices in the Fock basis (C10, C11, C12, C14, C15, C44).
-/

namespace Verif

open Verif.Spec Function

variable {n : Nat}

/-! ### Which objects are consistent -/

theorem isOcc_ofOcc (s : Occ n) : IsOcc n (ofOcc s) := by
  refine ⟨ofOcc_length s, ?_⟩
  intro d hd
  unfold ofOcc at hd
  rw [List.mem_ofFn] at hd
  obtain ⟨i, rfl⟩ := hd
  by_cases h : s i = true <;> simp [h]

theorem exists_ofOcc {l : List Nat} (h : IsOcc n l) : ∃ s : Occ n, ofOcc s = l := by
  refine ⟨fun i => decide (l[(i : Nat)]'(by rw [h.1]; exact i.isLt) = 1), ?_⟩
  refine List.ext_getElem (by rw [ofOcc_length, h.1]) ?_
  intro k h1 h2
  rw [ofOcc_getElem]
  rcases h.2 _ (List.getElem_mem h2) with e | e <;> simp [e]

theorem consistent_of_inv (hn : 1 ≤ n) {si : SI} (hinv : SIInv n si) : Consistent n si := by
  have key : ∀ (P : List Nat → Prop) (b : Nat),
      (∃ s, si.getState b = .ok s ∧ P s) ↔
        b < si.nmany ∧ ∃ s : Occ n, si.getState b = .ok (ofOcc s) ∧ P (ofOcc s) := by
    intro P b
    constructor
    · rintro ⟨s, h1, h2⟩
      by_cases hb : b < si.i.length
      · refine ⟨by rw [← hinv.ilen]; exact hb, ?_⟩
        have h3 := hinv.getState' hn hb
        rw [h1] at h3
        obtain ⟨t, ht⟩ := exists_ofOcc (isOcc_bits n si.i[b])
        refine ⟨t, ?_, ?_⟩
        · rw [h1, h3, ht]
        · rw [ht, ← Except.ok.inj h3]; exact h2
      · rw [hinv.getState_err (by omega)] at h1
        cases h1
    · rintro ⟨_, s, h1, h2⟩
      exact ⟨_, h1, h2⟩
  refine ⟨?_, ?_, ?_, ?_⟩
  · intro b hb
    rw [← hinv.ilen] at hb
    obtain ⟨s, hs⟩ := exists_ofOcc (isOcc_bits n si.i[b])
    refine ⟨s, ?_, ?_⟩
    · rw [hs]; exact hinv.getState' hn hb
    · rw [hs]
      exact (hinv.getInd hn (bitsN_length _ _) (fun d hd => bitsN_lt_two hd)).2 b hb
        (bitsVal_bitsN (hinv.ilt hb)).symm
  · intro s
    have hd := isOcc_lt (isOcc_ofOcc s)
    have hl := ofOcc_length s
    have hlt : bitsVal (ofOcc s) < 2 ^ n := by
      have := bitsVal_lt hd; rwa [hl] at this
    by_cases hkeep : keepOf si.removed (bitsVal (ofOcc s)) = true
    · right
      have hmem : bitsVal (ofOcc s) ∈ si.i := (hinv.imem _).2 ⟨hlt, hkeep⟩
      obtain ⟨b, hb, e⟩ := List.getElem_of_mem hmem
      refine ⟨b, by rw [← hinv.ilen]; exact hb, (hinv.getInd hn hl hd).2 b hb e, ?_⟩
      rw [hinv.getState' hn hb, e]
      congr 1
      have := bitsN_bitsVal hd
      rwa [hl] at this
    · left
      exact (hinv.getInd hn hl hd).1 (by simpa using hkeep)
  · intro c hc
    obtain ⟨l, h1, h2, h3⟩ := charges_of_inv hinv c hc
    refine ⟨l, h1, h2, ?_⟩
    intro b
    rw [h3 b, key]
    simp only [ofOcc_sum]
  · intro hix c sz hc hsz
    obtain ⟨l, h1, h2, h3⟩ := szs_of_inv hinv hix c sz hc hsz
    refine ⟨l, h1, h2, ?_⟩
    intro b
    rw [h3 b, key]
    simp only [ofOcc_sum]

/-- A new `StateIndexing` object of any kind is consistent and holds all states. -/
theorem init_consistent (n : Nat) (hn : 1 ≤ n) (indexing : String) :
    ∃ si, SI.init n indexing = .ok si ∧ Consistent n si ∧ si.nmany = 2 ^ n := by
  obtain ⟨si, h1, hinv, _, hr⟩ := init_inv n indexing
  exact ⟨si, h1, consistent_of_inv hn hinv, by rw [← hinv.ilen]; exact nmany_init hinv hr⟩

/-- An object with 'charge' or 'sz' indexing stays consistent under any removals of Fock
states, one with 'Lin' indexing under one call. -/
theorem run_consistent (n : Nat) (hn : 1 ≤ n) (indexing : String) (calls : List (List Int))
    (hin : ∀ l ∈ calls, ∀ i ∈ l, -((2 ^ n : Nat) : Int) ≤ i ∧ i < ((2 ^ n : Nat) : Int))
    (hix : indexing = "charge" ∨ (indexing = "sz" ∧ n % 2 = 0) ∨
      (¬ (indexing = "ssq" ∧ n % 2 = 0) ∧ calls.length ≤ 1)) :
    ∃ si, SI.run n indexing calls = .ok si ∧ Consistent n si := by
  obtain ⟨si0, h1, hinv0, hch, hr⟩ := init_inv n indexing
  have hnssq : si0.indexing ≠ .ssq := by
    rw [hch]; unfold chooseIndexing
    rcases hix with rfl | ⟨rfl, h⟩ | ⟨h, _⟩
    · simp
    · simp [h]
    · split
      · simp
      · split
        · simp
        · simp
  have hlin : si0.indexing = .Lin → si0.removed = none ∧ calls.length ≤ 1 ∨ calls = [] := by
    intro h
    left
    refine ⟨hr, ?_⟩
    rw [hch] at h
    unfold chooseIndexing at h
    rcases hix with rfl | ⟨rfl, h'⟩ | ⟨_, h'⟩
    · simp at h
    · simp [h'] at h
    · exact h'
  obtain ⟨si, g1, hinv, _, _⟩ := removes_inv n calls si0 hinv0 hnssq hlin hin
  refine ⟨si, ?_, consistent_of_inv hn hinv⟩
  unfold SI.run
  rw [h1]; exact g1

/-! ### Lists closed under moves -/

/-- `lst` names states without repetition and contains all states of the object that some
admissible change `R` of a state of the list leads to. -/
structure Closed (n : Nat) (si : SI) (lst : List Nat) (R : Occ n → Occ n → Prop) : Prop where
  nodup : lst.Nodup
  mem : ∀ b ∈ lst, b < si.nmany
  closed : ∀ b ∈ lst, ∀ s : Occ n, si.getState b = .ok (ofOcc s) → ∀ u, R s u →
    ∀ b' : Nat, b' < si.nmany → si.getState b' = .ok (ofOcc u) → b' ∈ lst

/-- The changes that conserve charge. -/
def SameCharge (s u : Occ n) : Prop := Occ.count u = Occ.count s

/-- The changes that conserve charge and spin projection. -/
def SameSpin (s u : Occ n) : Prop :=
  Occ.count u = Occ.count s ∧ twoSz n (ofOcc u) = twoSz n (ofOcc s)

theorem ofOcc_inj' {s t : Occ n} {x : Py (List Nat)} (h : x = .ok (ofOcc s))
    (h' : x = .ok (ofOcc t)) : s = t := by
  rw [h] at h'
  exact ofOcc_injective (Except.ok.inj h')

/-- The lists by charge are closed. -/
theorem closed_charge {si : SI} (hc : Consistent n si) (c : Nat) (hcn : c ≤ n) :
    ∃ l, si.getLst (some c) none none = .ok (some l) ∧ Closed n si l SameCharge := by
  obtain ⟨l, h1, h2, h3⟩ := hc.charges c hcn
  refine ⟨l, h1, h2, fun b hb => ((h3 b).1 hb).1, ?_⟩
  intro b hb s hs u hu b' hb' hs'
  obtain ⟨_, t, g1, g2⟩ := (h3 b).1 hb
  refine (h3 b').2 ⟨hb', u, hs', ?_⟩
  rw [show Occ.count u = Occ.count s from hu, ofOcc_inj' hs g1, g2]

/-- The lists by charge and spin projection are closed under changes that keep both. -/
theorem closed_sz {si : SI} (hc : Consistent n si) (hix : si.indexing = .sz ∨ si.indexing = .ssq)
    (c : Nat) (sz : Int) (hcn : c ≤ n) (hsz : AdmSz n c sz) :
    ∃ l, si.getLst (some c) (some sz) none = .ok (some l) ∧ Closed n si l SameSpin := by
  obtain ⟨l, h1, h2, h3⟩ := hc.szs hix c sz hcn hsz
  refine ⟨l, h1, h2, fun b hb => ((h3 b).1 hb).1, ?_⟩
  intro b hb s hs u hu b' hb' hs'
  obtain ⟨_, t, g1, g2, g3⟩ := (h3 b).1 hb
  refine (h3 b').2 ⟨hb', u, hs', ?_, ?_⟩
  · rw [hu.1, ofOcc_inj' hs g1, g2]
  · rw [hu.2, ofOcc_inj' hs g1, g3]

/-- The list of all states is closed under everything. -/
theorem closed_all (si : SI) (R : Occ n → Occ n → Prop) :
    Closed n si (List.range si.nmany) R :=
  ⟨List.nodup_range, by simp, fun _ _ _ _ _ _ _ hb' _ => by simpa using hb'⟩

theorem Closed.basis {si : SI} (hc : Consistent n si) {lst : List Nat} {R : Occ n → Occ n → Prop}
    (h : Closed n si lst R) : ∃ st : Nat → Occ n, Basis n si lst st ∧
      ∀ j1 < lst.length, ∀ u, R (st j1) u → Basis.Has si lst st u := by
  obtain ⟨st, hst⟩ := hc.basis h.nodup h.mem
  refine ⟨st, hst, ?_⟩
  intro j1 hj u hu
  exact hc.has hst h.mem (h.closed _ (List.getElem_mem hj) _ (hst.get j1 hj) u hu)

/-! ### Moves -/

theorem count_hop (s : Occ n) {i j : Fin n} (hij : i ≠ j) (hi : s i = true) (hj : s j = false) :
    Occ.count (update (update s i false) j true) = Occ.count s := by
  rw [count_update_true _ _ (by rw [update_of_ne (Ne.symm hij)]; exact hj), count_update_false _ _ hi]

theorem count_coul (m p k l : Fin n) (s : Occ n) (hk : s k = true) (hl : s l = true) (hkl : k ≠ l)
    (hm : update (update s k false) l false m = false)
    (hp : update (update s k false) l false p = false) (hmp : m ≠ p) :
    Occ.count (coulTarget m p k l s) = Occ.count s := by
  unfold coulTarget
  rw [count_update_true _ _ (by rw [update_of_ne (Ne.symm hmp)]; exact hp),
    count_update_true _ _ hm]
  have h1 := count_update_false s k hk
  have h2 := count_update_false (update s k false) l (by rw [update_of_ne (Ne.symm hkl)]; exact hl)
  omega

theorem twoSz_eq (s : Occ n) : twoSz n (ofOcc s)
    = 2 * ((Finset.univ.filter fun j : Fin n => (j : Nat) < n / 2 ∧ s j = true).card : Int) -
      Occ.count s := by
  unfold twoSz
  have h := List.take_append_drop (n / 2) (ofOcc s)
  have h2 : ((ofOcc s).take (n / 2)).sum + ((ofOcc s).drop (n / 2)).sum = Occ.count s := by
    rw [← List.sum_append, h, ofOcc_sum]
  rw [← sum_ofFn_take s (n / 2) (by omega)]
  omega

/-- Two orbitals of the same spin species. -/
def SameSpecies (i j : Fin n) : Prop := ((i : Nat) < n / 2 ↔ (j : Nat) < n / 2)

theorem up_update (s : Occ n) (i : Fin n) (b : Bool) (h : s i = !b) :
    ((Finset.univ.filter fun j : Fin n => (j : Nat) < n / 2 ∧ update s i b j = true).card : Int)
      = (Finset.univ.filter fun j : Fin n => (j : Nat) < n / 2 ∧ s j = true).card +
        if (i : Nat) < n / 2 then (if b then 1 else -1) else 0 := by
  by_cases hi : (i : Nat) < n / 2
  · cases b with
    | true =>
      have hs : s i = false := by simpa using h
      have : (Finset.univ.filter fun j : Fin n => (j : Nat) < n / 2 ∧ update s i true j = true)
          = insert i (Finset.univ.filter fun j : Fin n => (j : Nat) < n / 2 ∧ s j = true) := by
        ext j
        by_cases e : j = i
        · subst e; simp [hi]
        · simp [update_of_ne e, e]
      rw [this, Finset.card_insert_of_notMem (by simp [hs])]
      simp [hi]
    | false =>
      have hs : s i = true := by simpa using h
      have : (Finset.univ.filter fun j : Fin n => (j : Nat) < n / 2 ∧ s j = true)
          = insert i (Finset.univ.filter fun j : Fin n =>
              (j : Nat) < n / 2 ∧ update s i false j = true) := by
        ext j
        by_cases e : j = i
        · subst e; simp [hi, hs]
        · simp [update_of_ne e, e]
      rw [this, Finset.card_insert_of_notMem (by simp)]
      simp [hi]
  · have : (Finset.univ.filter fun j : Fin n => (j : Nat) < n / 2 ∧ update s i b j = true)
          = (Finset.univ.filter fun j : Fin n => (j : Nat) < n / 2 ∧ s j = true) := by
        ext j
        by_cases e : j = i
        · subst e; simp [hi]
        · simp [update_of_ne e]
    rw [this]
    simp [hi]

theorem spin_hop (s : Occ n) {i j : Fin n} (hij : i ≠ j) (hi : s i = true) (hj : s j = false)
    (hsp : SameSpecies i j) : SameSpin s (update (update s i false) j true) := by
  refine ⟨count_hop s hij hi hj, ?_⟩
  rw [twoSz_eq, twoSz_eq, count_hop s hij hi hj,
    up_update _ j true (by rw [update_of_ne (Ne.symm hij), hj]; rfl), up_update s i false (by simp [hi])]
  unfold SameSpecies at hsp
  by_cases h : (i : Nat) < n / 2
  · simp [h, hsp.1 h]
  · have : ¬ (j : Nat) < n / 2 := fun h' => h (hsp.2 h')
    simp [h, this]

/-! ### C10 and C11 -/

/-- **C10** for any closed list of states. -/
theorem c10_list {si : SI} (hc : Consistent n si) (herm : Bool)
    (hs : List ((Fin n × Fin n) × ℂ)) (R : Occ n → Occ n → Prop)
    (hR : ∀ e ∈ hs, ∀ s : Occ n, e.1.1 ≠ e.1.2 → s e.1.1 = true → s e.1.2 = false →
      R s (update (update s e.1.1 false) e.1.2 true))
    (lst : List Nat) (hl : Closed n si lst R) (old : Option Arr)
    (hold : ∀ a, old = some a → a.dims = [lst.length, lst.length]) :
    ∃ M, constructHamHopping si herm (hopKeys hs) lst old = .ok M ∧
      M.dims = [lst.length, lst.length] ∧
      ∀ p q (hp : p < lst.length) (hq : q < lst.length) (s' s : Occ n),
        si.getState (lst[p] : Nat) = .ok (ofOcc s') → si.getState (lst[q] : Nat) = .ok (ofOcc s) →
        M.val [p, q] = (old.elim 0 fun a => a.val [p, q]) + hopOp herm hs s' s := by
  obtain ⟨st, hb, hhas⟩ := hl.basis hc
  obtain ⟨g, g1, g2⟩ := hopping_ok (herm := herm) hb hs
    (fun e he j1 hj h1 h2 h3 => hhas j1 hj _ (hR e he _ h1 h2 h3)) old hold
  refine ⟨_, g1, ?_, ?_⟩
  · cases old with
    | none => rfl
    | some a => exact hold a rfl
  · intro p q hp hq s' s hs' hs
    rw [ofOcc_inj' hs' (hb.get p hp), ofOcc_inj' hs (hb.get q hq), ← g2 p q hp hq]
    cases old <;> rfl

/-- **C10**. For any state indexing and any dictionary `hsingle` with labels of orbitals,
`construct_ham_hopping` does not raise on the list of the states with `c` electrons, and the
matrix it returns is the matrix of `sum h d+_j d_i` over the entries `(i, j): h` (with the
conjugate terms when `herm_hs` is set) between these states. -/
theorem c10_hopping {si : SI} (hc : Consistent n si) (herm : Bool)
    (hs : List ((Fin n × Fin n) × ℂ)) (c : Nat) (hcn : c ≤ n) :
    ∃ lst M, si.getLst (some c) none none = .ok (some lst) ∧
      constructHamHopping si herm (hopKeys hs) lst none = .ok M ∧
      M.dims = [lst.length, lst.length] ∧
      ∀ p q (hp : p < lst.length) (hq : q < lst.length) (s' s : Occ n),
        si.getState (lst[p] : Nat) = .ok (ofOcc s') → si.getState (lst[q] : Nat) = .ok (ofOcc s) →
        M.val [p, q] = hopOp herm hs s' s := by
  obtain ⟨lst, h1, h2⟩ := closed_charge hc c hcn
  obtain ⟨M, g1, g2, g3⟩ := c10_list hc herm hs SameCharge
    (fun e _ s a b c => count_hop s a b c) lst h2 none (by simp)
  refine ⟨lst, M, h1, g1, g2, ?_⟩
  intro p q hp hq s' s hs' hs
  rw [g3 p q hp hq s' s hs' hs]
  simp

/-- **C10** on the lists by charge and spin projection, for hopping that conserves spin. -/
theorem c10_hopping_sz {si : SI} (hc : Consistent n si)
    (hix : si.indexing = .sz ∨ si.indexing = .ssq) (herm : Bool)
    (hs : List ((Fin n × Fin n) × ℂ)) (hsp : ∀ e ∈ hs, SameSpecies e.1.1 e.1.2)
    (c : Nat) (sz : Int) (hcn : c ≤ n) (hsz : AdmSz n c sz) :
    ∃ lst M, si.getLst (some c) (some sz) none = .ok (some lst) ∧
      constructHamHopping si herm (hopKeys hs) lst none = .ok M ∧
      M.dims = [lst.length, lst.length] ∧
      ∀ p q (hp : p < lst.length) (hq : q < lst.length) (s' s : Occ n),
        si.getState (lst[p] : Nat) = .ok (ofOcc s') → si.getState (lst[q] : Nat) = .ok (ofOcc s) →
        M.val [p, q] = hopOp herm hs s' s := by
  obtain ⟨lst, h1, h2⟩ := closed_sz hc hix c sz hcn hsz
  obtain ⟨M, g1, g2, g3⟩ := c10_list hc herm hs SameSpin
    (fun e he s a b c => spin_hop s a b c (hsp e he)) lst h2 none (by simp)
  refine ⟨lst, M, h1, g1, g2, ?_⟩
  intro p q hp hq s' s hs' hs
  rw [g3 p q hp hq s' s hs' hs]
  simp

/-- **C11** for any closed list of states. -/
theorem c11_list {si : SI} (hc : Consistent n si) (herm mLessN : Bool)
    (cs : List ((Fin n × Fin n × Fin n × Fin n) × ℂ)) (R : Occ n → Occ n → Prop)
    (hR : ∀ m p k l, (∃ U, ((m, p, k, l), U) ∈ cs) → ∀ s : Occ n,
      s k = true → s l = true → k ≠ l → update (update s k false) l false m = false →
      update (update s k false) l false p = false → m ≠ p → R s (coulTarget m p k l s))
    (lst : List Nat) (hl : Closed n si lst R) (old : Option Arr)
    (hold : ∀ a, old = some a → a.dims = [lst.length, lst.length]) :
    ∃ M, constructHamCoulomb si herm mLessN (coulKeys cs) lst old = .ok M ∧
      M.dims = [lst.length, lst.length] ∧
      ∀ p q (hp : p < lst.length) (hq : q < lst.length) (s' s : Occ n),
        si.getState (lst[p] : Nat) = .ok (ofOcc s') → si.getState (lst[q] : Nat) = .ok (ofOcc s) →
        M.val [p, q] = (old.elim 0 fun a => a.val [p, q]) + coulOp herm mLessN cs s' s := by
  obtain ⟨st, hb, hhas⟩ := hl.basis hc
  obtain ⟨g, g1, g2⟩ := coulomb_ok (hermC := herm) (mLessN := mLessN) hb cs
    (fun m p k l he j1 hj a b c d e f => hhas j1 hj _ (hR m p k l he _ a b c d e f)) old hold
  refine ⟨_, g1, ?_, ?_⟩
  · cases old with
    | none => rfl
    | some a => exact hold a rfl
  · intro p q hp hq s' s hs' hs
    rw [ofOcc_inj' hs' (hb.get p hp), ofOcc_inj' hs (hb.get q hq), ← g2 p q hp hq]
    cases old <;> rfl

/-- **C11**. For any state indexing and any dictionary `coulomb` with labels of orbitals,
`construct_ham_coulomb` does not raise on the list of the states with `c` electrons, and the
matrix it returns is the matrix of `sum U d+_m d+_n d_k d_l` over the entries
`(m, n, k, l): U` (with the conjugate terms selected by `herm_c` and `m_less_n`). -/
theorem c11_coulomb {si : SI} (hc : Consistent n si) (herm mLessN : Bool)
    (cs : List ((Fin n × Fin n × Fin n × Fin n) × ℂ)) (c : Nat) (hcn : c ≤ n) :
    ∃ lst M, si.getLst (some c) none none = .ok (some lst) ∧
      constructHamCoulomb si herm mLessN (coulKeys cs) lst none = .ok M ∧
      M.dims = [lst.length, lst.length] ∧
      ∀ p q (hp : p < lst.length) (hq : q < lst.length) (s' s : Occ n),
        si.getState (lst[p] : Nat) = .ok (ofOcc s') → si.getState (lst[q] : Nat) = .ok (ofOcc s) →
        M.val [p, q] = coulOp herm mLessN cs s' s := by
  obtain ⟨lst, h1, h2⟩ := closed_charge hc c hcn
  obtain ⟨M, g1, g2, g3⟩ := c11_list hc herm mLessN cs SameCharge
    (fun m p k l _ s a b c d e f => count_coul m p k l s a b c d e f) lst h2 none (by simp)
  refine ⟨lst, M, h1, g1, g2, ?_⟩
  intro p q hp hq s' s hs' hs
  rw [g3 p q hp hq s' s hs' hs]
  simp

/-! ### C12 -/

/-- **C12**, matrix elements. For any state indexing and any dictionary `tleads` with labels of
leads and orbitals, `construct_Tba` does not raise, and `Tba[r]` is the matrix of
`sum t d+_i + t* d_i` over the entries `(r, i): t`. -/
theorem c12_tba {si : SI} (hc : Consistent n si) (nleads : Nat) (ts : List ((Nat × Fin n) × ℂ))
    (hts : ∀ e ∈ ts, e.1.1 < nleads) :
    ∃ T, constructTba si nleads (tunKeys ts) none = .ok T ∧
      T.dims = [nleads, si.nmany, si.nmany] ∧
      ∀ r p q, p < si.nmany → q < si.nmany → ∀ s' s : Occ n,
        si.getState (p : Nat) = .ok (ofOcc s') → si.getState (q : Nat) = .ok (ofOcc s) →
        T.val [r, p, q] = tunOp r ts s' s := by
  obtain ⟨st, hf⟩ := hc.full
  obtain ⟨g, g1, g2⟩ := tba_ok hf nleads ts hts none (by simp)
  refine ⟨_, g1, rfl, ?_⟩
  intro r p q hp hq s' s hs' hs
  rw [ofOcc_inj' hs' (hf.get p hp), ofOcc_inj' hs (hf.get q hq), ← g2 r p q hp hq]
  exact zero_add _

theorem conj_cre (i : Fin n) :
    (cre i : Matrix (Occ n) (Occ n) ℂ).conjTranspose = ann i := by
  ext s' s
  rw [Matrix.conjTranspose_apply]
  unfold cre ann
  simp only [Matrix.transpose_apply, Matrix.of_apply]
  split <;> simp

theorem conj_ann (i : Fin n) :
    (ann i : Matrix (Occ n) (Occ n) ℂ).conjTranspose = cre i := by
  rw [← conj_cre, Matrix.conjTranspose_conjTranspose]

theorem tunOp_conj (r : Nat) (ts : List ((Nat × Fin n) × ℂ)) :
    (tunOp r ts).conjTranspose = tunOp r ts := by
  unfold tunOp
  induction ts with
  | nil => simp
  | cons e ts ih =>
    simp only [List.map_cons, List.sum_cons, Matrix.conjTranspose_add, ih]
    congr 1
    split
    · rw [Matrix.conjTranspose_add, Matrix.conjTranspose_smul, Matrix.conjTranspose_smul, conj_cre,
        conj_ann, star_star, add_comm]
    · exact Matrix.conjTranspose_zero

/-- **C12**, Hermiticity. -/
theorem c12_hermitian {si : SI} (hc : Consistent n si) (nleads : Nat)
    (ts : List ((Nat × Fin n) × ℂ)) (hts : ∀ e ∈ ts, e.1.1 < nleads) (T : Arr)
    (hT : constructTba si nleads (tunKeys ts) none = .ok T) (r p q : Nat)
    (hp : p < si.nmany) (hq : q < si.nmany) :
    T.val [r, p, q] = star (T.val [r, q, p]) := by
  obtain ⟨T', h1, _, h3⟩ := c12_tba hc nleads ts hts
  rw [hT] at h1
  have e := Except.ok.inj h1
  subst e
  obtain ⟨s', hs', _⟩ := hc.state p hp
  obtain ⟨s, hs, _⟩ := hc.state q hq
  rw [h3 r p q hp hq s' s hs' hs, h3 r q p hq hp s s' hs hs', ← Matrix.conjTranspose_apply,
    tunOp_conj]

theorem cre_count (i : Fin n) (s' s : Occ n)
    (h : (cre i : Matrix (Occ n) (Occ n) ℂ) s' s ≠ 0) : Occ.count s' = Occ.count s + 1 := by
  rw [cre_apply] at h
  by_cases hi : s i = true
  · simp [hi] at h
  · have hi' : s i = false := by simpa using hi
    by_cases e : s' = update s i true
    · rw [e, count_update_true _ _ hi']
    · simp [e] at h

theorem ann_count (i : Fin n) (s' s : Occ n)
    (h : (ann i : Matrix (Occ n) (Occ n) ℂ) s' s ≠ 0) : Occ.count s = Occ.count s' + 1 := by
  rw [ann_apply] at h
  by_cases hi : s i = true
  · by_cases e : s' = update s i false
    · rw [e, count_update_false _ _ hi]
    · simp [e] at h
  · simp [hi] at h

theorem sum_ne_zero {α : Type} {xs : List α} {f : α → ℂ} (h : (xs.map f).sum ≠ 0) :
    ∃ x ∈ xs, f x ≠ 0 := by
  by_contra hn
  push Not at hn
  apply h
  apply List.sum_eq_zero
  intro y hy
  obtain ⟨x, hx, rfl⟩ := List.mem_map.1 hy
  exact hn x hx

theorem tunOp_count (r : Nat) (ts : List ((Nat × Fin n) × ℂ)) (s' s : Occ n)
    (h : tunOp r ts s' s ≠ 0) :
    Occ.count s' = Occ.count s + 1 ∨ Occ.count s = Occ.count s' + 1 := by
  unfold tunOp at h
  rw [sum_apply] at h
  obtain ⟨e, _, he⟩ := sum_ne_zero h
  by_cases hr : e.1.1 = r
  · rw [if_pos hr, Matrix.add_apply, Matrix.smul_apply, Matrix.smul_apply] at he
    by_cases h1 : (cre e.1.2 : Matrix (Occ n) (Occ n) ℂ) s' s = 0
    · right
      rw [h1, smul_zero, zero_add] at he
      exact ann_count _ _ _ (right_ne_zero_of_mul he)
    · left
      exact cre_count _ _ _ h1
  · rw [if_neg hr] at he
    exact absurd rfl he

/-- **C12** and **C15**. Tunnelling connects only states whose charges differ by one. -/
theorem c12_charge {si : SI} (hc : Consistent n si) (nleads : Nat)
    (ts : List ((Nat × Fin n) × ℂ)) (hts : ∀ e ∈ ts, e.1.1 < nleads) (T : Arr)
    (hT : constructTba si nleads (tunKeys ts) none = .ok T) (r p q : Nat)
    (hp : p < si.nmany) (hq : q < si.nmany) (s' s : List Nat)
    (hs' : si.getState (p : Nat) = .ok s') (hs : si.getState (q : Nat) = .ok s)
    (h : s'.sum ≠ s.sum + 1 ∧ s.sum ≠ s'.sum + 1) : T.val [r, p, q] = 0 := by
  obtain ⟨T', h1, _, h3⟩ := c12_tba hc nleads ts hts
  rw [hT] at h1
  have e := Except.ok.inj h1
  subst e
  obtain ⟨u', hu', _⟩ := hc.state p hp
  obtain ⟨u, hu, _⟩ := hc.state q hq
  rw [hs'] at hu'
  rw [hs] at hu
  have e' := Except.ok.inj hu'
  have e := Except.ok.inj hu
  subst e' e
  rw [h3 r p q hp hq u' u hs' hs]
  by_contra hne
  rw [ofOcc_sum, ofOcc_sum] at h
  rcases tunOp_count r ts u' u hne with h' | h'
  · exact h.1 h'
  · exact h.2 h'

/-- The amplitude of lead `r` and orbital `i` in a dictionary (zero without an entry). -/
noncomputable def amp (ts : List ((Nat × Fin n) × ℂ)) (r : Nat) (i : Fin n) : ℂ :=
  (ts.map fun e => if e.1 = (r, i) then e.2 else 0).sum

theorem tunOp_amp (r : Nat) (ts : List ((Nat × Fin n) × ℂ)) :
    tunOp r ts = ∑ i : Fin n, (amp ts r i • cre i + star (amp ts r i) • ann i) := by
  unfold tunOp amp
  induction ts with
  | nil => simp
  | cons e ts ih =>
    obtain ⟨⟨a, j⟩, t⟩ := e
    simp only [List.map_cons, List.sum_cons, ih, star_add, add_smul]
    have key : (if a = r then t • cre j + star t • ann j else 0 : Matrix (Occ n) (Occ n) ℂ)
        = ∑ i : Fin n, ((if (a, j) = (r, i) then t else 0) • cre i +
            star (if (a, j) = (r, i) then t else 0) • ann i) := by
      by_cases ha : a = r
      · subst ha
        rw [if_pos rfl, Finset.sum_eq_single j]
        · simp
        · intro b _ hb
          simp [Ne.symm hb]
        · simp
      · rw [if_neg ha, Finset.sum_eq_zero]
        intro i _
        simp [ha]
    rw [key, ← Finset.sum_add_distrib]
    refine Finset.sum_congr rfl fun i _ => ?_
    abel

/-- The anticommutator of two couplings. -/
theorem tunOp_anticomm (r m : Nat) (ts : List ((Nat × Fin n) × ℂ)) :
    tunOp r ts * tunOp m ts + tunOp m ts * tunOp r ts
      = (∑ i : Fin n, (amp ts r i * star (amp ts m i) + star (amp ts r i) * amp ts m i)) •
        (1 : Matrix (Occ n) (Occ n) ℂ) := by
  rw [tunOp_amp r, tunOp_amp m]
  generalize amp ts r = f
  generalize amp ts m = g
  rw [Finset.sum_mul_sum, Finset.sum_mul_sum, Finset.sum_comm (f := fun i j =>
    (g i • cre i + star (g i) • ann i) * (f j • cre j + star (f j) • ann j)),
    ← Finset.sum_add_distrib, Finset.sum_smul]
  refine Finset.sum_congr rfl fun i _ => ?_
  rw [← Finset.sum_add_distrib, Finset.sum_eq_single i]
  · have h1 := cre_cre (K := ℂ) i i
    have h2 := ann_ann (K := ℂ) i i
    have h3 := ann_cre_self (K := ℂ) i
    simp only [add_mul, mul_add, smul_mul_smul_comm]
    have h1' : (cre i * cre i : Matrix (Occ n) (Occ n) ℂ) = 0 := by
      have : (2 : ℂ) • (cre i * cre i : Matrix (Occ n) (Occ n) ℂ) = 0 := by
        rw [two_smul]; exact h1
      exact (smul_eq_zero.1 this).resolve_left two_ne_zero
    have h2' : (ann i * ann i : Matrix (Occ n) (Occ n) ℂ) = 0 := by
      have : (2 : ℂ) • (ann i * ann i : Matrix (Occ n) (Occ n) ℂ) = 0 := by
        rw [two_smul]; exact h2
      exact (smul_eq_zero.1 this).resolve_left two_ne_zero
    rw [h1', h2', ← h3]
    simp only [smul_zero, zero_add, add_zero, add_smul, smul_add, mul_comm (g i),
      mul_comm (star (g i))]
    abel
  · intro j _ hj
    have h1 := cre_cre (K := ℂ) i j
    have h2 := ann_ann (K := ℂ) i j
    have h3 := ann_cre_ne (K := ℂ) (Ne.symm hj)
    have h4 := ann_cre_ne (K := ℂ) hj
    simp only [add_mul, mul_add, smul_mul_smul_comm]
    rw [eq_neg_of_add_eq_zero_left h1, eq_neg_of_add_eq_zero_left h2, eq_neg_of_add_eq_zero_left h3,
      eq_neg_of_add_eq_zero_left h4]
    simp only [mul_comm (g j), mul_comm (star (g j)), smul_neg]
    abel
  · simp

/-- The states of an object without removed states are all occupations. -/
theorem full_bij {si : SI} {st : Nat → Occ n} (hf : Full n si st) (hN : si.nmany = 2 ^ n)
    (f : Occ n → ℂ) : ∑ k ∈ Finset.range si.nmany, f (st k) = ∑ s : Occ n, f s := by
  have hinj : Set.InjOn st (Finset.range si.nmany) := by
    intro a ha b hb e
    simp only [Finset.coe_range, Set.mem_Iio] at ha hb
    rcases hf.has (st b) with ⟨_, h2⟩ | ⟨c, _, _, h3⟩
    · exact absurd rfl (h2 b hb)
    · rw [(h3 a ha).1 e, (h3 b hb).1 rfl]
  rw [← Finset.sum_image (f := f) hinj]
  congr 1
  apply Finset.eq_univ_of_card
  rw [Finset.card_image_of_injOn hinj, Finset.card_range, hN]
  simp

/-- **C12**, anticommutator. If no states are removed then `Tba[r] Tba[m] + Tba[m] Tba[r]` is
`2 Re sum_i t_{r,i} t_{m,i}*` times the identity. -/
theorem c12_anticommutator {si : SI} (hc : Consistent n si) (hN : si.nmany = 2 ^ n) (nleads : Nat)
    (ts : List ((Nat × Fin n) × ℂ)) (hts : ∀ e ∈ ts, e.1.1 < nleads) (T : Arr)
    (hT : constructTba si nleads (tunKeys ts) none = .ok T) (r m p q : Nat)
    (hp : p < si.nmany) (hq : q < si.nmany) :
    ∑ k ∈ Finset.range si.nmany,
        (T.val [r, p, k] * T.val [m, k, q] + T.val [m, p, k] * T.val [r, k, q])
      = if p = q then ((2 * (∑ i : Fin n, amp ts r i * star (amp ts m i)).re : ℝ) : ℂ) else 0 := by
  obtain ⟨T', h1, _, h3⟩ := c12_tba hc nleads ts hts
  rw [hT] at h1
  have e := Except.ok.inj h1
  subst e
  obtain ⟨st, hf⟩ := hc.full
  have h4 : ∀ r p q, p < si.nmany → q < si.nmany → T.val [r, p, q] = tunOp r ts (st p) (st q) :=
    fun r p q hp hq => h3 r p q hp hq _ _ (hf.get p hp) (hf.get q hq)
  rw [Finset.sum_congr rfl fun k hk => by
    have hk' : k < si.nmany := by simpa using hk
    rw [h4 r p k hp hk', h4 m k q hk' hq, h4 m p k hp hk', h4 r k q hk' hq]]
  rw [full_bij hf hN fun s => tunOp r ts (st p) s * tunOp m ts s (st q) +
    tunOp m ts (st p) s * tunOp r ts s (st q)]
  rw [Finset.sum_add_distrib, ← Matrix.mul_apply, ← Matrix.mul_apply, ← Matrix.add_apply,
    tunOp_anticomm, Matrix.smul_apply, Matrix.one_apply]
  have hone : st p = st q ↔ p = q := by
    rcases hf.has (st q) with ⟨_, h2⟩ | ⟨b, _, _, h5⟩
    · exact absurd rfl (h2 q hq)
    · rw [h5 p hp, (h5 q hq).1 rfl]
  simp only [hone]
  split
  · rw [smul_eq_mul, mul_one, Complex.re_sum, Finset.mul_sum, Complex.ofReal_sum]
    refine Finset.sum_congr rfl fun i _ => ?_
    rw [show star (amp ts r i) * amp ts m i = star (amp ts r i * star (amp ts m i)) by simp]
    exact Complex.add_conj _
  · simp

/-! ### C14 -/

theorem hopOp_conj (hs : List ((Fin n × Fin n) × ℂ))
    (hreal : ∀ e ∈ hs, e.1.1 = e.1.2 → star e.2 = e.2) :
    (hopOp true hs).conjTranspose = hopOp true hs := by
  unfold hopOp
  induction hs with
  | nil => simp
  | cons e hs ih =>
    simp only [List.map_cons, List.sum_cons, Matrix.conjTranspose_add,
      ih fun e he => hreal e (by simp [he])]
    congr 1
    unfold hopTerm
    by_cases h : e.1.1 = e.1.2
    · simp [h, Matrix.conjTranspose_mul, conj_cre, conj_ann, hreal e (by simp) h]
    · simp [h, Matrix.conjTranspose_mul, conj_cre, conj_ann, add_comm]

theorem coulOp_conj (mLessN : Bool) (cs : List ((Fin n × Fin n × Fin n × Fin n) × ℂ))
    (hreal : ∀ m p k l U, ((m, p, k, l), U) ∈ cs → m = l → p = k → star U = U)
    (hkl : mLessN = true → ∀ m p k l U, ((m, p, k, l), U) ∈ cs → l > k → m = l ∧ p = k) :
    (coulOp true mLessN cs).conjTranspose = coulOp true mLessN cs := by
  unfold coulOp
  induction cs with
  | nil => simp
  | cons e cs ih =>
    obtain ⟨⟨m, p, k, l⟩, U⟩ := e
    simp only [List.map_cons, List.sum_cons, Matrix.conjTranspose_add,
      ih (fun m p k l U h => hreal m p k l U (by simp [h]))
        (fun hm m p k l U h => hkl hm m p k l U (by simp [h]))]
    congr 1
    unfold coulTerm
    simp only []
    by_cases h : m = l ∧ p = k
    · have hU : star U = U := hreal m p k l U (by simp) h.1 h.2
      obtain ⟨rfl, rfl⟩ := h
      simp only [and_self, not_true, false_and, and_false, if_false, add_zero,
        Matrix.conjTranspose_smul, Matrix.conjTranspose_mul, conj_cre, conj_ann, hU,
        Matrix.mul_assoc]
    · have h2 : ¬ (mLessN = true ∧ l > k) := by
        rintro ⟨h1, h3⟩
        exact h (hkl h1 m p k l U (by simp) h3)
      simp only [h, h2, not_false_iff, and_self, if_true, Matrix.conjTranspose_add,
        Matrix.conjTranspose_smul, Matrix.conjTranspose_mul, conj_cre, conj_ann, star_star,
        Matrix.mul_assoc]
      rw [add_comm]

/-- **C14**. With `herm_hs` and `herm_c` set, real on-site energies and real density-density
interactions, the many-body Hamiltonian of each charge (the Coulomb part with the one-particle
part added, as in `construct_manybody_eigenstates`) is Hermitian. With `m_less_n` set the
entries with `l > k`, which the code does not complete, have to be density-density
interactions. -/
theorem c14_hermitian {si : SI} (hc : Consistent n si) (mLessN : Bool)
    (hs : List ((Fin n × Fin n) × ℂ)) (cs : List ((Fin n × Fin n × Fin n × Fin n) × ℂ))
    (hreal : ∀ e ∈ hs, e.1.1 = e.1.2 → star e.2 = e.2)
    (hU : ∀ m p k l U, ((m, p, k, l), U) ∈ cs → m = l → p = k → star U = U)
    (hkl : mLessN = true → ∀ m p k l U, ((m, p, k, l), U) ∈ cs → l > k → m = l ∧ p = k)
    (c : Nat) (hcn : c ≤ n) :
    ∃ lst M, si.getLst (some c) none none = .ok (some lst) ∧
      (do let ham ← constructHamCoulomb si true mLessN (coulKeys cs) lst none
          constructHamHopping si true (hopKeys hs) lst (some ham)) = .ok M ∧
      M.dims = [lst.length, lst.length] ∧
      ∀ p q, p < lst.length → q < lst.length → M.val [p, q] = star (M.val [q, p]) := by
  obtain ⟨lst, h1, h2⟩ := closed_charge hc c hcn
  obtain ⟨M1, g1, g2, g3⟩ := c11_list hc true mLessN cs SameCharge
    (fun m p k l _ s a b c d e f => count_coul m p k l s a b c d e f) lst h2 none (by simp)
  obtain ⟨M2, k1, k2, k3⟩ := c10_list hc true hs SameCharge
    (fun e _ s a b c => count_hop s a b c) lst h2 (some M1)
    (by rintro a ⟨⟩; exact g2)
  refine ⟨lst, M2, h1, ?_, k2, ?_⟩
  · rw [g1]; exact k1
  · intro p q hp hq
    obtain ⟨s', hs', _⟩ := hc.state _ (h2.mem _ (List.getElem_mem hp))
    obtain ⟨s, hs1, _⟩ := hc.state _ (h2.mem _ (List.getElem_mem hq))
    rw [k3 p q hp hq s' s hs' hs1, k3 q p hq hp s s' hs1 hs']
    simp only [Option.elim_some]
    rw [g3 p q hp hq s' s hs' hs1, g3 q p hq hp s s' hs1 hs']
    simp only [Option.elim_none, zero_add, star_add]
    rw [← Matrix.conjTranspose_apply, ← Matrix.conjTranspose_apply, hopOp_conj hs hreal,
      coulOp_conj mLessN cs hU hkl]

/-! ### C15 -/

theorem mul_count (X Y : Matrix (Occ n) (Occ n) ℂ) (s' s : Occ n) (h : (X * Y) s' s ≠ 0) :
    ∃ u, X s' u ≠ 0 ∧ Y u s ≠ 0 := by
  rw [Matrix.mul_apply] at h
  obtain ⟨u, _, hu⟩ := Finset.exists_ne_zero_of_sum_ne_zero h
  exact ⟨u, left_ne_zero_of_mul hu, right_ne_zero_of_mul hu⟩

theorem hop_count (i j : Fin n) (s' s : Occ n)
    (h : (cre j * ann i : Matrix (Occ n) (Occ n) ℂ) s' s ≠ 0) : Occ.count s' = Occ.count s := by
  obtain ⟨u, h1, h2⟩ := mul_count _ _ _ _ h
  have := cre_count _ _ _ h1
  have := ann_count _ _ _ h2
  omega

theorem coul_count (m p k l : Fin n) (s' s : Occ n)
    (h : (cre m * cre p * ann k * ann l : Matrix (Occ n) (Occ n) ℂ) s' s ≠ 0) :
    Occ.count s' = Occ.count s := by
  obtain ⟨u, h1, h2⟩ := mul_count _ _ _ _ h
  obtain ⟨v, h3, h4⟩ := mul_count _ _ _ _ h1
  obtain ⟨w, h5, h6⟩ := mul_count _ _ _ _ h3
  have := ann_count _ _ _ h2
  have := ann_count _ _ _ h4
  have := cre_count _ _ _ h6
  have := cre_count _ _ _ h5
  omega

theorem hopOp_count (herm : Bool) (hs : List ((Fin n × Fin n) × ℂ)) (s' s : Occ n)
    (h : hopOp herm hs s' s ≠ 0) : Occ.count s' = Occ.count s := by
  unfold hopOp at h
  rw [sum_apply] at h
  obtain ⟨e, _, he⟩ := sum_ne_zero h
  rw [hopTerm_apply] at he
  by_contra hne
  apply he
  have h1 : (cre e.1.2 * ann e.1.1 : Matrix (Occ n) (Occ n) ℂ) s' s = 0 := by
    by_contra h'; exact hne (hop_count _ _ _ _ h')
  have h2 : (cre e.1.2 * ann e.1.1 : Matrix (Occ n) (Occ n) ℂ) s s' = 0 := by
    by_contra h'; exact hne (hop_count _ _ _ _ h').symm
  simp [h1, h2]

theorem coulOp_count (herm mLessN : Bool) (cs : List ((Fin n × Fin n × Fin n × Fin n) × ℂ))
    (s' s : Occ n) (h : coulOp herm mLessN cs s' s ≠ 0) : Occ.count s' = Occ.count s := by
  unfold coulOp at h
  rw [sum_apply] at h
  obtain ⟨e, _, he⟩ := sum_ne_zero h
  rw [coulTerm_apply] at he
  by_contra hne
  apply he
  have h1 : (cre e.1.1 * cre e.1.2.1 * ann e.1.2.2.1 * ann e.1.2.2.2 :
      Matrix (Occ n) (Occ n) ℂ) s' s = 0 := by
    by_contra h'; exact hne (coul_count _ _ _ _ _ _ h')
  have h2 : (cre e.1.1 * cre e.1.2.1 * ann e.1.2.2.1 * ann e.1.2.2.2 :
      Matrix (Occ n) (Occ n) ℂ) s s' = 0 := by
    by_contra h'; exact hne (coul_count _ _ _ _ _ _ h').symm
  simp [h1, h2]

/-- **C15**, Hamiltonian. Built over the list of all states, the Hamiltonian has no elements
between states of different charge. -/
theorem c15_hamiltonian {si : SI} (hc : Consistent n si) (hermHs hermC mLessN : Bool)
    (hs : List ((Fin n × Fin n) × ℂ)) (cs : List ((Fin n × Fin n × Fin n × Fin n) × ℂ)) :
    ∃ M, (do let ham ← constructHamCoulomb si hermC mLessN (coulKeys cs) (List.range si.nmany) none
             constructHamHopping si hermHs (hopKeys hs) (List.range si.nmany) (some ham)) = .ok M ∧
      ∀ p q : Nat, ∀ s' s : List Nat, p < si.nmany → q < si.nmany →
        si.getState (p : Nat) = .ok s' → si.getState (q : Nat) = .ok s →
        s'.sum ≠ s.sum → M.val [p, q] = 0 := by
  obtain ⟨M1, g1, g2, g3⟩ := c11_list hc hermC mLessN cs (fun _ _ => True)
    (fun m p k l _ s a b c d e f => trivial) _ (closed_all si _) none (by simp)
  obtain ⟨M2, k1, k2, k3⟩ := c10_list hc hermHs hs (fun _ _ => True)
    (fun e _ s a b c => trivial) _ (closed_all si _) (some M1) (by rintro a ⟨⟩; exact g2)
  refine ⟨M2, ?_, ?_⟩
  · rw [g1]; exact k1
  · intro p q s' s hp hq hs' hs1 hne
    obtain ⟨u', hu', _⟩ := hc.state p hp
    obtain ⟨u, hu, _⟩ := hc.state q hq
    have hp' : p < (List.range si.nmany).length := by simpa using hp
    have hq' : q < (List.range si.nmany).length := by simpa using hq
    have a1 : si.getState ((List.range si.nmany)[p] : Nat) = .ok (ofOcc u') := by simpa using hu'
    have a2 : si.getState ((List.range si.nmany)[q] : Nat) = .ok (ofOcc u) := by simpa using hu
    rw [hs'] at hu'
    rw [hs1] at hu
    rw [Except.ok.inj hu', Except.ok.inj hu, ofOcc_sum, ofOcc_sum] at hne
    rw [k3 p q hp' hq' u' u a1 a2]
    simp only [Option.elim_some]
    rw [g3 p q hp' hq' u' u a1 a2]
    have h1 : hopOp hermHs hs u' u = 0 := by
      by_contra h; exact hne (hopOp_count _ _ _ _ h)
    have h2 : coulOp hermC mLessN cs u' u = 0 := by
      by_contra h; exact hne (coulOp_count _ _ _ _ _ h)
    simp [h1, h2]

/-! ### C44 -/

/-- **C44**, matrix elements. For any state indexing and any dictionary `velph` with labels of
baths and orbitals, `elph_construct_Vbbp` does not raise, and `Vbbp[r]` is the matrix of
`sum v d+_i d_j` over the entries `(r, i, j): v`. -/
theorem c44_vbbp {si : SI} (hc : Consistent n si) (nbaths : Nat)
    (vs : List ((Nat × Fin n × Fin n) × ℂ)) (hvs : ∀ e ∈ vs, e.1.1 < nbaths) :
    ∃ V, constructVbbp si nbaths (phKeys vs) none = .ok V ∧
      V.dims = [nbaths, si.nmany, si.nmany] ∧
      ∀ r p q, p < si.nmany → q < si.nmany → ∀ s' s : Occ n,
        si.getState (p : Nat) = .ok (ofOcc s') → si.getState (q : Nat) = .ok (ofOcc s) →
        V.val [r, p, q] = phOp r vs s' s := by
  obtain ⟨st, hf⟩ := hc.full
  obtain ⟨g, g1, g2⟩ := vbbp_ok hf nbaths vs hvs none (by simp)
  refine ⟨_, g1, rfl, ?_⟩
  intro r p q hp hq s' s hs' hs
  rw [ofOcc_inj' hs' (hf.get p hp), ofOcc_inj' hs (hf.get q hq), ← g2 r p q hp hq]
  exact zero_add _

/-- **C44** and **C15**. Phonons do not change the charge. -/
theorem c44_charge {si : SI} (hc : Consistent n si) (nbaths : Nat)
    (vs : List ((Nat × Fin n × Fin n) × ℂ)) (hvs : ∀ e ∈ vs, e.1.1 < nbaths) (V : Arr)
    (hV : constructVbbp si nbaths (phKeys vs) none = .ok V) (r p q : Nat)
    (hp : p < si.nmany) (hq : q < si.nmany) (s' s : List Nat)
    (hs' : si.getState (p : Nat) = .ok s') (hs : si.getState (q : Nat) = .ok s)
    (h : s'.sum ≠ s.sum) : V.val [r, p, q] = 0 := by
  obtain ⟨V', h1, _, h3⟩ := c44_vbbp hc nbaths vs hvs
  rw [hV] at h1
  have e := Except.ok.inj h1
  subst e
  obtain ⟨u', hu', _⟩ := hc.state p hp
  obtain ⟨u, hu, _⟩ := hc.state q hq
  rw [hs'] at hu'
  rw [hs] at hu
  have e' := Except.ok.inj hu'
  have e := Except.ok.inj hu
  subst e' e
  rw [h3 r p q hp hq u' u hs' hs]
  by_contra hne
  rw [ofOcc_sum, ofOcc_sum] at h
  unfold phOp at hne
  rw [sum_apply] at hne
  obtain ⟨e, _, he⟩ := sum_ne_zero hne
  by_cases hr : e.1.1 = r
  · rw [if_pos hr, Matrix.smul_apply] at he
    exact h (hop_count _ _ _ _ (right_ne_zero_of_mul he))
  · rw [if_neg hr] at he
    exact he rfl

/-- The coupling of bath `r` and orbitals `i`, `j` in a dictionary (zero without an entry). -/
noncomputable def phAmp (vs : List ((Nat × Fin n × Fin n) × ℂ)) (r : Nat) (i j : Fin n) : ℂ :=
  (vs.map fun e => if e.1 = (r, i, j) then e.2 else 0).sum

theorem phOp_amp (r : Nat) (vs : List ((Nat × Fin n × Fin n) × ℂ)) :
    phOp r vs = ∑ i : Fin n, ∑ j : Fin n, phAmp vs r i j • (cre i * ann j) := by
  unfold phOp phAmp
  induction vs with
  | nil => simp
  | cons e vs ih =>
    obtain ⟨⟨a, k, l⟩, v⟩ := e
    simp only [List.map_cons, List.sum_cons, ih, add_smul, Finset.sum_add_distrib]
    congr 1
    by_cases ha : a = r
    · subst ha
      rw [if_pos rfl, Finset.sum_eq_single k]
      · rw [Finset.sum_eq_single l]
        · simp
        · intro b _ hb
          simp [Ne.symm hb]
        · simp
      · intro b _ hb
        refine Finset.sum_eq_zero fun j _ => ?_
        simp [Ne.symm hb]
      · simp
    · rw [if_neg ha]
      symm
      refine Finset.sum_eq_zero fun i _ => ?_
      refine Finset.sum_eq_zero fun j _ => ?_
      simp [ha]

/-- **C44**, Hermiticity. `Vbbp[r]` is Hermitian if the couplings of bath `r` are, `v_{ij}` being
the conjugate of `v_{ji}`. (The code adds no conjugate entries itself.) -/
theorem c44_hermitian {si : SI} (hc : Consistent n si) (nbaths : Nat)
    (vs : List ((Nat × Fin n × Fin n) × ℂ)) (hvs : ∀ e ∈ vs, e.1.1 < nbaths) (V : Arr)
    (hV : constructVbbp si nbaths (phKeys vs) none = .ok V) (r p q : Nat)
    (hp : p < si.nmany) (hq : q < si.nmany)
    (hherm : ∀ i j : Fin n, phAmp vs r i j = star (phAmp vs r j i)) :
    V.val [r, p, q] = star (V.val [r, q, p]) := by
  obtain ⟨V', h1, _, h3⟩ := c44_vbbp hc nbaths vs hvs
  rw [hV] at h1
  have e := Except.ok.inj h1
  subst e
  obtain ⟨s', hs', _⟩ := hc.state p hp
  obtain ⟨s, hs, _⟩ := hc.state q hq
  rw [h3 r p q hp hq s' s hs' hs, h3 r q p hq hp s s' hs hs', ← Matrix.conjTranspose_apply]
  have key : (phOp r vs).conjTranspose = phOp r vs := by
    rw [phOp_amp, Matrix.conjTranspose_sum]
    conv_rhs => rw [Finset.sum_comm]
    simp only [Matrix.conjTranspose_sum, Matrix.conjTranspose_smul, Matrix.conjTranspose_mul,
      conj_cre, conj_ann]
    refine Finset.sum_congr rfl fun i _ => ?_
    refine Finset.sum_congr rfl fun j _ => ?_
    rw [hherm j i]
  rw [key]

/-! ### Concrete cases -/

/-- The hypotheses of the theorems on matrices hold for new objects and after removals. -/
example : (∃ si, SI.init 4 "ssq" = .ok si ∧ Consistent 4 si ∧ si.nmany = 2 ^ 4) ∧
    ∃ si, SI.run 3 "charge" [[1, -1], [2]] = .ok si ∧ Consistent 3 si :=
  ⟨init_consistent 4 (by decide) "ssq",
    run_consistent 3 (by decide) "charge" [[1, -1], [2]] (by decide) (Or.inl rfl)⟩

/-- Hopping between orbitals of one species, and an object with spin projection. -/
example : SameSpecies (n := 4) 2 3 ∧ ¬ SameSpecies (n := 4) 1 2 ∧ AdmSz 4 3 (-1) ∧
    (SI.init 4 "sz" >>= fun si => .ok si.indexing) = .ok .sz := by
  unfold SameSpecies AdmSz
  refine ⟨by decide, by decide, by decide, by decide +kernel⟩

/-- One lead label in range. -/
example : ∀ e ∈ ([((1, 2), 3), ((0, 2), Complex.I)] : List ((Nat × Fin 3) × ℂ)), e.1.1 < 2 := by
  simp

/-- Parameters as in `c14_hermitian`: complex hopping, real on-site energy, and a Coulomb matrix
element that is not a density-density interaction. -/
example : (∀ e ∈ ([((0, 0), 1), ((0, 1), Complex.I)] : List ((Fin 4 × Fin 4) × ℂ)),
      e.1.1 = e.1.2 → star e.2 = e.2) ∧
    (∀ m p k l U, ((m, p, k, l), U) ∈
        ([((0, 1, 3, 2), Complex.I), ((0, 1, 1, 0), 2)] :
          List ((Fin 4 × Fin 4 × Fin 4 × Fin 4) × ℂ)) → m = l → p = k → star U = U) ∧
    ∀ m p k l U, ((m, p, k, l), U) ∈
        ([((0, 1, 3, 2), Complex.I), ((0, 1, 1, 0), 2)] :
          List ((Fin 4 × Fin 4 × Fin 4 × Fin 4) × ℂ)) → l > k → m = l ∧ p = k := by
  refine ⟨by simp, ?_, ?_⟩
  · intro m p k l U h h1 h2
    simp only [List.mem_cons, Prod.mk.injEq, List.not_mem_nil, or_false] at h
    rcases h with ⟨⟨rfl, rfl, rfl, rfl⟩, rfl⟩ | ⟨⟨rfl, rfl, rfl, rfl⟩, rfl⟩
    · exact absurd h1 (by decide)
    · simp
  · intro m p k l U h h1
    simp only [List.mem_cons, Prod.mk.injEq, List.not_mem_nil, or_false] at h
    rcases h with ⟨⟨rfl, rfl, rfl, rfl⟩, rfl⟩ | ⟨⟨rfl, rfl, rfl, rfl⟩, rfl⟩
    · exact absurd h1 (by decide)
    · exact ⟨rfl, rfl⟩

/-- Phonon couplings as in `c44_hermitian`. -/
example : ∀ i j : Fin 2,
    phAmp (n := 2) [((0, 0, 1), Complex.I), ((0, 1, 0), -Complex.I), ((0, 1, 1), 2)] 0 i j
      = star (phAmp (n := 2) [((0, 0, 1), Complex.I), ((0, 1, 0), -Complex.I), ((0, 1, 1), 2)] 0 j i) := by
  intro i j
  fin_cases i <;> fin_cases j <;> simp [phAmp]

/-- On a list by spin projection a hopping element between the spin species makes
`construct_ham_hopping` fail with a `ValueError`. -/
theorem c10_sz_flip_raises (h : ℂ) :
    (do let si ← SI.init 2 "sz"
        let l ← si.getLst (some 1) (some 1) none
        constructHamHopping si true [((0, 1), h)] (l.getD []) none) = .error .value := by
  have h1 : (SI.init 2 "sz" >>= fun si => do
      let l ← si.getLst (some 1) (some 1) none
      let s ← si.getState (2 : Nat)
      let i ← si.getInd [0, 1]
      pure (l, s, i)) = .ok (some [2], [1, 0], some 1) := by decide +kernel
  cases hsi : SI.init 2 "sz" with
  | error e => rw [hsi] at h1; cases h1
  | ok si =>
    rw [hsi] at h1
    simp only [py_bind_ok] at h1 ⊢
    cases h2 : si.getLst (some 1) (some 1) none with
    | error e => rw [h2] at h1; cases h1
    | ok l =>
      rw [h2] at h1
      simp only [py_bind_ok] at h1 ⊢
      cases h3 : si.getState (2 : Nat) with
      | error e => rw [h3] at h1; cases h1
      | ok s =>
        rw [h3] at h1
        simp only [py_bind_ok] at h1
        cases h4 : si.getInd [0, 1] with
        | error e => rw [h4] at h1; cases h1
        | ok i =>
          rw [h4] at h1
          have h5 : (l, s, i) = (some [2], [1, 0], some 1) := Except.ok.inj h1
          simp only [Prod.mk.injEq] at h5
          obtain ⟨rfl, rfl, rfl⟩ := h5
          have e1 : pyGet [2] ((0 : Nat) : Int) = .ok 2 := rfl
          have e2 : pyGet [1, 0] ((0 : Nat) : Int) = .ok 1 := rfl
          have e3 : pyGet [1, 0] ((1 : Nat) : Int) = .ok 0 := rfl
          have e4 : pySet [1, 0] ((0 : Nat) : Int) 0 = .ok [0, 0] := rfl
          have e5 : pySet [0, 0] ((1 : Nat) : Int) 1 = .ok [0, 1] := rfl
          simp only [constructHamHopping, Option.getD_some, List.length_singleton,
            show List.range 1 = [0] from rfl, List.foldlM_cons, List.foldlM_nil, e1, py_bind_ok, h3,
            hopStep, zero_ne_one, if_false, e2, e3, if_true, e4, e5, h4]
          rfl

/-- Without the condition on `m_less_n` C14 is false: the entry `(0, 1, 2, 3): 1` gives a
Hamiltonian that is not symmetric. -/
theorem c14_m_less_n_false :
    ¬ ∀ si : SI, Consistent 4 si → ∀ lst M, si.getLst (some 2) none none = .ok (some lst) →
      constructHamCoulomb si true true [((0, 1, 2, 3), 1)] lst none = .ok M →
      ∀ p q, p < lst.length → q < lst.length → M.val [p, q] = star (M.val [q, p]) := by
  intro H
  obtain ⟨si, h1, hc, hN⟩ := init_consistent 4 (by decide) "charge"
  obtain ⟨lst, M, g1, g2, g3, g4⟩ := c11_coulomb hc true true [((0, 1, 2, 3), 1)] 2 (by decide)
  have key := H si hc lst M g1 g2
  -- the states 1100 and 0011
  have mem : ∀ s : Occ 4, Occ.count s = 2 → ∃ p, ∃ hp : p < lst.length,
      si.getState (lst[p] : Nat) = .ok (ofOcc s) := by
    intro s hs
    obtain ⟨l, k1, _, k3⟩ := hc.charges 2 (by decide)
    rw [g1] at k1
    have e : lst = l := by simpa using k1
    subst e
    rcases hc.index s with h | ⟨b, hb, h2, h3⟩
    · obtain ⟨st, hf⟩ := hc.full
      exfalso
      rcases hf.has s with ⟨_, hno⟩ | ⟨b, _, hb2, _⟩
      · have := full_bij hf hN (fun u => if u = s then 1 else 0)
        rw [Finset.sum_eq_zero (fun k hk => if_neg (hno k (by simpa using hk)))] at this
        simp at this
      · rw [h] at hb2; simp at hb2
    · obtain ⟨p, hp, e⟩ := List.getElem_of_mem ((k3 b).2 ⟨hb, s, h3, hs⟩)
      exact ⟨p, hp, by rw [e]; exact h3⟩
  obtain ⟨p, hp, hsp⟩ := mem ![true, true, false, false] (by decide)
  obtain ⟨q, hq, hsq⟩ := mem ![false, false, true, true] (by decide)
  have h := key p q hp hq
  rw [g4 p q hp hq _ _ hsp hsq, g4 q p hq hp _ _ hsq hsp] at h
  unfold coulOp at h
  simp only [List.map_cons, List.map_nil, List.sum_cons, List.sum_nil, add_zero] at h
  rw [coulTerm_apply, coulTerm_apply, coul_mono, coul_mono] at h
  have e1 : coulTarget (0 : Fin 4) 1 2 3 ![false, false, true, true] = ![true, true, false, false] := by
    decide
  simp [e1, Function.update] at h
  have : coulSign (0 : Fin 4) 1 2 3 ![false, false, true, true] * coulSign (0 : Fin 4) 1 2 3 ![false, false, true, true] = 1 := by decide
  rw [h] at this
  simp at this

end Verif
