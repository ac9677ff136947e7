import Verif.Lemmas.FreeFermi
import Verif.Spec.FreeElectrons
import Verif.Props.Independent
import Verif.Props.IndexingSame

/-! C95: the current of electrons without interaction, from the parameters. -/

namespace Verif
open Verif.Spec Matrix
open scoped ComplexConjugate

variable {n : Nat}

noncomputable section

theorem hopOp_oneBody (herm : Bool) (hs : List ((Fin n × Fin n) × ℂ)) :
    hopOp herm hs = ∑ i, ∑ j, oneBody herm hs i j • (cre i * ann j : Matrix (Occ n) (Occ n) ℂ) := by
  unfold hopOp oneBody
  induction hs with
  | nil => simp
  | cons e hs ih =>
    simp only [List.map_cons, List.sum_cons, ih, add_smul, Finset.sum_add_distrib]
    congr 1
    obtain ⟨⟨a, b⟩, x⟩ := e
    unfold hopTerm
    simp only [Prod.mk.injEq, ite_smul, zero_smul]
    congr 1
    · rw [Finset.sum_eq_single b, Finset.sum_eq_single a]
      · simp
      · intro j _ hj
        rw [if_neg (fun h => hj h.1.symm)]
      · simp
      · intro i _ hi
        exact Finset.sum_eq_zero fun j _ => if_neg (fun h => hi h.2.symm)
      · simp
    · rw [Finset.sum_eq_single a, Finset.sum_eq_single b]
      · by_cases h : herm = true ∧ a ≠ b
        · rw [if_pos h, if_pos ⟨h.1, Ne.symm h.2, rfl, rfl⟩]
        · rw [if_neg h, if_neg (fun h' => h ⟨h'.1, Ne.symm h'.2.1⟩)]
      · intro j _ hj
        rw [if_neg (fun h => hj h.2.2.2.symm)]
      · simp
      · intro i _ hi
        exact Finset.sum_eq_zero fun j _ => if_neg (fun h => hi h.2.2.1.symm)
      · simp

theorem enterAmp_eq (ts : List ((Nat × Fin n) × ℂ)) (l : Nat) (u : Fin n → ℂ) :
    enterAmp ts l u = ∑ j, amp ts l j * conj (u j) := by
  unfold enterAmp amp
  induction ts with
  | nil => simp
  | cons e ts ih =>
    simp only [List.map_cons, List.sum_cons, ih, add_mul, Finset.sum_add_distrib]
    congr 1
    obtain ⟨⟨a, b⟩, x⟩ := e
    simp only [Prod.mk.injEq]
    by_cases h : a = l
    · simp [h]
    · simp [h]

/-- Between a state and one with one electron more, only the part that adds an electron counts. -/
theorem ip_tun_count {ts : List ((Nat × Fin n) × ℂ)} {l c : Nat} {x y : Occ n → ℂ} (hx : ∀ s, x s ≠ 0 → s.count = c + 1)
    (hy : ∀ s, y s ≠ 0 → s.count = c) : ip x (tunOp l ts *ᵥ y) = ip x (creOp ts l *ᵥ y) := by
  have e : tunOp l ts = creOp ts l + ∑ i : Fin n, star (amp ts l i) • ann i := by
    rw [tunOp_amp, Finset.sum_add_distrib]
    rfl
  rw [e, Matrix.add_mulVec]
  have h0 : ip x ((∑ i : Fin n, star (amp ts l i) • (ann i : Matrix (Occ n) (Occ n) ℂ)) *ᵥ y) = 0 := by
    rw [ip_eq_sum]
    refine Finset.sum_eq_zero fun s' _ => ?_
    by_contra hne
    have h1 := hx s' (fun h0 => left_ne_zero_of_mul hne (by rw [h0, map_zero]))
    obtain ⟨s, _, hs⟩ := Finset.exists_ne_zero_of_sum_ne_zero (right_ne_zero_of_mul hne)
    have h2 := hy s (right_ne_zero_of_mul hs)
    have h3 : (∑ i : Fin n, star (amp ts l i) • (ann i : Matrix (Occ n) (Occ n) ℂ)) s' s ≠ 0 := left_ne_zero_of_mul hs
    rw [Matrix.sum_apply] at h3
    obtain ⟨i, _, h4⟩ := Finset.exists_ne_zero_of_sum_ne_zero h3
    rw [Matrix.smul_apply] at h4
    have := ann_count i s' s (right_ne_zero_of_mul h4)
    omega
  unfold ip at h0 ⊢
  rw [dotProduct_add, h0, add_zero]

/-- The part of the coupling that adds an electron, in terms of the orbitals. -/
theorem creOp_modes {u : Fin n → Fin n → ℂ} (hu : ∀ i k, ∑ j, conj (u i j) * u k j = if i = k then 1 else 0)
    (ts : List ((Nat × Fin n) × ℂ)) (l : Nat) : creOp ts l = ∑ k, enterAmp ts l (u k) • creMode (u k) := by
  unfold creOp
  simp only [enterAmp_eq, Finset.sum_smul]
  rw [Finset.sum_comm]
  refine Finset.sum_congr rfl fun j _ => ?_
  rw [cre_modes hu j, Finset.smul_sum]
  exact Finset.sum_congr rfl fun k _ => smul_smul _ _ _

theorem map_val_range (S : Finset (Fin n)) : S.map Fin.valEmbedding ⊆ Finset.range n := by
  intro i hi
  obtain ⟨k, -, rfl⟩ := Finset.mem_map.1 hi
  exact Finset.mem_range.2 k.2

/-- The energies and amplitudes of eigenstates without interaction are those of independent levels. -/
theorem free_levels {v : View} {L : Leads} {E : Nat → ℝ} {ψ : Nat → Occ n → ℂ} {M : Matrix (Fin n) (Fin n) ℂ}
    {u : Nat → Fin n → ℂ} {ε : Nat → ℝ} (ho : Orbitals M u ε) (ts : List ((Nat × Fin n) × ℂ))
    (hnd : ∀ S S', S ⊆ Finset.range n → S' ⊆ Finset.range n → S.card = S'.card →
      ∑ k ∈ S, ε k = ∑ k ∈ S', ε k → S = S')
    (hN : ∀ b, b < 2 ^ n ↔ ∃ q, b ∈ v.row q)
    (hψ : EigStates v.row (∑ i, ∑ j, M i j • (cre i * ann j)) ψ E)
    (hT : ∀ l b a, l < v.nleads → b < 2 ^ n → a < 2 ^ n → L.Tba l b a = ip (ψ b) (tunOp l ts *ᵥ ψ a)) :
    ∃ occ, Levels v E L n 0 ε (fun l k => enterAmp ts l (u k)) occ := by
  have hu : ∀ i k : Fin n, ∑ j, conj (u i j) * u k j = if i = k then 1 else 0 := by
    intro i k
    rw [ho.orth i k i.2 k.2]
    simp only [Fin.ext_iff]
  have hinj : Function.Injective fun S : Finset (Fin n) => S.map Fin.valEmbedding := Finset.map_injective _
  obtain ⟨occ, h1, h2, h3, h4, h5⟩ := free_states (u := fun k => u k) (ε := fun k => ε k) hu
    (fun k => by
      funext i
      rw [Matrix.mulVec, dotProduct, Pi.smul_apply, smul_eq_mul]
      exact ho.eig k k.2 i)
    (fun S S' hc hs => hinj (hnd _ _ (map_val_range S) (map_val_range S') (by simpa using hc) (by simpa using hs)))
    hψ (fun b hb => (hN b).1 hb)
  have hlt : ∀ {q b}, b ∈ v.row q → b < 2 ^ n := fun {q b} hb => (hN b).2 ⟨q, hb⟩
  have hamp : ∀ l q b c, l < v.nleads → b ∈ v.row q → c ∈ v.row (q + 1) →
      L.Tba l c b = ∑ k : Fin n, enterAmp ts l (u k) * ip (ψ c) (creMode (u k) *ᵥ ψ b) := by
    intro l q b c hl hb hc
    rw [hT l c b hl (hlt hc) (hlt hb), ip_tun_count (hψ.sec _ c hc) (hψ.sec _ b hb),
      creOp_modes (u := fun k => u k) hu, Matrix.sum_mulVec]
    have : ∀ (f : Fin n → Occ n → ℂ), ip (ψ c) (∑ k, f k) = ∑ k, ip (ψ c) (f k) := fun f => by
      unfold ip; rw [dotProduct_sum]
    rw [this]
    exact Finset.sum_congr rfl fun k _ => by rw [Matrix.smul_mulVec, ip_smul_right]
  have hone : ∀ {q b c}, b ∈ v.row q → c ∈ v.row (q + 1) → ∀ k : Fin n,
      Complex.normSq (ip (ψ c) (creMode (u k) *ᵥ ψ b)) = if k ∉ occ b ∧ occ c = insert k (occ b) then 1 else 0 :=
    fun {q b c} hb hc k => free_amps (u := fun k => u k) hu hψ.orth h2 h5 (hlt hb) (hlt hc) k
  refine ⟨fun b => (occ b).map Fin.valEmbedding, ?_, ?_, ?_, ?_, ?_, ?_, ?_⟩
  · intro q b _
    exact map_val_range _
  · intro q b hb
    rw [Finset.card_map, h3 q b (hlt hb) hb]
  · intro q b b' hb hb' e
    exact h2 b b' (hlt hb) (hlt hb') (hinj e)
  · intro S hS
    obtain ⟨b, hb, e⟩ := h1 (Finset.univ.filter fun k : Fin n => (k : Nat) ∈ S)
    have e' : (occ b).map Fin.valEmbedding = S := by
      rw [e]
      ext i
      simp only [Finset.mem_map, Finset.mem_filter, Finset.mem_univ, true_and, Fin.valEmbedding_apply]
      constructor
      · rintro ⟨k, hk, rfl⟩
        exact hk
      · intro hi
        exact ⟨⟨i, Finset.mem_range.1 (hS hi)⟩, hi, rfl⟩
    obtain ⟨q, hq⟩ := (hN b).1 hb
    have := h3 q b hb hq
    refine ⟨b, ?_, e'⟩
    rw [← e', Finset.card_map, this]
    exact hq
  · intro q b hb
    rw [h4 b (hlt hb), zero_add, Finset.sum_map]
    rfl
  · intro l q b c i hl hb hc hi e
    have hin : i < n := by
      have : i ∈ (occ c).map Fin.valEmbedding := by rw [e]; exact Finset.mem_insert_self _ _
      exact Finset.mem_range.1 (map_val_range _ this)
    have hk : (⟨i, hin⟩ : Fin n) ∉ occ b := fun h => hi (Finset.mem_map.2 ⟨_, h, rfl⟩)
    have he : occ c = insert ⟨i, hin⟩ (occ b) := by
      apply hinj
      dsimp only
      rw [e, Finset.map_insert]
      rfl
    rw [hamp l q b c hl hb hc, Finset.sum_eq_single (⟨i, hin⟩ : Fin n)]
    · rw [map_mul, hone hb hc, if_pos ⟨hk, he⟩, mul_one]
    · intro k _ hne
      have : Complex.normSq (ip (ψ c) (creMode (u k) *ᵥ ψ b)) = 0 := by
        rw [hone hb hc, if_neg]
        rintro ⟨hk', he'⟩
        rw [he] at he'
        have : k ∈ insert (⟨i, hin⟩ : Fin n) (occ b) := by rw [he']; exact Finset.mem_insert_self _ _
        rcases Finset.mem_insert.1 this with h | h
        · exact hne h
        · exact hk' h
      rw [Complex.normSq_eq_zero.1 this, mul_zero]
    · simp
  · intro l q b c hl hb hc hs
    rw [hamp l q b c hl hb hc]
    refine Finset.sum_eq_zero fun k _ => ?_
    have : Complex.normSq (ip (ψ c) (creMode (u k) *ᵥ ψ b)) = 0 := by
      rw [hone hb hc, if_neg]
      rintro ⟨-, he⟩
      refine hs ?_
      rw [he]
      exact Finset.map_subset_map.2 (Finset.subset_insert _ _)
    rw [Complex.normSq_eq_zero.1 this, mul_zero]

/-- **C95**: electrons without interaction, from the parameters to the currents. Let the one-electron Hamiltonian of the
dictionary have the orbitals `u` with the energies `ε`, with different sums for different sets of equally many orbitals.
All steps of the calculation with 'charge' indexing and the Pauli approach succeed, whatever eigenvectors the numerical
routine returns, and after `solve` the currents are those of independent levels with the energies `ε`, the amplitudes
`enterAmp` and the mean occupations `Leads.mean`. -/
theorem c95_free {si : SI} (hn : 1 ≤ n) (hsi : SI.init n "charge" = .ok si) {eigh : Eigh} (he : EighOk eigh)
    {nss : Option Nat} {hermHs hermC mLessN : Bool} (hamSsqQ : Bool) {hs0 : Param (Nat × Nat)} {cs0 : CoulombArg}
    {hs : List ((Fin n × Fin n) × ℂ)} (hhs : makeHsingleDict nss hermHs hs0 false = hopKeys hs)
    (hcs : makeCoulombDict nss hermC mLessN cs0 = []) {nleads : Nat} {sym : Option (Nat × Nat)} {ts0 : Param (Nat × Nat)}
    {ts : List ((Nat × Fin n) × ℂ)} (hts : makeTleadsDict sym ts0 false = tunKeys ts) (htl : ∀ e ∈ ts, e.1.1 < nleads)
    {u : Nat → Fin n → ℂ} {ε : Nat → ℝ} (ho : Orbitals (oneBody hermHs hs) u ε)
    (hnd : ∀ S S', S ⊆ Finset.range n → S' ⊆ Finset.range n → S.card = S'.card →
      ∑ k ∈ S, ε k = ∑ k ∈ S', ε k → S = S') :
    ∃ qd lt vals vecs Ea T, QD.init si nss hermHs hermC mLessN hamSsqQ hs0 cs0 = .ok qd ∧
      LeadsTun.init si nleads sym ts0 = .ok lt ∧ qd.diagonalise eigh = .ok (vals, .charge vecs, Ea) ∧
      rotateTba si nleads lt.tba0 (.charge vecs) none = .ok T ∧
      ∀ {d : DM} {L : Leads} {s : AState} (num : NumLib) (lib : LinLib) (run : RootRun),
        Reach .dm n "charge" d si.chargelst → L.Tba = tbaOf nleads (2 ^ n) T → (∀ l, l < nleads → 0 < L.T l) →
        (∀ k, k < n → ∃ l, l < nleads ∧ enterAmp ts l (u k) ≠ 0 ∧ L.InBand l (ε k)) →
        Reached Kind.pauli.size false s → s.v = d.view nleads →
        s.ap = Kind.pauli.ap num (fun b => Ea.getD b 0) L → s.opts.mfreeq = false →
        (s.opts.prepareSolver.solmethod = some "solve" ∨ s.opts.prepareSolver.solmethod = some "lsqr") →
        (s.opts.symq = true → ∃ r, pyIdx (d.view nleads).npauli s.opts.normRow = .ok r) → lib.Solves →
        ∃ evs, (s.solve lib run true).1.success = some true ∧ (s.solve lib run true).1.cur = some evs ∧
          ∀ l, l < nleads →
            current evs l = ∑ k ∈ Finset.range n, L.width l (enterAmp ts l (u k)) (ε k) *
              (L.filling l (ε k) - L.mean nleads ε (fun l k => enterAmp ts l (u k)) k) ∧
            energyCurrent evs l = ∑ k ∈ Finset.range n, ε k * (L.width l (enterAmp ts l (u k)) (ε k) *
              (L.filling l (ε k) - L.mean nleads ε (fun l k => enterAmp ts l (u k)) k)) := by
  have hu : ∀ i k : Fin n, ∑ j, conj (u i j) * u k j = if i = k then 1 else 0 := by
    intro i k
    rw [ho.orth i k i.2 k.2]
    simp only [Fin.ext_iff]
  have hop := hopOp_oneBody hermHs hs
  have hH : (hopOp hermHs hs + coulOp hermC mLessN [])ᴴ = hopOp hermHs hs + coulOp hermC mLessN [] := by
    have e0 : coulOp hermC mLessN ([] : List ((Fin n × Fin n × Fin n × Fin n) × ℂ)) = 0 := rfl
    rw [e0, add_zero, hop, oneBody_modes (u := fun k => u k) (ε := fun k => ε k) hu (fun k => by
      funext i
      rw [Matrix.mulVec, dotProduct, Pi.smul_apply, smul_eq_mul]
      exact ho.eig k k.2 i), Matrix.conjTranspose_sum]
    refine Finset.sum_congr rfl fun k _ => ?_
    rw [Matrix.conjTranspose_smul, Modes.num_herm (C := fun k : Fin n => creMode (u k)) k]
    simp
  obtain ⟨qd, vals, vecs, Ea, P, ψ, b1, b2, b3, b4, b5, b6⟩ :=
    charge_states hn hsi he hamSsqQ hs [] hhs (hcs.trans rfl) hH
  obtain ⟨s', i1, hinv, hch, hrem⟩ := init_inv n "charge"
  cases Except.ok.inj (hsi.symm.trans i1)
  have hix : si.indexing = .charge := by rw [hch]; simp [chooseIndexing]
  have hc : Consistent n si := consistent_of_inv hn hinv
  have hN : si.nmany = 2 ^ n := by rw [← hinv.ilen]; exact nmany_init hinv hrem
  have hr : ReachedSI n si := ⟨"charge", [], by unfold SI.run; rw [hsi]; rfl, by simp, .inl rfl⟩
  obtain ⟨ar, har⟩ : ∃ a, makeTleadsArray nleads si.nsingle (tunKeys ts) = .ok a := by
    refine tleadsArray_ok (tunKeys ts) ?_
    intro e he
    obtain ⟨e', h', rfl⟩ := List.mem_map.1 he
    exact ⟨htl e' h', by rw [hinv.nsingle]; exact e'.1.2.2⟩
  obtain ⟨T0, P1, T, g1, g2, g3, g4, g5⟩ := c16_tba hr hc hix nleads ts htl b3
  cases Except.ok.inj (g2.symm.trans b4)
  obtain ⟨T1, u1, -, u2⟩ := c12_tba hc nleads ts htl
  cases Except.ok.inj (u1.symm.trans g1)
  have hval : ∀ l b a, l < nleads → b < 2 ^ n → a < 2 ^ n → T.val [l, b, a] = ip (ψ b) (tunOp l ts *ᵥ ψ a) := by
    intro l b a hl hb ha
    rw [g4.2 l b a hl (by rw [hN]; exact hb) (by rw [hN]; exact ha)]
    exact rotated_ip hc hN b5 (fun p q hp hq s' s => u2 l p q hp hq s' s) hb ha
  refine ⟨qd, ⟨si, nleads, sym, tunKeys ts, ar, T0⟩, vals, vecs, Ea, T, b1, ?_, b2, g3, ?_⟩
  · unfold LeadsTun.init
    simp only [hts, har, g1, py_bind_ok]
    rfl
  intro d L s num lib run hd hL hT hcpl hs0 hv hap hm hsol hrow hlib
  have hdx : d.si.indexing = .charge := by rw [hd.inv.2.2]; simp [chooseIndexing]
  have hlen : si.chargelst.length = n + 1 := (hinv.qn_charge (.inr hix)).1
  have hout : ∀ c, n + 1 ≤ c → si.chargelst[c]?.getD [] = [] := fun c hc => by
    rw [List.getElem?_eq_none (by omega)]; rfl
  have hok : VOk (d.view nleads) d.labOf := view_ok' hd (by rw [hdx]; simp) hout
  have hrw : ∀ q, (d.view nleads).row q = if q ≤ n then chargeRow si q else [] := view_row_all hinv hd hlen
  have hNr : ∀ b, b < 2 ^ n ↔ ∃ q, b ∈ (d.view nleads).row q := by
    intro b
    constructor
    · intro hb
      have hb' : b < si.i.length := by rw [hinv.ilen, hN]; exact hb
      have hcc := charge_le (hinv.ilt hb')
      exact ⟨_, by rw [hrw, if_pos hcc]; exact ((hinv.chargeRow_ok hcc).2.2 b).2 ⟨hb', rfl⟩⟩
    · rintro ⟨q, hq⟩
      rw [hrw] at hq
      by_cases hqn : q ≤ n
      · rw [if_pos hqn] at hq
        obtain ⟨hb', -⟩ := ((hinv.chargeRow_ok hqn).2.2 b).1 hq
        rw [hinv.ilen, hN] at hb'
        exact hb'
      · rw [if_neg hqn] at hq
        simp at hq
  have S1 : EigStates (d.view nleads).row (∑ i, ∑ j, oneBody hermHs hs i j • (cre i * ann j)) ψ (fun b => Ea.getD b 0) := by
    rw [show (d.view nleads).row = fun c => if c ≤ n then chargeRow si c else [] from funext hrw, ← hop]
    have e0 : coulOp hermC mLessN ([] : List ((Fin n × Fin n × Fin n × Fin n) × ℂ)) = 0 := rfl
    rw [e0, add_zero] at b6
    exact b6
  obtain ⟨occ, lev⟩ := free_levels (v := d.view nleads) (L := L) ho ts hnd hNr S1 (by
    intro l b a hl hb ha
    have hl' : l < nleads := hl
    rw [hL, tbaOf, if_pos ⟨hl', hb, ha⟩, hval l b a hl' hb ha])
  have hherm : L.Herm := by
    intro l b c
    rw [hL]
    rw [hN] at g5
    exact tbaOf_herm g5 l b c
  obtain ⟨φ, evs, -, r2, r3, -, r5⟩ := c94_solve hok lev hcpl num hherm hT hs0 hv hap hm hsol hrow lib hlib run
  exact ⟨evs, r2, r3, r5⟩

/-- The hypotheses of `c95_free` can be met: two orbitals connected by hopping, each coupled to its own lead. The orbitals
of the Hamiltonian are superpositions of the two, at the energies `1` and `-1`. -/
example (num : NumLib) (Ea : List ℝ) (T : Arr) :
    ∃ (si : SI) (eigh : Eigh) (hs : List ((Fin 2 × Fin 2) × ℂ)) (ts : List ((Nat × Fin 2) × ℂ)) (u : Nat → Fin 2 → ℂ)
      (ε : Nat → ℝ) (d : DM) (L : Leads) (s : AState), SI.init 2 "charge" = .ok si ∧ EighOk eigh ∧
      makeHsingleDict none true (.dict [((0, 0), -7 / 25), ((1, 1), 7 / 25), ((0, 1), 24 / 25)]) false = hopKeys hs ∧
      makeCoulombDict none true true (.dict []) = [] ∧
      makeTleadsDict none (.dict [((0, 0), 1), ((1, 1), 1)]) false = tunKeys ts ∧ (∀ e ∈ ts, e.1.1 < 2) ∧
      Orbitals (oneBody true hs) u ε ∧
      (∀ S S', S ⊆ Finset.range 2 → S' ⊆ Finset.range 2 → S.card = S'.card →
        ∑ k ∈ S, ε k = ∑ k ∈ S', ε k → S = S') ∧
      Reach .dm 2 "charge" d si.chargelst ∧ L.Tba = tbaOf 2 (2 ^ 2) T ∧ (∀ l, l < 2 → 0 < L.T l) ∧ L.mu 0 ≠ L.mu 1 ∧
      (∀ k, k < 2 → ∃ l, l < 2 ∧ enterAmp ts l (u k) ≠ 0 ∧ L.InBand l (ε k)) ∧
      Reached Kind.pauli.size false s ∧ s.v = d.view 2 ∧ s.ap = Kind.pauli.ap num (fun b => Ea.getD b 0) L ∧
      s.opts.mfreeq = false ∧
      (s.opts.prepareSolver.solmethod = some "solve" ∨ s.opts.prepareSolver.solmethod = some "lsqr") ∧
      ∃ r, pyIdx (d.view 2).npauli s.opts.normRow = .ok r := by
  obtain ⟨si, h1, _⟩ := init_inv 2 "charge"
  obtain ⟨eigh, he⟩ := exists_eigh
  obtain ⟨d, hd, -, -, hp, -⟩ := view_example' 2
  let L : Leads := ⟨fun l => l, fun _ => 1, fun _ => -60, fun _ => 60, tbaOf 2 (2 ^ 2) T, 0, 10000⟩
  refine ⟨si, eigh, [((0, 0), -7 / 25), ((1, 1), 7 / 25), ((0, 1), 24 / 25)], [((0, 0), 1), ((1, 1), 1)],
    fun k => if k = 0 then ![3 / 5, 4 / 5] else ![4 / 5, -3 / 5], fun k => if k = 0 then 1 else -1, d, L,
    AState.fresh ⟨true, false, 0, none, none⟩ (d.view 2) (Kind.pauli.ap num (fun b => Ea.getD b 0) L) Kind.pauli.size false,
    h1, he, by simp [makeHsingleDict, hopKeys], by simp [makeCoulombDict], by simp [makeTleadsDict, tunKeys], by simp, ⟨?_, ?_⟩, ?_,
    Reach.init h1 hd, rfl, fun _ _ => one_pos, by simp [L], ?_, ⟨_, _, _, [], by simp, rfl⟩, rfl, rfl, rfl, .inl rfl, 0, ?_⟩
  · intro i k hi hk
    interval_cases i <;> interval_cases k <;> simp [Fin.sum_univ_two, map_ofNat] <;> norm_num
  · intro k hk i
    interval_cases k <;> fin_cases i <;> simp [Fin.sum_univ_two, oneBody, map_ofNat] <;> norm_num
  · intro S S' hS hS' hc hs
    have e : (Finset.range 2).powerset = {∅, {0}, {1}, {0, 1}} := by decide
    have m1 := Finset.mem_powerset.2 hS
    have m2 := Finset.mem_powerset.2 hS'
    rw [e] at m1 m2
    simp only [Finset.mem_insert, Finset.mem_singleton] at m1 m2
    rcases m1 with rfl | rfl | rfl | rfl <;> rcases m2 with rfl | rfl | rfl | rfl <;>
      first | rfl | (exfalso; simp at hc; done) | (exfalso; simp at hs; norm_num at hs; done)
  · intro k hk
    refine ⟨0, two_pos, ?_, .inr (.inr ⟨?_, ?_⟩)⟩
    · interval_cases k <;> simp [enterAmp, map_ofNat]
    · interval_cases k <;> simp [L] <;> norm_num
    · interval_cases k <;> simp [L] <;> norm_num
  · exact pyIdx_nat (k := 0) (by show 0 < d.npauli; omega)

end

end Verif
