import Verif.Lemmas.SpinDict

/-! C78: the Hamiltonian of parameters expanded with `symmetry='spin'` conserves the spin. -/

namespace Verif
open Verif.Spec Matrix

variable {n : Nat}

/-- Parameters given with `symmetry='spin'` for the `n / 2` orbitals with spin up. -/
structure SpinInput (n : Nat) (hermHs hermC mLessN : Bool) (hs : Param (Nat × Nat)) (cs : CoulombArg) : Prop where
  hsValid : hs.Valid
  csValid : cs.Valid
  hop : ∀ k ∈ (makeHsingleDict none hermHs hs false).map Prod.fst, k.1 < n / 2 ∧ k.2 < n / 2
  coul : ∀ k ∈ (makeCoulombDict none hermC mLessN cs).map Prod.fst, UpKey (n / 2) k
  /-- an entry is not given in both orders of the operators -/
  swap : mLessN = true → ∀ k ∈ (makeCoulombDict none hermC mLessN cs).map Prod.fst,
    swapKey k ∈ (makeCoulombDict none hermC mLessN cs).map Prod.fst → swapKey k = k
  /-- if the conjugates are added automatically they are not given -/
  conj : hermC = true → ∀ k ∈ (makeCoulombDict none hermC mLessN cs).map Prod.fst,
    conjKey k ∈ (makeCoulombDict none hermC mLessN cs).map Prod.fst → conjKey k = k
  conjSwap : hermC = true → mLessN = true → ∀ k ∈ (makeCoulombDict none hermC mLessN cs).map Prod.fst,
    conjSwap k ∈ (makeCoulombDict none hermC mLessN cs).map Prod.fst → conjSwap k = k ∧ k.1 = k.2.1
  /-- with `m_less_n` the code completes only the entries `(m, n, k, l)` with `l ≤ k` -/
  order : hermC = true → mLessN = true → ∀ k ∈ (makeCoulombDict none hermC mLessN cs).map Prod.fst,
    k.2.2.2 > k.2.2.1 → k.1 = k.2.2.2 ∧ k.2.1 = k.2.2.1

theorem fourQ_keys (m p k l : Fin (n / 2)) (U : ℂ) (mLessN : Bool) :
    coulKeys (fourQ m p k l U mLessN) = spinGroup (n / 2) mLessN ((m.val, p.val, k.val, l.val), U) := by
  have e : ∀ i : Fin (n / 2), (dn i : Fin n).val = i.val + n / 2 := fun i => Nat.add_comm _ _
  have e' : ∀ i : Fin (n / 2), (up i : Fin n).val = i.val := fun _ => rfl
  unfold coulKeys fourQ spinGroup
  cases mLessN with
  | false => simp [e, e']
  | true =>
    by_cases h : (p, m, l, k) = (m, p, k, l)
    · have : swapKey (m.val, p.val, k.val, l.val) = (m.val, p.val, k.val, l.val) := by
        simp only [Prod.mk.injEq] at h
        obtain ⟨rfl, -, rfl, -⟩ := h
        rfl
      simp [e, e', h, this]
    · have : ¬ swapKey (m.val, p.val, k.val, l.val) = (m.val, p.val, k.val, l.val) := by
        simpa [swapKey, Prod.mk.injEq, Fin.ext_iff] using h
      simp only [if_true, if_neg h, if_neg this]
      simp [e, e']

theorem coulKeys_append (a b : List ((Fin n × Fin n × Fin n × Fin n) × ℂ)) :
    coulKeys (a ++ b) = coulKeys a ++ coulKeys b := by simp [coulKeys]

theorem hopKeys_append (a b : List ((Fin n × Fin n) × ℂ)) : hopKeys (a ++ b) = hopKeys a ++ hopKeys b := by
  simp [hopKeys]

/-- The entries of both spins. -/
def dblHop (D : List ((Fin (n / 2) × Fin (n / 2)) × ℂ)) : List ((Fin n × Fin n) × ℂ) :=
  (D.map fun e => ((up e.1.1, up e.1.2), e.2)) ++ D.map fun e => ((dn e.1.1, dn e.1.2), e.2)

def dblCoul (mLessN : Bool) (E : List ((Fin (n / 2) × Fin (n / 2) × Fin (n / 2) × Fin (n / 2)) × ℂ)) :
    List ((Fin n × Fin n × Fin n × Fin n) × ℂ) :=
  (E.map fun e => ((up e.1.1, up e.1.2.1, up e.1.2.2.1, up e.1.2.2.2), e.2)) ++
    E.flatMap fun e => fourQ e.1.1 e.1.2.1 e.1.2.2.1 e.1.2.2.2 e.2 mLessN

theorem SpinInput.expand {hermHs hermC mLessN : Bool} {hs : Param (Nat × Nat)} {cs : CoulombArg}
    (h : SpinInput n hermHs hermC mLessN hs cs) :
    ∃ (D : List ((Fin (n / 2) × Fin (n / 2)) × ℂ))
      (E : List ((Fin (n / 2) × Fin (n / 2) × Fin (n / 2) × Fin (n / 2)) × ℂ)),
      makeHsingleDict none hermHs hs false = hopKeys D ∧ makeCoulombDict none hermC mLessN cs = coulKeys E ∧
      makeHsingleDict (some (n / 2)) hermHs hs false = hopKeys (dblHop D : List ((Fin n × Fin n) × ℂ)) ∧
      makeCoulombDict (some (n / 2)) hermC mLessN cs
        = coulKeys (dblCoul mLessN E : List ((Fin n × Fin n × Fin n × Fin n) × ℂ)) := by
  have e1 : makeHsingleDict (some (n / 2)) hermHs hs false =
      spinDict (fun k => (k.1 + n / 2, k.2 + n / 2)) (makeHsingleDict none hermHs hs false) := by
    cases hs <;> rfl
  have e2 : makeCoulombDict (some (n / 2)) hermC mLessN cs
      = makeCoulombDict none hermC mLessN cs ++
        (makeCoulombDict none hermC mLessN cs).flatMap (spinGroup (n / 2) mLessN) := by
    have e0 : makeCoulombDict none false mLessN cs = makeCoulombDict none hermC mLessN cs := by cases cs <;> rfl
    have : makeCoulombDict (some (n / 2)) hermC mLessN cs = makeCoulombDict (some (n / 2)) false mLessN cs := by
      cases hh : hermC with
      | false => rfl
      | true =>
        subst hh
        exact coulomb_herm_eq h.csValid mLessN h.coul (h.conj rfl) (h.conjSwap rfl)
    rw [this, coulomb_spin_eq, e0]
    exact coul_expand (coulomb_nodup none hermC mLessN h.csValid) h.coul h.swap
  obtain ⟨D, hD⟩ := hs_fin (n := n / 2) (hs := makeHsingleDict none hermHs hs false) h.hop
  obtain ⟨E, hE⟩ := cs_fin (n := n / 2) (cs := makeCoulombDict none hermC mLessN cs) (fun k hk => h.coul k hk)
  refine ⟨D, E, hD.symm, hE.symm, ?_, ?_⟩
  · rw [e1, pair_expand (hsingle_nodup none hermHs h.hsValid false) h.hop, ← hD]
    simp only [dblHop, hopKeys, List.map_append, List.map_map]
    congr 1
    refine List.map_congr_left fun e _ => ?_
    simp [dn, Nat.add_comm]
  · rw [e2, ← hE, dblCoul, coulKeys_append]
    congr 1
    · simp [coulKeys, up]
    · simp only [coulKeys, List.flatMap_map, List.map_flatMap]
      refine List.flatMap_congr fun e _ => ?_
      exact (fourQ_keys e.1.1 e.1.2.1 e.1.2.2.1 e.1.2.2.2 e.2 mLessN).symm

theorem dblHop_mem {D : List ((Fin (n / 2) × Fin (n / 2)) × ℂ)} {e : (Fin n × Fin n) × ℂ} (he : e ∈ dblHop D) :
    SameSpecies e.1.1 e.1.2 ∧ ∃ d ∈ D, (e.1.1 = e.1.2 → d.1.1 = d.1.2) ∧ e.2 = d.2 := by
  unfold dblHop at he
  rw [List.mem_append] at he
  rcases he with he | he
  · obtain ⟨d, hd, rfl⟩ := List.mem_map.1 he
    exact ⟨by simp [SameSpecies, up], d, hd, fun h => up_inj.1 h, rfl⟩
  · obtain ⟨d, hd, rfl⟩ := List.mem_map.1 he
    exact ⟨by simp [SameSpecies, dn], d, hd, fun h => dn_inj.1 h, rfl⟩

theorem dblCoul_mem {mLessN : Bool} {E : List ((Fin (n / 2) × Fin (n / 2) × Fin (n / 2) × Fin (n / 2)) × ℂ)}
    {m p k l : Fin n} {U : ℂ} (he : ((m, p, k, l), U) ∈ dblCoul mLessN E) :
    (SameSpecies m l ∧ SameSpecies p k) ∧ ∃ a b c f, ((a, b, c, f), U) ∈ E ∧
      ((m = l ∧ p = k) ↔ (a = f ∧ b = c)) ∧ (mLessN = true → l > k → f > c) := by
  have lt : ∀ i : Fin (n / 2), ((up i : Fin n) : Nat) < n / 2 := fun i => i.2
  have nlt : ∀ i : Fin (n / 2), ¬ ((dn i : Fin n) : Nat) < n / 2 := fun i => by simp [dn]
  have hud : ∀ i j : Fin (n / 2), ¬ (up i : Fin n) > dn j := by
    intro i j
    have : (up i : Fin n) < dn j := by
      show i.val < n / 2 + j.val
      omega
    exact this.not_gt
  unfold dblCoul at he
  rw [List.mem_append] at he
  rcases he with he | he
  · obtain ⟨⟨⟨a, b, c, f⟩, V⟩, hm, hd⟩ := List.mem_map.1 he
    cases hd
    exact ⟨by simp [SameSpecies, lt], a, b, c, f, hm, by simp [up_inj], fun _ h => h⟩
  · obtain ⟨⟨⟨a, b, c, f⟩, V⟩, hm, hd⟩ := List.mem_flatMap.1 he
    unfold fourQ at hd
    simp only [List.mem_cons, List.mem_append, List.not_mem_nil, or_false] at hd
    rcases hd with hd | hd | hd
    · cases hd
      exact ⟨by simp [SameSpecies, lt, nlt], a, b, c, f, hm, by simp [up_inj, dn_inj], fun _ h => absurd h (hud _ _)⟩
    · split at hd
      · split at hd
        · simp at hd
        · simp only [List.mem_cons, List.not_mem_nil, or_false] at hd
          cases hd
          exact ⟨by simp [SameSpecies, lt, nlt], a, b, c, f, hm, by simp [up_inj, dn_inj, and_comm],
            fun _ h => absurd h (hud _ _)⟩
      · next hless =>
        simp only [List.mem_cons, List.not_mem_nil, or_false] at hd
        cases hd
        exact ⟨by simp [SameSpecies, lt, nlt], a, b, c, f, hm, by simp [up_inj, dn_inj], fun h => absurd h hless⟩
    · cases hd
      exact ⟨by simp [SameSpecies, nlt], a, b, c, f, hm, by simp [dn_inj], fun _ h => Nat.add_lt_add_iff_left.1 h⟩

/-- C78. With `symmetry='spin'` the one-particle and the interaction part of the Hamiltonian, with the
parameters that the code expands to both spins, commute with the total spin. No entry of the expanded
parameters changes the spin projection. -/
theorem c78_spin {hermHs hermC mLessN : Bool} {hs : Param (Nat × Nat)} {cs : CoulombArg}
    (h : SpinInput n hermHs hermC mLessN hs cs) :
    ∃ (H : List ((Fin n × Fin n) × ℂ)) (C : List ((Fin n × Fin n × Fin n × Fin n) × ℂ)),
      makeHsingleDict (some (n / 2)) hermHs hs false = hopKeys H ∧
      makeCoulombDict (some (n / 2)) hermC mLessN cs = coulKeys C ∧
      (∀ e ∈ H, SameSpecies e.1.1 e.1.2) ∧
      (∀ m p k l U, ((m, p, k, l), U) ∈ C → SameSpecies m l ∧ SameSpecies p k) ∧
      hopOp hermHs H * cP = cP * hopOp hermHs H ∧
      coulOp hermC mLessN C * cP = cP * coulOp hermC mLessN C := by
  obtain ⟨D, E, -, h2, h3, h4⟩ := h.expand
  refine ⟨_, _, h3, h4, fun e he => (dblHop_mem he).1, fun m p k l U he => (dblCoul_mem he).1,
    brk_eq_zero.1 (hop_spin hermHs D), brk_eq_zero.1 (coul_spin hermC mLessN E ?_)⟩
  intro a b m p k l U he hlk
  have := h.order a b (m.val, p.val, k.val, l.val)
    (by rw [h2]; exact List.mem_map.2 ⟨_, List.mem_map.2 ⟨_, he, rfl⟩, rfl⟩) hlk
  exact ⟨Fin.ext this.1, Fin.ext this.2⟩

/-- The conditions of C14 on the given parameters: real on-site energies and density-density
interactions. Without `herm_c` only density-density interactions are given. -/
structure RealInput (hermC mLessN : Bool) (hs : Param (Nat × Nat)) (cs : CoulombArg) : Prop where
  hop : ∀ e ∈ makeHsingleDict none true hs false, e.1.1 = e.1.2 → star e.2 = e.2
  coul : ∀ e ∈ makeCoulombDict none hermC mLessN cs, e.1.1 = e.1.2.2.2 → e.1.2.1 = e.1.2.2.1 → star e.2 = e.2
  dens : hermC = false → ∀ e ∈ makeCoulombDict none hermC mLessN cs, e.1.1 = e.1.2.2.2 ∧ e.1.2.1 = e.1.2.2.1

/-- C78: the many-body Hamiltonian is Hermitian and conserves charge and spin. -/
theorem c78_conserving {hermC mLessN : Bool} {hs : Param (Nat × Nat)} {cs : CoulombArg}
    (h : SpinInput n true hermC mLessN hs cs) (hr : RealInput hermC mLessN hs cs) :
    ∃ (H : List ((Fin n × Fin n) × ℂ)) (C : List ((Fin n × Fin n × Fin n × Fin n) × ℂ)),
      makeHsingleDict (some (n / 2)) true hs false = hopKeys H ∧
      makeCoulombDict (some (n / 2)) hermC mLessN cs = coulKeys C ∧
      (∀ e ∈ H, SameSpecies e.1.1 e.1.2) ∧
      (∀ m p k l U, ((m, p, k, l), U) ∈ C → SameSpecies m l ∧ SameSpecies p k) ∧
      SpinConserving (hopOp true H + coulOp hermC mLessN C) := by
  obtain ⟨D, E, h1, h2, h3, h4⟩ := h.expand
  have horder : hermC = true → mLessN = true → ∀ m p k l U, ((m, p, k, l), U) ∈ E → l > k → m = l ∧ p = k := by
    intro a b m p k l U he hlk
    have := h.order a b (m.val, p.val, k.val, l.val)
      (by rw [h2]; exact List.mem_map.2 ⟨_, List.mem_map.2 ⟨_, he, rfl⟩, rfl⟩) hlk
    exact ⟨Fin.ext this.1, Fin.ext this.2⟩
  refine ⟨_, _, h3, h4, fun e he => (dblHop_mem he).1, fun m p k l U he => (dblCoul_mem he).1, ?_, ?_, ?_⟩
  · rw [Matrix.conjTranspose_add]
    congr 1
    · refine hopOp_conj _ ?_
      intro e he hd
      obtain ⟨-, d, hd1, hd2, hd3⟩ := dblHop_mem he
      rw [hd3]
      refine hr.hop ((d.1.1.val, d.1.2.val), d.2) ?_ (congrArg Fin.val (hd2 hd))
      rw [h1]
      exact List.mem_map.2 ⟨d, hd1, rfl⟩
    · have hreal : ∀ m p k l U, ((m, p, k, l), U) ∈ (dblCoul mLessN E : List ((Fin n × Fin n × Fin n × Fin n) × ℂ)) →
          m = l → p = k → star U = U := by
        intro m p k l U he hml hpk
        obtain ⟨-, a, b, c, f, g1, g2, -⟩ := dblCoul_mem he
        obtain ⟨rfl, rfl⟩ := g2.1 ⟨hml, hpk⟩
        refine hr.coul ((a.val, b.val, b.val, a.val), U) ?_ rfl rfl
        rw [h2]
        exact List.mem_map.2 ⟨_, g1, rfl⟩
      cases hermC with
      | true =>
        refine coulOp_conj mLessN _ hreal ?_
        intro hm m p k l U he hlk
        obtain ⟨-, a, b, c, f, g1, g2, g3⟩ := dblCoul_mem he
        exact g2.2 (horder rfl hm a b c f U g1 (g3 hm hlk))
      | false =>
        have hd : ∀ m p k l U, ((m, p, k, l), U) ∈
            (dblCoul mLessN E : List ((Fin n × Fin n × Fin n × Fin n) × ℂ)) → m = l ∧ p = k := by
          intro m p k l U he
          obtain ⟨-, a, b, c, f, g1, g2, g3⟩ := dblCoul_mem he
          have := hr.dens rfl ((a.val, b.val, c.val, f.val), U) (by rw [h2]; exact List.mem_map.2 ⟨_, g1, rfl⟩)
          exact g2.2 ⟨Fin.ext this.1, Fin.ext this.2⟩
        have e : (coulOp false mLessN (dblCoul mLessN E) : Matrix (Occ n) (Occ n) ℂ)
            = coulOp true mLessN (dblCoul mLessN E) := by
          unfold coulOp
          congr 1
          refine List.map_congr_left ?_
          rintro ⟨⟨m, p, k, l⟩, U⟩ he
          have := hd m p k l U he
          unfold coulTerm
          simp [this]
        rw [e]
        exact coulOp_conj mLessN _ hreal fun _ m p k l U he _ => hd m p k l U he
  · intro s' s hne
    by_contra hc
    have a1 : hopOp true (dblHop D) s' s = 0 := by
      by_contra h; exact hc (hopOp_count _ _ _ _ h)
    have a2 : coulOp hermC mLessN (dblCoul mLessN E) s' s = 0 := by
      by_contra h; exact hc (coulOp_count _ _ _ _ _ h)
    rw [Matrix.add_apply, a1, a2, add_zero] at hne
    exact hne rfl
  · rw [add_mul, mul_add]
    exact congrArg₂ (· + ·) (brk_eq_zero.1 (hop_spin true D)) (brk_eq_zero.1 (coul_spin hermC mLessN E horder))

/-- Two orbitals of each spin with hopping, repulsion in each orbital and between them, with the default
flags `herm_c=False` and `m_less_n=True`. -/
theorem spinInput_two : SpinInput 4 true false true
    (.dict [((0, 0), 1), ((1, 1), -1), ((0, 1), Complex.I)]) (.dict [((0, 0, 0, 0), 8), ((1, 1, 1, 1), 8), ((0, 1, 1, 0), 5)]) ∧
    RealInput false true (.dict [((0, 0), 1), ((1, 1), -1), ((0, 1), Complex.I)])
      (.dict [((0, 0, 0, 0), 8), ((1, 1, 1, 1), 8), ((0, 1, 1, 0), 5)]) := by
  refine ⟨⟨?_, ?_, ?_, ?_, ?_, ?_, ?_, ?_⟩, ⟨?_, ?_, ?_⟩⟩ <;>
    simp [Param.Valid, CoulombArg.Valid, makeHsingleDict, makeCoulombDict, UpKey, swapKey, map_ofNat]

/-- With `herm_c=True` also an exchange of two electrons between orbitals is allowed. -/
example : SpinInput 4 true true true
    (.dict [((0, 0), 1), ((0, 1), Complex.I)]) (.dict [((0, 0, 1, 1), 8), ((0, 1, 1, 0), 5)]) ∧
    RealInput true true (.dict [((0, 0), 1), ((0, 1), Complex.I)])
      (.dict [((0, 0, 1, 1), 8), ((0, 1, 1, 0), 5)]) := by
  refine ⟨⟨?_, ?_, ?_, ?_, ?_, ?_, ?_, ?_⟩, ⟨?_, ?_, ?_⟩⟩ <;>
    simp [Param.Valid, CoulombArg.Valid, makeHsingleDict, makeCoulombDict, UpKey, swapKey, conjKey, conjSwap, map_ofNat]

end Verif
