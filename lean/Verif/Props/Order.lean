import Verif.Spec.Order
import Verif.Lemmas.Appr

/-! C46: the order of the loop over the elements does not matter. -/

namespace Verif

noncomputable section

open Finset

theorem adds_same {m m' : Mat} {δ : (Nat → ℝ) → Nat → ℝ} (ad : Adds m m' δ) {r j : Nat}
    (hj : j < m.cols) (h0 : ∀ φ, δ φ r = 0) : m'.val r j = m.val r j := by
  rw [m'.val_eq_app (by rw [ad.cols]; exact hj), m.val_eq_app hj, ad.app, h0, add_zero]

section
variable {v : View} {la : Lab} (h : VOk v la)
include h

theorem combs_can {c b bp : Nat} (hm : (b, bp) ∈ combsR2 (v.row c)) (hi : la.inc c b bp = true) :
    la.can c b bp = true := by
  rcases combsR2_iff.1 hm with h1 | ⟨h1, h2⟩
  · exact h.can_ord c b bp h1 hi
  · simp only at h1 h2
    subst h1
    exact h.can_diag c b h2

/-- `generate_kern` as a list of groups. -/
theorem genKern_groups (E : Nat → ℝ) (coup : Nat → Nat → Int → Py (List KCall))
    (ks : Nat → Nat → Nat → List KCall)
    (hc : ∀ c b bp, b ∈ v.row c → bp ∈ v.row c → la.inc c b bp = true →
      coup b bp c = .ok (ks c b bp)) :
    v.genKern E coup = .ok ((List.range v.ncharge).flatMap fun c =>
      ((combsR2 (v.row c)).filter fun p => la.inc c p.1 p.2).flatMap fun p =>
        .energy (E p.1 - E p.2) p.1 p.2 (c : Int) :: ks c p.1 p.2) := by
  unfold View.genKern
  apply collect_ok
  intro c hcm
  rw [h.states (by have := List.mem_range.1 hcm; omega)]
  simp only [py_bind_ok]
  rw [collect_ok (g := fun p => if la.inc c p.1 p.2 then
    .energy (E p.1 - E p.2) p.1 p.2 (c : Int) :: ks c p.1 p.2 else [])]
  · congr 1
    generalize combsR2 (v.row c) = l
    induction l with
    | nil => rfl
    | cons p l ih =>
      rw [List.flatMap_cons, ih, List.filter_cons]
      split <;> simp_all
  · rintro ⟨b, bp⟩ hp
    obtain ⟨hb, hbp⟩ := combsR2_mem hp
    simp only at hb hbp
    rw [h.inclUnique hb hbp]
    simp only [py_bind_ok]
    cases hi : la.inc c b bp with
    | false => simp
    | true =>
      simp only [combs_can h hp hi, Bool.and_self, if_true]
      rw [hc c b bp hb hbp hi]
      rfl

/-- The rows of an element. -/
theorem writes_rows {ks : List KCall} {c b bp : Nat}
    (hk : ∀ k ∈ ks, KGood v la k ∧ k.target = ((c : Int), b, bp)) {r : Nat}
    (hw : Writes v v.ndm0r ks r) :
    r = la.lab c b bp ∨ (b ≠ bp ∧ r = v.imag (la.lab c b bp)) := by
  obtain ⟨k, hm, m, m', j, hr, hc, hj, g, hne⟩ := hw
  obtain ⟨hg, ht⟩ := hk k hm
  obtain ⟨m1, g1, ad⟩ := callKern_ok h hg hr hc
  rw [g] at g1
  simp only [Except.ok.injEq] at g1
  subst g1
  by_contra hno
  rw [not_or] at hno
  apply hne
  apply adds_same ad (by omega)
  intro φ
  simp only [KCall.contrib, ht, Int.toNat_natCast, put]
  rw [if_neg hno.1, if_neg hno.2]

omit h in
theorem writes_pauli {n : Nat} {ks : List KCall} {p : Nat}
    (hk : ∀ k ∈ ks, PGood n k ∧ ∃ fm fp aa, k = .pauli fm fp (p : Int) aa) {r : Nat}
    (hw : Writes v n ks r) : r = p := by
  obtain ⟨k, hm, m, m', j, hr, hc, hj, g, hne⟩ := hw
  obtain ⟨hg, fm, fp, aa, rfl⟩ := hk k hm
  obtain ⟨m1, g1, ad⟩ := runKern_pauli v [.pauli fm fp (p : Int) aa] (by simpa using hg) hr hc
  have g2 : v.runKern m [.pauli fm fp (p : Int) aa] = .ok m' := by
    unfold View.runKern
    rw [List.foldlM_cons, g]
    rfl
  rw [g2] at g1
  simp only [Except.ok.injEq] at g1
  subst g1
  by_contra hno
  apply hne
  apply adds_same ad (by omega)
  intro φ
  simp [KCall.pcontrib, hno]

/-- Rows of different elements are different. -/
theorem rows_disjoint {c b bp c' b' bp' : Nat} (hm : (b, bp) ∈ combsR2 (v.row c))
    (hi : la.inc c b bp = true) (hm' : (b', bp') ∈ combsR2 (v.row c')) (hi' : la.inc c' b' bp' = true)
    (hne : (c, b, bp) ≠ (c', b', bp')) {r : Nat}
    (h1 : r = la.lab c b bp ∨ (b ≠ bp ∧ r = v.imag (la.lab c b bp)))
    (h2 : r = la.lab c' b' bp' ∨ (b' ≠ bp' ∧ r = v.imag (la.lab c' b' bp'))) : False := by
  obtain ⟨hb, hbp⟩ := combsR2_mem hm
  obtain ⟨hb', hbp'⟩ := combsR2_mem hm'
  simp only at hb hbp hb' hbp'
  have hl := h.lab_lt hb hbp hi
  have hl' := h.lab_lt hb' hbp' hi'
  have hd : la.lab c b bp ≠ la.lab c' b' bp' := by
    intro e
    obtain ⟨rfl, ⟨rfl, rfl⟩ | ⟨rfl, rfl⟩⟩ := h.lab_inj c b bp c' b' bp' hb hbp hi hb' hbp' hi' e
    · exact hne rfl
    · by_cases hbb : b = bp
      · subst hbb; exact hne rfl
      · have a := h.can_off c b bp hb hbp hbb hi
        rw [combs_can h hm hi, combs_can h hm' hi'] at a
        simp at a
  rcases h1 with h1 | ⟨n1, h1⟩ <;> rcases h2 with h2 | ⟨n2, h2⟩
  · omega
  · have := (h.imagPos_off hb' hbp' n2 hi').2.1
    omega
  · have := (h.imagPos_off hb hbp n1 hi).2.1
    omega
  · have a := (h.lab_off c b bp hb hbp n1 hi).1
    have a' := (h.lab_off c' b' bp' hb' hbp' n2 hi').1
    unfold View.imag at h1 h2
    omega

/-- The iterations of the loop of an approach. -/
theorem iterations (k : Kind) (lib : NumLib) (E : Nat → ℝ) (L : Leads) :
    ∃ its : Nat → Nat × Nat → List KCall,
      (∀ c, ∀ p ∈ k.elems v la c, k.iter v lib E L c p = .ok (its c p)) ∧
      (k.ap lib E L).calls v
        = .ok ((List.range v.ncharge).flatMap fun c => (k.elems v la c).flatMap (its c)) ∧
      ∀ c p c' p', p ∈ k.elems v la c → p' ∈ k.elems v la c' → (c, p) ≠ (c', p') →
        ∀ r, ¬ (Writes v (k.size v) (its c p) r ∧ Writes v (k.size v) (its c' p') r) := by
  have coh : ∀ (coup : Nat → Nat → Int → Py (List KCall)) (ks : Nat → Nat → Nat → List KCall),
      (∀ c b bp, b ∈ v.row c → bp ∈ v.row c → la.inc c b bp = true → coup b bp c = .ok (ks c b bp)) →
      (∀ c b bp, b ∈ v.row c → bp ∈ v.row c → la.inc c b bp = true →
        ∀ k ∈ ks c b bp, KGood v la k ∧ k.target = ((c : Int), b, bp)) →
      let its : Nat → Nat × Nat → List KCall := fun c p =>
        .energy (E p.1 - E p.2) p.1 p.2 (c : Int) :: ks c p.1 p.2
      let el := fun c => (combsR2 (v.row c)).filter fun p => la.inc c p.1 p.2
      (∀ c, ∀ p ∈ el c, (do
        let r ← coup p.1 p.2 c
        pure (.energy (E p.1 - E p.2) p.1 p.2 c :: r)) = (.ok (its c p) : Py (List KCall))) ∧
      v.genKern E coup = .ok ((List.range v.ncharge).flatMap fun c => (el c).flatMap (its c)) ∧
      ∀ c p c' p', p ∈ el c → p' ∈ el c' → (c, p) ≠ (c', p') →
        ∀ r, ¬ (Writes v v.ndm0r (its c p) r ∧ Writes v v.ndm0r (its c' p') r) := by
    intro coup ks h1 h2 its el
    refine ⟨?_, genKern_groups h E coup ks h1, ?_⟩
    · rintro c ⟨b, bp⟩ hp
      obtain ⟨hp1, hp2⟩ := List.mem_filter.1 hp
      obtain ⟨hb, hbp⟩ := combsR2_mem hp1
      simp only at hb hbp hp2
      simp only [h1 c b bp hb hbp hp2, py_bind_ok, py_pure, its]
    · have good : ∀ c b bp, (b, bp) ∈ el c → ∀ k ∈ its c (b, bp),
          KGood v la k ∧ k.target = ((c : Int), b, bp) := by
        intro c b bp hp k hk
        obtain ⟨hp1, hp2⟩ := List.mem_filter.1 hp
        obtain ⟨hb, hbp⟩ := combsR2_mem hp1
        simp only at hb hbp hp2
        rcases List.mem_cons.1 hk with rfl | hk
        · exact ⟨⟨by omega, by simpa using hb, by simpa using hbp, by simpa using hp2,
            by simpa using combs_can h hp1 hp2⟩, rfl⟩
        · exact h2 c b bp hb hbp hp2 k hk
      rintro c ⟨b, bp⟩ c' ⟨b', bp'⟩ hp hp' hne r ⟨w1, w2⟩
      obtain ⟨hp1, hp2⟩ := List.mem_filter.1 hp
      obtain ⟨hp1', hp2'⟩ := List.mem_filter.1 hp'
      exact rows_disjoint h hp1 hp2 hp1' hp2' (by simpa using hne)
        (writes_rows h (good c b bp hp) w1) (writes_rows h (good c' b' bp' hp') w2)
  cases k with
  | pauli =>
    obtain ⟨fct, gf, -⟩ := Pauli.genFct_ok h E L
    refine ⟨fun c p => Pauli.group v la fct c p.1, ?_, ?_, ?_⟩
    · rintro c ⟨b, bp⟩ hp
      simp only [Kind.elems, List.mem_map, Prod.mk.injEq] at hp
      obtain ⟨x, hx, rfl, rfl⟩ := hp
      simp only [Kind.iter, gf, py_bind_ok]
      exact Pauli.coup_ok h fct hx
    · simp only [Kind.ap, Appr.pauli, gf, py_bind_ok]
      rw [Pauli.genKern_ok h fct]
      simp only [Kind.elems, List.flatMap_map]
    · rintro c ⟨b, bp⟩ c' ⟨b', bp'⟩ hp hp' hne r ⟨w1, w2⟩
      simp only [Kind.elems, List.mem_map, Prod.mk.injEq] at hp hp'
      obtain ⟨x, hx, rfl, rfl⟩ := hp
      obtain ⟨x', hx', rfl, rfl⟩ := hp'
      have good : ∀ c b, b ∈ v.row c → ∀ k ∈ Pauli.group v la fct c b, PGood v.npauli k ∧
          ∃ fm fp aa, k = .pauli fm fp (la.lab c b b : Int) aa := by
        intro c b hb k hk
        refine ⟨Pauli.group_good h fct k ?_, ?_⟩
        · simp only [List.mem_flatMap, List.mem_range]
          exact ⟨c, h.row_lt hb, b, hb, hk⟩
        · simp only [Pauli.group, List.mem_append, List.mem_map] at hk
          rcases hk with ⟨a, _, rfl⟩ | ⟨a, _, rfl⟩ <;> exact ⟨_, _, _, rfl⟩
      have e1 := writes_pauli (good c x hx) w1
      have e2 := writes_pauli (good c' x' hx') w2
      obtain ⟨rfl, hh⟩ := h.lab_inj c x x c' x' x' hx hx (h.inc_diag c x hx) hx' hx'
        (h.inc_diag c' x' hx') (e1.symm.trans e2)
      apply hne
      rcases hh with ⟨rfl, _⟩ | ⟨rfl, _⟩ <;> rfl
  | lindblad =>
    obtain ⟨t, gt, -⟩ := Lindblad.genFct_ok h E L
    have hc := fun c b bp hb hbp hi => Lindblad.coup_ok h t (c := c) (b := b) (bp := bp) hb hbp hi
    choose! ks hk1 hk2 hk3 using hc
    obtain ⟨a1, a2, a3⟩ := coh (Lindblad.coup v t) ks hk1 hk2
    refine ⟨_, ?_, ?_, a3⟩
    · intro c p hp
      simp only [Kind.iter, gt, py_bind_ok]
      exact a1 c p hp
    · simp only [Kind.ap, Appr.lindblad, gt, py_bind_ok]
      exact a2
  | vn1 =>
    obtain ⟨f, gf, -⟩ := fillFct_ok h (⟨0, 0, 0, 0⟩ : Amp) (amp1vN lib E L)
    have gf' : genFct1vN v lib E L = .ok f := gf
    have hc := fun c b bp hb hbp hi => VN1.coup_ok h L.Tba f (c := c) (b := b) (bp := bp) hb hbp hi
    choose! ks hk1 hk2 hk3 using hc
    obtain ⟨a1, a2, a3⟩ := coh (VN1.coup v L.Tba f) ks hk1 hk2
    refine ⟨_, ?_, ?_, a3⟩
    · intro c p hp
      simp only [Kind.iter, gf', py_bind_ok]
      exact a1 c p hp
    · simp only [Kind.ap, Appr.vn1, gf', py_bind_ok]
      exact a2
  | redfield =>
    obtain ⟨f, gf, -⟩ := fillFct_ok h (⟨0, 0, 0, 0⟩ : Amp) (amp1vN lib E L)
    have gf' : genFct1vN v lib E L = .ok f := gf
    have hc := fun c b bp hb hbp hi => Redfield.coup_ok h L.Tba f (c := c) (b := b) (bp := bp) hb hbp hi
    choose! ks hk1 hk2 hk3 using hc
    obtain ⟨a1, a2, a3⟩ := coh (Redfield.coup v L.Tba f) ks hk1 hk2
    refine ⟨_, ?_, ?_, a3⟩
    · intro c p hp
      simp only [Kind.iter, gf', py_bind_ok]
      exact a1 c p hp
    · simp only [Kind.ap, Appr.redfield, gf', py_bind_ok]
      exact a2

/-- **C46**. Let `its c p` be the calls made by the iteration for the element `p` of charge `c`.
The loop of `generate_kern` makes these calls one iteration after the other. Making the calls in any
other order, in particular running the iterations in another order or interleaved, gives the same
kernel; and no row is written to by two iterations. -/
theorem c46_order (k : Kind) (lib : NumLib) (E : Nat → ℝ) (L : Leads) :
    ∃ its : Nat → Nat × Nat → List KCall,
      (∀ c, ∀ p ∈ k.elems v la c, k.iter v lib E L c p = .ok (its c p)) ∧
      (k.ap lib E L).calls v
        = .ok ((List.range v.ncharge).flatMap fun c => (k.elems v la c).flatMap (its c)) ∧
      (∃ K, v.runKern (Mat.zeros (k.size v) (k.size v))
          ((List.range v.ncharge).flatMap fun c => (k.elems v la c).flatMap (its c)) = .ok K ∧
        ∀ cs, cs.Perm ((List.range v.ncharge).flatMap fun c => (k.elems v la c).flatMap (its c)) →
          ∃ K', v.runKern (Mat.zeros (k.size v) (k.size v)) cs = .ok K' ∧ K'.rows = K.rows ∧
            K'.cols = K.cols ∧ ∀ i j, j < K.cols → K'.val i j = K.val i j) ∧
      ∀ c p c' p', p ∈ k.elems v la c → p' ∈ k.elems v la c' → (c, p) ≠ (c', p') →
        ∀ r, ¬ (Writes v (k.size v) (its c p) r ∧ Writes v (k.size v) (its c' p') r) := by
  obtain ⟨its, h1, h2, h3⟩ := iterations h k lib E L
  refine ⟨its, h1, h2, ?_, h3⟩
  obtain ⟨cs, M, gc, A, -⟩ := (k.works h lib E L).calls
  rw [h2] at gc
  simp only [Except.ok.injEq] at gc
  subst gc
  obtain ⟨K, g, hr, hc, e⟩ := (A _ (.refl _)).kern (k.size v) le_rfl
  refine ⟨K, g, fun cs hp => ?_⟩
  obtain ⟨K', g', hr', hc', e'⟩ := (A _ hp).kern (k.size v) le_rfl
  refine ⟨K', g', by omega, by omega, fun i j hj => ?_⟩
  rw [K.val_eq_app hj, K'.val_eq_app (by omega), e, e']

end

/-- Two levels with two leads: five iterations for the approaches with coherences. -/
example : ∃ d : DM, VOk (d.view 2) d.labOf ∧ 0 < (d.view 2).npauli := by
  obtain ⟨d, -, h, -, h2, -⟩ := view_example
  exact ⟨d, h, by show 0 < d.npauli; omega⟩

end

end Verif
