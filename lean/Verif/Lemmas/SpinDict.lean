import Verif.Props.Spin
import Verif.Props.Fock
import Verif.Lemmas.SpinComm

/-! The operators of parameters expanded with `symmetry='spin'` commute with the spin. -/

namespace Verif
open Verif.Spec Matrix

variable {n : Nat}

/-- The entry with the operators of both pairs exchanged. -/
def swapKey (k : Nat × Nat × Nat × Nat) : Nat × Nat × Nat × Nat := (k.2.1, k.1, k.2.2.2, k.2.2.1)

/-- The entries that the loop adds for one entry. -/
def spinGroup (m : Nat) (mLessN : Bool) (e : (Nat × Nat × Nat × Nat) × ℂ) : List ((Nat × Nat × Nat × Nat) × ℂ) :=
  ((e.1.1, e.1.2.1 + m, e.1.2.2.1 + m, e.1.2.2.2), e.2) ::
    ((if mLessN then
        if swapKey e.1 = e.1 then [] else [((e.1.2.1, e.1.1 + m, e.1.2.2.2 + m, e.1.2.2.1), e.2)]
      else [((e.1.1 + m, e.1.2.1, e.1.2.2.1, e.1.2.2.2 + m), e.2)]) ++
    [((e.1.1 + m, e.1.2.1 + m, e.1.2.2.1 + m, e.1.2.2.2 + m), e.2)])

theorem coul_expand {m : Nat} {mLessN : Bool} {d : Dict (Nat × Nat × Nat × Nat) ℂ} (hn : (d.map Prod.fst).Nodup)
    (hr : ∀ k ∈ d.map Prod.fst, UpKey m k)
    (hs : mLessN = true → ∀ k ∈ d.map Prod.fst, swapKey k ∈ d.map Prod.fst → swapKey k = k) :
    d.foldl (coulombSpinStep m false mLessN) d = d ++ d.flatMap (spinGroup m mLessN) := by
  suffices H : ∀ ys xs : Dict (Nat × Nat × Nat × Nat) ℂ, d = ys ++ xs →
      xs.foldl (coulombSpinStep m false mLessN) (d ++ ys.flatMap (spinGroup m mLessN))
        = (d ++ ys.flatMap (spinGroup m mLessN)) ++ xs.flatMap (spinGroup m mLessN) by
    simpa using H [] d rfl
  intro ys xs
  induction xs generalizing ys with
  | nil => intro _; simp
  | cons e xs ih =>
    intro hd
    have hek : e.1 ∈ d.map Prod.fst := by rw [hd]; simp
    have hys : ∀ k ∈ ys, k.1 ∈ d.map Prod.fst := by
      intro k hk
      rw [hd, List.map_append]
      exact List.mem_append_left _ (List.mem_map_of_mem hk)
    have hne : ∀ p ∈ ys, p.1 ≠ e.1 := by
      intro p hp h
      rw [hd, List.map_append] at hn
      exact (List.nodup_append.1 hn).2.2 _ (List.mem_map_of_mem hp) e.1 (by simp) h
    have hup := hr _ hek
    obtain ⟨⟨a, b, c, f⟩, U⟩ := e
    simp only [UpKey] at hup hek hne
    obtain ⟨u1, u2, u3, u4⟩ := hup
    -- the keys present so far
    have keys : ∀ p ∈ d ++ ys.flatMap (spinGroup m mLessN), UpKey m p.1 ∨ ∃ q ∈ ys, UpKey m q.1 ∧
        (p.1 = (q.1.1, q.1.2.1 + m, q.1.2.2.1 + m, q.1.2.2.2) ∨
         (mLessN = true ∧ p.1 = (q.1.2.1, q.1.1 + m, q.1.2.2.2 + m, q.1.2.2.1)) ∨
         (mLessN = false ∧ p.1 = (q.1.1 + m, q.1.2.1, q.1.2.2.1, q.1.2.2.2 + m)) ∨
         p.1 = (q.1.1 + m, q.1.2.1 + m, q.1.2.2.1 + m, q.1.2.2.2 + m)) := by
      intro p hp
      rw [List.mem_append] at hp
      rcases hp with hp | hp
      · exact .inl (hr _ (List.mem_map_of_mem hp))
      · obtain ⟨q, hq, hp⟩ := List.mem_flatMap.1 hp
        refine .inr ⟨q, hq, hr _ (hys q hq), ?_⟩
        unfold spinGroup at hp
        simp only [List.mem_cons, List.mem_append, List.not_mem_nil, or_false] at hp
        rcases hp with rfl | hp | rfl
        · exact .inl rfl
        · split at hp
          · next hm =>
            split at hp
            · simp at hp
            · simp only [List.mem_cons, List.not_mem_nil, or_false] at hp
              subst hp
              exact .inr (.inl ⟨hm, rfl⟩)
          · next hm =>
            simp only [List.mem_cons, List.not_mem_nil, or_false] at hp
            subst hp
            exact .inr (.inr (.inl ⟨by simpa using hm, rfl⟩))
        · exact .inr (.inr (.inr rfl))
    -- an entry treated before is neither this one nor its swap
    have notSwap : mLessN = true → ∀ q ∈ ys, ¬ (q.1.2.1 = a ∧ q.1.1 = b ∧ q.1.2.2.2 = c ∧ q.1.2.2.1 = f) := by
      rintro hm ⟨⟨a', b', c', f'⟩, U'⟩ hq ⟨h1, h2, h3, h4⟩
      simp only at h1 h2 h3 h4
      subst h1 h2 h3 h4
      have := hs hm _ hek (hys _ hq)
      simp only [swapKey, Prod.mk.injEq] at this
      exact hne _ hq (by simp only [Prod.mk.injEq]; exact this)
    have f1 : ∀ p ∈ d ++ ys.flatMap (spinGroup m mLessN), p.1 ≠ (a, b + m, c + m, f) := by
      intro p hp h
      rcases keys p hp with g | ⟨⟨⟨a', b', c', f'⟩, U'⟩, hq, hqu, g⟩
      · rw [h] at g; obtain ⟨-, g, -⟩ := g; simp at g
      · obtain ⟨v1, v2, v3, v4⟩ := hqu
        simp only at v1 v2 v3 v4
        rw [h] at g
        simp only [Prod.mk.injEq] at g
        have hne' := hne _ hq
        simp only [ne_eq, Prod.mk.injEq] at hne'
        rcases g with g | ⟨hm, g⟩ | ⟨hm, g⟩ | g
        · exact hne' (by omega)
        · exact notSwap hm _ hq (by simp only; omega)
        · omega
        · omega
    have f2 : ∀ p ∈ d ++ ys.flatMap (spinGroup m mLessN), p.1 ≠ (b, a + m, f + m, c) ∨ mLessN = false := by
      intro p hp
      by_cases hm : mLessN = true
      swap
      · exact .inr (by simpa using hm)
      refine .inl fun h => ?_
      rcases keys p hp with g | ⟨⟨⟨a', b', c', f'⟩, U'⟩, hq, hqu, g⟩
      · rw [h] at g; obtain ⟨-, g, -⟩ := g; simp at g
      · obtain ⟨v1, v2, v3, v4⟩ := hqu
        simp only at v1 v2 v3 v4
        rw [h] at g
        simp only [Prod.mk.injEq] at g
        have hne' := hne _ hq
        simp only [ne_eq, Prod.mk.injEq] at hne'
        rcases g with g | ⟨hm, g⟩ | ⟨hm, g⟩ | g
        · exact notSwap hm _ hq (by simp only; omega)
        · exact hne' (by omega)
        · omega
        · omega
    have f3 : ∀ p ∈ d ++ ys.flatMap (spinGroup m mLessN), p.1 ≠ (a + m, b, c, f + m) := by
      intro p hp h
      rcases keys p hp with g | ⟨⟨⟨a', b', c', f'⟩, U'⟩, hq, hqu, g⟩
      · rw [h] at g; obtain ⟨g, -⟩ := g; simp at g
      · obtain ⟨v1, v2, v3, v4⟩ := hqu
        simp only at v1 v2 v3 v4
        rw [h] at g
        simp only [Prod.mk.injEq] at g
        have hne' := hne _ hq
        simp only [ne_eq, Prod.mk.injEq] at hne'
        rcases g with g | ⟨hm, g⟩ | ⟨hm, g⟩ | g
        · omega
        · omega
        · exact hne' (by omega)
        · omega
    have f4 : ∀ p ∈ d ++ ys.flatMap (spinGroup m mLessN), p.1 ≠ (a + m, b + m, c + m, f + m) := by
      intro p hp h
      rcases keys p hp with g | ⟨⟨⟨a', b', c', f'⟩, U'⟩, hq, hqu, g⟩
      · rw [h] at g; obtain ⟨g, -⟩ := g; simp at g
      · obtain ⟨v1, v2, v3, v4⟩ := hqu
        simp only at v1 v2 v3 v4
        rw [h] at g
        simp only [Prod.mk.injEq] at g
        have hne' := hne _ hq
        simp only [ne_eq, Prod.mk.injEq] at hne'
        rcases g with g | ⟨hm, g⟩ | ⟨hm, g⟩ | g
        · omega
        · omega
        · omega
        · exact hne' (by omega)
    have estep : coulombSpinStep m false mLessN (d ++ ys.flatMap (spinGroup m mLessN)) ((a, b, c, f), U)
        = (d ++ ys.flatMap (spinGroup m mLessN)) ++ spinGroup m mLessN ((a, b, c, f), U) := by
      generalize d ++ ys.flatMap (spinGroup m mLessN) = s at f1 f2 f3 f4
      unfold coulombSpinStep spinGroup
      dsimp only
      simp only [true_or, if_true]
      rw [Dict.set_eq_append s _ _ f1]
      cases mLessN with
      | false =>
        simp only [Bool.false_eq_true, if_false]
        rw [Dict.set_eq_append _ (a + m, b, c, f + m) _ (by
          intro p hp
          rw [List.mem_append] at hp
          rcases hp with hp | hp
          · exact f3 p hp
          · simp only [List.mem_cons, List.not_mem_nil, or_false] at hp
            subst hp
            simp only [ne_eq, Prod.mk.injEq]; omega), Dict.set_eq_append _ _ _ (by
          intro p hp
          simp only [List.mem_append, List.mem_cons, List.not_mem_nil, or_false] at hp
          rcases hp with (hp | rfl) | rfl
          · exact f4 p hp
          · simp only [ne_eq, Prod.mk.injEq]; omega
          · simp only [ne_eq, Prod.mk.injEq]; omega)]
        simp
      | true =>
        simp only [if_true]
        by_cases hab : swapKey (a, b, c, f) = (a, b, c, f)
        · rw [if_pos hab]
          simp only [swapKey, Prod.mk.injEq] at hab
          obtain ⟨rfl, -, rfl, -⟩ := hab
          rw [← Dict.set_eq_append s _ _ f1, set_twice, Dict.set_eq_append s _ _ f1, Dict.set_eq_append _ _ _ (by
            intro p hp
            simp only [List.mem_append, List.mem_cons, List.not_mem_nil, or_false] at hp
            rcases hp with hp | rfl
            · exact f4 p hp
            · simp only [ne_eq, Prod.mk.injEq]; omega)]
          simp
        · rw [if_neg hab]
          simp only [swapKey, Prod.mk.injEq] at hab
          rw [Dict.set_eq_append _ (b, a + m, f + m, c) _ (by
            intro p hp
            simp only [List.mem_append, List.mem_cons, List.not_mem_nil, or_false] at hp
            rcases hp with hp | rfl
            · exact (f2 p hp).resolve_right (by simp)
            · simp only [ne_eq, Prod.mk.injEq]; omega), Dict.set_eq_append _ _ _ (by
            intro p hp
            simp only [List.mem_append, List.mem_cons, List.not_mem_nil, or_false] at hp
            rcases hp with (hp | rfl) | rfl
            · exact f4 p hp
            · simp only [ne_eq, Prod.mk.injEq]; omega
            · simp only [ne_eq, Prod.mk.injEq]; omega)]
          simp
    rw [List.foldl_cons, estep]
    have := ih (ys ++ [((a, b, c, f), U)]) (by rw [hd]; simp)
    simp only [List.flatMap_append, List.flatMap_cons, List.flatMap_nil, List.append_nil, List.append_assoc] at this ⊢
    exact this

theorem pair_expand {a b : Nat} {d : Dict (Nat × Nat) ℂ} (hn : (d.map Prod.fst).Nodup)
    (hr : ∀ k ∈ d.map Prod.fst, k.1 < a ∧ k.2 < b) :
    spinDict (fun k => (k.1 + a, k.2 + b)) d = d ++ d.map fun e => ((e.1.1 + a, e.1.2 + b), e.2) := by
  unfold spinDict
  suffices H : ∀ ys xs : Dict (Nat × Nat) ℂ, d = ys ++ xs →
      xs.foldl (fun s e => s.set (e.1.1 + a, e.1.2 + b) e.2) (d ++ ys.map fun e => ((e.1.1 + a, e.1.2 + b), e.2))
        = (d ++ ys.map fun e => ((e.1.1 + a, e.1.2 + b), e.2)) ++ xs.map fun e => ((e.1.1 + a, e.1.2 + b), e.2) by
    simpa using H [] d rfl
  intro ys xs
  induction xs generalizing ys with
  | nil => intro _; simp
  | cons e xs ih =>
    intro hd
    have hne : ∀ p ∈ ys, p.1 ≠ e.1 := by
      intro p hp h
      rw [hd, List.map_append] at hn
      exact (List.nodup_append.1 hn).2.2 _ (List.mem_map_of_mem hp) e.1 (by simp) h
    rw [List.foldl_cons, Dict.set_eq_append _ _ _ (by
      intro p hp h
      rw [List.mem_append] at hp
      rcases hp with hp | hp
      · have := hr _ (List.mem_map_of_mem hp)
        rw [h] at this
        simp at this
      · obtain ⟨q, hq, rfl⟩ := List.mem_map.1 hp
        simp only [Prod.mk.injEq, Nat.add_right_cancel_iff] at h
        exact hne q hq (Prod.ext h.1 h.2))]
    have := ih (ys ++ [e]) (by rw [hd]; simp)
    simp only [List.map_append, List.map_cons, List.map_nil, List.append_assoc] at this ⊢
    exact this

/-! ### Operators -/

/-- `d+_x d+_y d_z d_w`. -/
noncomputable def quad (x y z w : Fin n) : Matrix (Occ n) (Occ n) ℂ := cre x * cre y * ann z * ann w

theorem coulTerm_quad (hermC mLessN : Bool) (m p k l : Fin n) (U : ℂ) (q : Prop) [Decidable q]
    (hq : (hermC = true ∧ ¬ (m = l ∧ p = k) ∧ ¬ (mLessN = true ∧ l > k)) ↔ q) :
    coulTerm hermC mLessN ((m, p, k, l), U) = U • quad m p k l + if q then star U • quad l k p m else 0 := by
  unfold coulTerm quad
  dsimp only
  congr 1
  exact if_congr hq rfl rfl

/-- The four entries of both spins. -/
def fourQ (m p k l : Fin (n / 2)) (U : ℂ) (mLessN : Bool) : List ((Fin n × Fin n × Fin n × Fin n) × ℂ) :=
  ((up m, dn p, dn k, up l), U) ::
    ((if mLessN then
        if (p, m, l, k) = (m, p, k, l) then [] else [((up p, dn m, dn l, up k), U)]
      else [((dn m, up p, up k, dn l), U)]) ++ [((dn m, dn p, dn k, dn l), U)])

theorem quad_group (m p k l : Fin (n / 2)) : brk cP
    (quad (up m) (up p) (up k) (up l) + quad (dn m) (dn p) (dn k) (dn l) +
      (quad (up m) (dn p) (dn k) (up l) + quad (dn m) (up p) (up k) (dn l)) : Matrix (Occ n) (Occ n) ℂ) = 0 :=
  plus_coul m p k l

theorem quad_swap (m p k l : Fin n) : quad m p k l = quad p m l k := coul_swap m p k l

theorem quad_zero (m k l : Fin n) : quad m m k l = 0 := by
  have h1 := cre_cre (K := ℂ) m m
  have h1' : (cre m * cre m : Matrix (Occ n) (Occ n) ℂ) = 0 := by
    have := h1; rw [← two_smul ℂ] at this; simpa using this
  unfold quad
  rw [h1']
  simp

theorem group_comm (hermC mLessN : Bool) (m p k l : Fin (n / 2)) (U : ℂ)
    (hkl : hermC = true → mLessN = true → l > k → m = l ∧ p = k) :
    brk cP (coulTerm hermC mLessN ((up m, up p, up k, up l), U) +
      ((fourQ m p k l U mLessN).map (coulTerm hermC mLessN)).sum : Matrix (Occ n) (Occ n) ℂ) = 0 := by
  have hud : ∀ i j : Fin (n / 2), (up i : Fin n) < dn j := by
    intro i j
    show i.val < n / 2 + j.val
    omega
  have e1 := coulTerm_quad (n := n) hermC mLessN (up m) (up p) (up k) (up l) U (hermC = true ∧ ¬ (m = l ∧ p = k)) (by
    rw [up_inj, up_inj, show ((up l : Fin n) > up k) ↔ l > k from Iff.rfl]
    by_cases h : hermC = true <;> by_cases h' : mLessN = true <;> by_cases h'' : l > k <;> simp_all)
  have e2 := coulTerm_quad (n := n) hermC mLessN (dn m) (dn p) (dn k) (dn l) U (hermC = true ∧ ¬ (m = l ∧ p = k)) (by
    rw [dn_inj, dn_inj, show ((dn l : Fin n) > dn k) ↔ l > k from Nat.add_lt_add_iff_left]
    by_cases h : hermC = true <;> by_cases h' : mLessN = true <;> by_cases h'' : l > k <;> simp_all)
  have e3 := coulTerm_quad (n := n) hermC mLessN (up m) (dn p) (dn k) (up l) U (hermC = true ∧ ¬ (m = l ∧ p = k)) (by
    rw [dn_inj, up_inj]
    have := (hud l k).not_gt
    simp [this])
  have key : ∀ A B : Matrix (Occ n) (Occ n) ℂ, brk cP A = 0 → brk cP B = 0 →
      brk cP (U • A + if (hermC = true ∧ ¬ (m = l ∧ p = k)) then star U • B else 0) = 0 := by
    intro A B h1 h2
    rw [brk_add, brk_smul, h1]
    split
    · rw [brk_smul, h2]; simp
    · rw [brk_zero]; simp
  have four : ∀ x : Matrix (Occ n) (Occ n) ℂ,
      x = U • quad (dn m) (up p) (up k) (dn l) + (if (hermC = true ∧ ¬ (m = l ∧ p = k)) then
        star U • quad (dn l) (up k) (up p) (dn m) else 0) →
      brk cP (coulTerm hermC mLessN ((up m, up p, up k, up l), U) +
        (coulTerm hermC mLessN ((up m, dn p, dn k, up l), U) + (x +
          coulTerm hermC mLessN ((dn m, dn p, dn k, dn l), U)))) = 0 := by
    intro x hx
    rw [e1, e2, e3, hx]
    refine Eq.trans ?_ (key _ _ (quad_group m p k l) (quad_group l k p m))
    congr 1
    split
    · simp only [smul_add]; abel
    · simp only [smul_add]; abel
  unfold fourQ
  cases mLessN with
  | false =>
    simp only [Bool.false_eq_true, if_false, List.singleton_append, List.map_cons, List.map_nil, List.sum_cons,
      List.sum_nil, add_zero]
    exact four _ (coulTerm_quad _ _ _ _ _ _ _ _ (by rw [dn_inj, up_inj]; simp))
  | true =>
    simp only [if_true]
    by_cases hs : (p, m, l, k) = (m, p, k, l)
    · rw [if_pos hs]
      simp only [Prod.mk.injEq] at hs
      obtain ⟨rfl, -, rfl, -⟩ := hs
      simp only [List.nil_append, List.map_cons, List.map_nil, List.sum_cons, List.sum_nil, add_zero]
      rw [e1, e2, e3, quad_zero, quad_zero, quad_zero, quad_zero]
      simp only [smul_zero, ite_self, add_zero, zero_add]
      exact key _ _ (plus_pair p l) (plus_pair l p)
    · rw [if_neg hs]
      simp only [List.singleton_append, List.map_cons, List.map_nil, List.sum_cons, List.sum_nil, add_zero]
      refine four _ ((coulTerm_quad _ _ _ _ _ _ _ (hermC = true ∧ ¬ (m = l ∧ p = k)) (by
        rw [dn_inj, up_inj, and_comm (a := p = k)]
        have := (hud k l).not_gt
        simp [this])).trans ?_)
      rw [quad_swap (up p), quad_swap (up k)]

/-- The Coulomb operator of the expanded entries commutes with the spin. -/
theorem coul_spin (hermC mLessN : Bool) (D : List ((Fin (n / 2) × Fin (n / 2) × Fin (n / 2) × Fin (n / 2)) × ℂ))
    (hkl : hermC = true → mLessN = true → ∀ m p k l U, ((m, p, k, l), U) ∈ D → l > k → m = l ∧ p = k) :
    brk cP (coulOp hermC mLessN ((D.map fun e => ((up e.1.1, up e.1.2.1, up e.1.2.2.1, up e.1.2.2.2), e.2)) ++
      D.flatMap fun e => fourQ e.1.1 e.1.2.1 e.1.2.2.1 e.1.2.2.2 e.2 mLessN) : Matrix (Occ n) (Occ n) ℂ) = 0 := by
  unfold coulOp
  induction D with
  | nil => simp [brk_zero]
  | cons e D ih =>
    have h1 := group_comm (n := n) hermC mLessN e.1.1 e.1.2.1 e.1.2.2.1 e.1.2.2.2 e.2
      (fun a b => hkl a b _ _ _ _ e.2 (by simp))
    have h2 := ih fun a b m p k l U h => hkl a b m p k l U (by simp [h])
    simp only [List.map_append, List.sum_append, List.map_cons, List.sum_cons, List.flatMap_cons, brk_add] at h1 h2 ⊢
    rw [← add_zero (0 : Matrix (Occ n) (Occ n) ℂ)]
    nth_rewrite 1 [← h1]
    rw [← h2]
    abel

theorem hop_spin (hermHs : Bool) (D : List ((Fin (n / 2) × Fin (n / 2)) × ℂ)) :
    brk cP (hopOp hermHs ((D.map fun e => ((up e.1.1, up e.1.2), e.2)) ++ D.map fun e => ((dn e.1.1, dn e.1.2), e.2)) :
      Matrix (Occ n) (Occ n) ℂ) = 0 := by
  unfold hopOp
  induction D with
  | nil => simp [brk_zero]
  | cons e D ih =>
    have h1 : brk cP (hopTerm hermHs ((up e.1.1, up e.1.2), e.2) + hopTerm hermHs ((dn e.1.1, dn e.1.2), e.2) :
        Matrix (Occ n) (Occ n) ℂ) = 0 := by
      have a1 := plus_hop (n := n) e.1.1 e.1.2
      have a2 := plus_hop (n := n) e.1.2 e.1.1
      unfold hopTerm
      dsimp only
      simp only [ne_eq, up_inj, dn_inj]
      rw [show ∀ A B C D : Matrix (Occ n) (Occ n) ℂ, A + B + (C + D) = (A + C) + (B + D) from fun A B C D => by abel,
        ← smul_add, brk_add, brk_smul, a1]
      split
      · rw [← smul_add, brk_smul, a2]; simp
      · rw [add_zero, brk_zero]; simp
    simp only [List.map_append, List.sum_append, List.map_cons, List.sum_cons, brk_add] at h1 ih ⊢
    rw [← add_zero (0 : Matrix (Occ n) (Occ n) ℂ)]
    nth_rewrite 1 [← h1]
    rw [← ih]
    abel

end Verif
