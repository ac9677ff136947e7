import Verif.Props.Params

/-! C42: the expansion of parameters with `symmetry='spin'`. -/

namespace Verif

/-- The orbital of the other spin species: orbitals `0 … m-1` are spin up, `m … 2m-1` down. -/
def flipSpin (m i : Nat) : Nat := if i < m then i + m else i - m

theorem flip_up {m i : Nat} (h : i < m) : flipSpin m i = i + m := if_pos h

theorem flip_down (m i : Nat) : flipSpin m (i + m) = i := by
  unfold flipSpin
  rw [if_neg (by omega)]
  omega

section
variable {κ : Type} [DecidableEq κ]

/-- A loop over entries that writes, as far as the key `q` is concerned, the value of the entry
`e` at `f e`. -/
theorem fold_write {f : κ → κ} {step : Dict κ ℂ → κ × ℂ → Dict κ ℂ} {q : κ}
    (xs : Dict κ ℂ) (hstep : ∀ s, ∀ e ∈ xs, (step s e).get? q = if f e.1 = q then some e.2 else s.get? q)
    (hn : (xs.map Prod.fst).Nodup) (s0 : Dict κ ℂ) :
    (∀ k, f k = q → (∀ e ∈ xs, f e.1 = q → e.1 = k) →
      (xs.foldl step s0).get? q = (xs.get? k).or (s0.get? q)) ∧
    ((∀ e ∈ xs, f e.1 ≠ q) → (xs.foldl step s0).get? q = s0.get? q) := by
  induction xs generalizing s0 with
  | nil => exact ⟨fun k _ _ => by simp [Dict.get?], fun _ => rfl⟩
  | cons e xs ih =>
    rw [List.map_cons, List.nodup_cons] at hn
    have ih' := ih (fun s e' he' => hstep s e' (by simp [he'])) hn.2 (step s0 e)
    rw [List.foldl_cons]
    constructor
    · intro k hk huniq
      have := ih'.1 k hk fun e' he' => huniq e' (by simp [he'])
      rw [this, hstep s0 e (by simp)]
      obtain ⟨k0, v0⟩ := e
      simp only [Dict.get?]
      by_cases h0 : k0 = k
      · subst h0
        have hnone : Dict.get? xs k0 = none := Dict.get?_none.2 hn.1
        simp [hnone, hk]
      · have hne : f k0 ≠ q := fun h => h0 (huniq (k0, v0) (by simp) h)
        simp [h0, hne]
    · intro hno
      rw [ih'.2 fun e' he' => hno e' (by simp [he']), hstep s0 e (by simp), if_neg (hno e (by simp))]

theorem spin_get {shift : κ → κ} {d : Dict κ ℂ} (hn : (d.map Prod.fst).Nodup) (q : κ) :
    (∀ k, shift k = q → (∀ e ∈ d, shift e.1 = q → e.1 = k) →
      (spinDict shift d).get? q = (d.get? k).or (d.get? q)) ∧
    ((∀ e ∈ d, shift e.1 ≠ q) → (spinDict shift d).get? q = d.get? q) :=
  fold_write (f := shift) (step := fun s e => s.set (shift e.1) e.2) d
    (fun s e _ => by rw [Dict.get?_set]) hn d

end

/-- The values at pairs of labels of one dictionary and its expansion by `(a, b)`. -/
theorem pair_spin {a b : Nat} {d : Dict (Nat × Nat) ℂ} (hn : (d.map Prod.fst).Nodup)
    (hr : ∀ k ∈ d.map Prod.fst, k.1 < a ∧ k.2 < b) (hb : 0 < b) :
    (∀ i j, j < b → (spinDict (fun k => (k.1 + a, k.2 + b)) d).get? (i, j) = d.get? (i, j)) ∧
    (∀ i j, (spinDict (fun k => (k.1 + a, k.2 + b)) d).get? (i + a, j + b) = d.get? (i, j)) ∧
    (∀ i j, i < a → (spinDict (fun k => (k.1 + a, k.2 + b)) d).get? (i, j + b) = none) := by
  have hnone : ∀ i j, ¬ (i < a ∧ j < b) → d.get? (i, j) = none := by
    intro i j h
    exact Dict.get?_none.2 fun hm => h (hr _ hm)
  refine ⟨fun i j hj => ?_, fun i j => ?_, fun i j hi => ?_⟩
  · refine (spin_get hn (i, j)).2 ?_
    intro e _ h
    simp only [Prod.mk.injEq] at h
    omega
  · rw [(spin_get (shift := fun k : Nat × Nat => (k.1 + a, k.2 + b)) hn (i + a, j + b)).1 (i, j) rfl ?_,
      hnone (i + a) (j + b) (by omega), Option.or_none]
    intro e _ h
    simp only [Prod.mk.injEq] at h
    exact Prod.ext (by omega) (by omega)
  · rw [(spin_get (shift := fun k : Nat × Nat => (k.1 + a, k.2 + b)) hn (i, j + b)).2 ?_,
      hnone i (j + b) (by omega)]
    intro e _ h
    simp only [Prod.mk.injEq] at h
    omega

/-- C42, `hsingle`. `make_hsingle_dict` with `symmetry='spin'` keeps the entries between spin-up
orbitals that it gives without the symmetry, and the result does not change when the two
species are exchanged; there are no entries between the species. -/
theorem c42_hsingle {m : Nat} {hs : Param (Nat × Nat)} (hv : hs.Valid) (herm z : Bool)
    (hr : ∀ k ∈ (makeHsingleDict none herm hs z).map Prod.fst, k.1 < m ∧ k.2 < m) :
    (∀ i j, i < m → j < m → (makeHsingleDict (some m) herm hs z).get? (i, j)
      = (makeHsingleDict none herm hs z).get? (i, j)) ∧
    (∀ i j, i < 2 * m → j < 2 * m →
      (makeHsingleDict (some m) herm hs z).get? (flipSpin m i, flipSpin m j)
        = (makeHsingleDict (some m) herm hs z).get? (i, j)) ∧
    ∀ i j, i < m → j < m → (makeHsingleDict (some m) herm hs z).get? (i, j + m) = none := by
  have hn := hsingle_nodup none herm hv z
  have e : makeHsingleDict (some m) herm hs z =
      spinDict (fun k => (k.1 + m, k.2 + m)) (makeHsingleDict none herm hs z) := by
    cases hs <;> rfl
  rw [e]
  generalize makeHsingleDict none herm hs z = d at hr hn
  rcases Nat.eq_zero_or_pos m with rfl | hm
  · refine ⟨fun i j h => by omega, fun i j h => by omega, fun i j h => by omega⟩
  obtain ⟨h1, h2, h3⟩ := pair_spin hn hr hm
  refine ⟨fun i j _ hj => h1 i j hj, ?_, fun i j hi _ => h3 i j hi⟩
  intro i j hi hj
  by_cases ci : i < m
  · by_cases cj : j < m
    · rw [flip_up ci, flip_up cj, h2, h1 i j cj]
    · obtain ⟨j', rfl⟩ : ∃ j', j = j' + m := ⟨j - m, by omega⟩
      rw [flip_up ci, flip_down, h1 _ _ (by omega), h3 _ _ ci]
      exact Dict.get?_none.2 fun hk => by have := hr _ hk; simp at this
  · obtain ⟨i', rfl⟩ : ∃ i', i = i' + m := ⟨i - m, by omega⟩
    by_cases cj : j < m
    · rw [flip_down, flip_up cj, h3 _ _ (by omega), h1 _ _ cj]
      exact (Dict.get?_none.2 fun hk => by have := hr _ hk; simp at this).symm
    · obtain ⟨j', rfl⟩ : ∃ j', j = j' + m := ⟨j - m, by omega⟩
      rw [flip_down, flip_down, h2, h1 _ _ (by omega)]

/-- C42, `tleads`: `a` leads and `b` orbitals per species. -/
theorem c42_tleads {a b : Nat} {ts : Param (Nat × Nat)} (hv : ts.Valid) (z : Bool)
    (hr : ∀ k ∈ (makeTleadsDict none ts z).map Prod.fst, k.1 < a ∧ k.2 < b) :
    (∀ i j, i < a → j < b → (makeTleadsDict (some (a, b)) ts z).get? (i, j)
      = (makeTleadsDict none ts z).get? (i, j)) ∧
    (∀ i j, i < 2 * a → j < 2 * b →
      (makeTleadsDict (some (a, b)) ts z).get? (flipSpin a i, flipSpin b j)
        = (makeTleadsDict (some (a, b)) ts z).get? (i, j)) ∧
    ∀ i j, i < a → j < b → (makeTleadsDict (some (a, b)) ts z).get? (i, j + b) = none := by
  have hn := tleads_nodup none hv z
  have e : makeTleadsDict (some (a, b)) ts z =
      spinDict (fun k => (k.1 + a, k.2 + b)) (makeTleadsDict none ts z) := by
    cases ts <;> rfl
  rw [e]
  generalize makeTleadsDict none ts z = d at hr hn
  rcases Nat.eq_zero_or_pos b with rfl | hb
  · refine ⟨fun i j _ h => by omega, fun i j _ h => by omega, fun i j _ h => by omega⟩
  obtain ⟨h1, h2, h3⟩ := pair_spin hn hr hb
  refine ⟨fun i j _ hj => h1 i j hj, ?_, fun i j hi _ => h3 i j hi⟩
  intro i j hi hj
  by_cases ci : i < a
  · by_cases cj : j < b
    · rw [flip_up ci, flip_up cj, h2, h1 i j cj]
    · obtain ⟨j', rfl⟩ : ∃ j', j = j' + b := ⟨j - b, by omega⟩
      rw [flip_up ci, flip_down, h1 _ _ (by omega), h3 _ _ ci]
      exact Dict.get?_none.2 fun hk => by have := hr _ hk; simp at this
  · obtain ⟨i', rfl⟩ : ∃ i', i = i' + a := ⟨i - a, by omega⟩
    by_cases cj : j < b
    · rw [flip_down, flip_up cj, h3 _ _ (by omega), h1 _ _ cj]
      exact (Dict.get?_none.2 fun hk => by have := hr _ hk; simp at this).symm
    · obtain ⟨j', rfl⟩ : ∃ j', j = j' + b := ⟨j - b, by omega⟩
      rw [flip_down, flip_down, h2, h1 _ _ (by omega)]

/-! ### Coulomb matrix elements -/

/-- All four labels below `m`. -/
def UpKey (m : Nat) (k : Nat × Nat × Nat × Nat) : Prop :=
  k.1 < m ∧ k.2.1 < m ∧ k.2.2.1 < m ∧ k.2.2.2 < m

theorem coulomb_spin_eq {m : Nat} {hermC mLessN : Bool} {cs : CoulombArg} :
    makeCoulombDict (some m) hermC mLessN cs =
      (makeCoulombDict none hermC mLessN cs).foldl (coulombSpinStep m hermC mLessN)
        (makeCoulombDict none hermC mLessN cs) := by
  cases cs <;> rfl

/-- A step of the loop at the keys with four spins up or four spins down. -/
theorem step_same {m : Nat} {hermC mLessN : Bool} (s : Dict (Nat × Nat × Nat × Nat) ℂ) (e)
    (he : UpKey m e.1) (i j k l : Nat) (hi : i < m) (hj : j < m) :
    (coulombSpinStep m hermC mLessN s e).get? (i, j, k, l) = s.get? (i, j, k, l) ∧
    (coulombSpinStep m hermC mLessN s e).get? (i + m, j + m, k + m, l + m) =
      if (e.1.1 + m, e.1.2.1 + m, e.1.2.2.1 + m, e.1.2.2.2 + m) = (i + m, j + m, k + m, l + m)
      then some e.2 else s.get? (i + m, j + m, k + m, l + m) := by
  obtain ⟨⟨a, b, c, d⟩, U⟩ := e
  obtain ⟨h1, h2, h3, h4⟩ := he
  simp only at h1 h2 h3 h4
  have n1 : ∀ x y z, ¬ ((x, b + m, y, z) = (i, j, k, l)) := by
    intro x y z h; simp only [Prod.mk.injEq] at h; omega
  have n2 : ∀ x y z, ¬ ((x, a + m, y, z) = (i, j, k, l)) := by
    intro x y z h; simp only [Prod.mk.injEq] at h; omega
  have n3 : ∀ x y z, ¬ ((a + m, x, y, z) = (i, j, k, l)) := by
    intro x y z h; simp only [Prod.mk.injEq] at h; omega
  have n4 : ∀ x y z, ¬ ((a, x, y, z) = (i + m, j + m, k + m, l + m)) := by
    intro x y z h; simp only [Prod.mk.injEq] at h; omega
  have n5 : ∀ x y z, ¬ ((b, x, y, z) = (i + m, j + m, k + m, l + m)) := by
    intro x y z h; simp only [Prod.mk.injEq] at h; omega
  have n6 : ∀ x y z, ¬ ((x, b, y, z) = (i + m, j + m, k + m, l + m)) := by
    intro x y z h; simp only [Prod.mk.injEq] at h; omega
  unfold coulombSpinStep
  dsimp only
  constructor
  · rw [Dict.get?_set, if_neg (n3 _ _ _)]
    split
    · split <;> split <;> simp only [Dict.get?_set, n1, n2, if_false]
    · split <;> simp only [Dict.get?_set, n1, n3, if_false]
  · rw [Dict.get?_set]
    refine if_congr Iff.rfl rfl ?_
    split
    · split <;> split <;> simp only [Dict.get?_set, n4, n5, if_false]
    · split <;> simp only [Dict.get?_set, n4, n6, if_false]

/-- C42, `coulomb`: the entries between spin-up orbitals are kept, and those between spin-down
orbitals are the same, for all flags. -/
theorem c42_coulomb_same {m : Nat} {cs : CoulombArg} (hv : cs.Valid) (hermC mLessN : Bool)
    (hr : ∀ k ∈ (makeCoulombDict none hermC mLessN cs).map Prod.fst, UpKey m k)
    (i j k l : Nat) (hi : i < m) (hj : j < m) :
    (makeCoulombDict (some m) hermC mLessN cs).get? (i, j, k, l)
      = (makeCoulombDict none hermC mLessN cs).get? (i, j, k, l) ∧
    (makeCoulombDict (some m) hermC mLessN cs).get? (i + m, j + m, k + m, l + m)
      = (makeCoulombDict none hermC mLessN cs).get? (i, j, k, l) := by
  have hn := coulomb_nodup none hermC mLessN hv
  rw [coulomb_spin_eq]
  generalize makeCoulombDict none hermC mLessN cs = d at hr hn
  have hup : ∀ e ∈ d, UpKey m e.1 := fun e he => hr e.1 (List.mem_map.2 ⟨e, he, rfl⟩)
  constructor
  · have : ∀ (xs : Dict (Nat × Nat × Nat × Nat) ℂ), (∀ e ∈ xs, UpKey m e.1) → ∀ s,
        (xs.foldl (coulombSpinStep m hermC mLessN) s).get? (i, j, k, l) = s.get? (i, j, k, l) := by
      intro xs
      induction xs with
      | nil => intro _ s; rfl
      | cons e xs ih =>
        intro h s
        rw [List.foldl_cons, ih (fun e' he' => h e' (by simp [he'])),
          (step_same s e (h e (by simp)) i j k l hi hj).1]
    exact this d hup d
  · rw [(fold_write (f := fun k => (k.1 + m, k.2.1 + m, k.2.2.1 + m, k.2.2.2 + m)) d
      (fun s e he => (step_same s e (hup e he) i j k l hi hj).2) hn d).1 (i, j, k, l) rfl ?_]
    · rw [show Dict.get? d (i + m, j + m, k + m, l + m) = none from
        Dict.get?_none.2 fun hk => by have := hr _ hk; simp [UpKey] at this]
      exact Option.or_none
    · intro e _ h
      obtain ⟨⟨a, b, c, d⟩, U⟩ := e
      simp only [Prod.mk.injEq, Nat.add_right_cancel_iff] at h ⊢
      exact h

/-- The keys between the species, without `m_less_n` and `herm_c`. -/
theorem step_mixed {m : Nat} (s : Dict (Nat × Nat × Nat × Nat) ℂ) (e)
    (he : UpKey m e.1) (i j k l : Nat) (hi : i < m) (hj : j < m) :
    ((coulombSpinStep m false false s e).get? (i, j + m, k + m, l) =
      if (e.1.1, e.1.2.1 + m, e.1.2.2.1 + m, e.1.2.2.2) = (i, j + m, k + m, l)
      then some e.2 else s.get? (i, j + m, k + m, l)) ∧
    ((coulombSpinStep m false false s e).get? (i + m, j, k, l + m) =
      if (e.1.1 + m, e.1.2.1, e.1.2.2.1, e.1.2.2.2 + m) = (i + m, j, k, l + m)
      then some e.2 else s.get? (i + m, j, k, l + m)) := by
  obtain ⟨⟨a, b, c, d⟩, U⟩ := e
  obtain ⟨h1, h2, h3, h4⟩ := he
  simp only at h1 h2 h3 h4
  unfold coulombSpinStep
  dsimp only
  simp only [true_or, if_true, Bool.false_eq_true, if_false, Dict.get?_set]
  have n1 : ∀ x y z, ¬ ((a + m, x, y, z) = (i, j + m, k + m, l)) := by
    intro x y z h; simp only [Prod.mk.injEq] at h; omega
  have n2 : ∀ x y z, ¬ ((x, b + m, y, z) = (i + m, j, k, l + m)) := by
    intro x y z h; simp only [Prod.mk.injEq] at h; omega
  constructor
  · rw [if_neg (n1 _ _ _), if_neg (n1 _ _ _)]
  · rw [if_neg (n2 _ _ _)]
    refine if_congr Iff.rfl rfl ?_
    rw [if_neg (n2 _ _ _)]

/-- C42, `coulomb` with `m_less_n=False` and `herm_c=False`: the entries (up, down, down, up) and
(down, up, up, down) are both equal to the given ones, so the dictionary does not change when
the species are exchanged. -/
theorem c42_coulomb_plain_partial {m : Nat} {cs : CoulombArg} (hv : cs.Valid)
    (hr : ∀ k ∈ (makeCoulombDict none false false cs).map Prod.fst, UpKey m k)
    (i j k l : Nat) (hi : i < m) (hj : j < m) :
    (makeCoulombDict (some m) false false cs).get? (i, j + m, k + m, l)
      = (makeCoulombDict none false false cs).get? (i, j, k, l) ∧
    (makeCoulombDict (some m) false false cs).get? (i + m, j, k, l + m)
      = (makeCoulombDict none false false cs).get? (i, j, k, l) := by
  have hn := coulomb_nodup none false false hv
  rw [coulomb_spin_eq]
  generalize makeCoulombDict none false false cs = d at hr hn
  have hup : ∀ e ∈ d, UpKey m e.1 := fun e he => hr e.1 (List.mem_map.2 ⟨e, he, rfl⟩)
  constructor
  · rw [(fold_write (f := fun k => (k.1, k.2.1 + m, k.2.2.1 + m, k.2.2.2)) d
      (fun s e he => (step_mixed s e (hup e he) i j k l hi hj).1) hn d).1 (i, j, k, l) rfl ?_]
    · rw [show Dict.get? d (i, j + m, k + m, l) = none from
        Dict.get?_none.2 fun hk => by have := hr _ hk; simp [UpKey] at this]
      exact Option.or_none
    · intro e _ h
      obtain ⟨⟨a, b, c, d⟩, U⟩ := e
      simp only [Prod.mk.injEq, Nat.add_right_cancel_iff] at h ⊢
      exact h
  · rw [(fold_write (f := fun k => (k.1 + m, k.2.1, k.2.2.1, k.2.2.2 + m)) d
      (fun s e he => (step_mixed s e (hup e he) i j k l hi hj).2) hn d).1 (i, j, k, l) rfl ?_]
    · rw [show Dict.get? d (i + m, j, k, l + m) = none from
        Dict.get?_none.2 fun hk => by have := hr _ hk; simp [UpKey] at this]
      exact Option.or_none
    · intro e _ h
      obtain ⟨⟨a, b, c, d⟩, U⟩ := e
      simp only [Prod.mk.injEq, Nat.add_right_cancel_iff] at h ⊢
      exact h

/-- The keys between the species with `m_less_n`. -/
theorem step_less {m : Nat} (s : Dict (Nat × Nat × Nat × Nat) ℂ) (e)
    (he : UpKey m e.1) (i j k l : Nat) (hi : i < m) :
    (coulombSpinStep m false true s e).get? (i, j + m, k + m, l) =
      if e.1 = (j, i, l, k) ∨ e.1 = (i, j, k, l) then some e.2
      else s.get? (i, j + m, k + m, l) := by
  obtain ⟨⟨a, b, c, d⟩, U⟩ := e
  obtain ⟨h1, h2, h3, h4⟩ := he
  simp only at h1 h2 h3 h4
  unfold coulombSpinStep
  dsimp only
  simp only [true_or, if_true, Dict.get?_set]
  have n1 : ∀ x y z, ¬ ((a + m, x, y, z) = (i, j + m, k + m, l)) := by
    intro x y z h; simp only [Prod.mk.injEq] at h; omega
  rw [if_neg (n1 _ _ _)]
  simp only [Prod.mk.injEq, Nat.add_right_cancel_iff]
  by_cases p : b = i ∧ a = j ∧ d = k ∧ c = l
  · rw [if_pos p, if_pos (.inl ⟨p.2.1, p.1, p.2.2.2, p.2.2.1⟩)]
  · rw [if_neg p]
    by_cases q : a = i ∧ b = j ∧ c = k ∧ d = l
    · rw [if_pos q, if_pos (.inr q)]
    · rw [if_neg q, if_neg]
      rintro (⟨h1, h2, h3, h4⟩ | h)
      · exact p ⟨h2, h1, h4, h3⟩
      · exact q h

/-- C42, `coulomb` with `m_less_n=True` and `herm_c=False` (the defaults): the entries
(up, down, down, up) do not change when the species are exchanged and both pairs of operators
are put back in the order up, down, down, up (two exchanges of fermionic operators, no sign). They
are the given ones whenever the pair `(m, n, k, l)`, `(n, m, l, k)` is not given twice. -/
theorem c42_coulomb_less_partial {m : Nat} {cs : CoulombArg} (hv : cs.Valid)
    (hr : ∀ k ∈ (makeCoulombDict none false true cs).map Prod.fst, UpKey m k)
    (i j k l : Nat) (hi : i < m) (hj : j < m) :
    (makeCoulombDict (some m) false true cs).get? (j, i + m, l + m, k)
      = (makeCoulombDict (some m) false true cs).get? (i, j + m, k + m, l) ∧
    (∀ U, (makeCoulombDict none false true cs).get? (i, j, k, l) = some U →
      ((makeCoulombDict none false true cs).get? (j, i, l, k) = none ∨ (j, i, l, k) = (i, j, k, l)) →
      (makeCoulombDict (some m) false true cs).get? (i, j + m, k + m, l) = some U) := by
  have hn := coulomb_nodup none false true hv
  rw [coulomb_spin_eq]
  generalize makeCoulombDict none false true cs = d at hr hn
  have hup : ∀ e ∈ d, UpKey m e.1 := fun e he => hr e.1 (List.mem_map.2 ⟨e, he, rfl⟩)
  have hd0 : ∀ i j k l, Dict.get? d (i, j + m, k + m, l) = none := fun i j k l =>
    Dict.get?_none.2 fun hk => by have := hr _ hk; simp [UpKey] at this
  constructor
  · have : ∀ (xs : Dict (Nat × Nat × Nat × Nat) ℂ), (∀ e ∈ xs, UpKey m e.1) → ∀ s,
        Dict.get? s (j, i + m, l + m, k) = Dict.get? s (i, j + m, k + m, l) →
        (xs.foldl (coulombSpinStep m false true) s).get? (j, i + m, l + m, k) =
          (xs.foldl (coulombSpinStep m false true) s).get? (i, j + m, k + m, l) := by
      intro xs
      induction xs with
      | nil => intro _ s h; exact h
      | cons e xs ih =>
        intro h s hs
        rw [List.foldl_cons]
        refine ih (fun e' he' => h e' (by simp [he'])) _ ?_
        rw [step_less s e (h e (by simp)) j i l k hj, step_less s e (h e (by simp)) i j k l hi, hs]
        exact if_congr or_comm rfl rfl
    exact this d hup d (by rw [hd0, hd0])
  · intro U hU hone
    have hstep : ∀ s, ∀ e ∈ d, (coulombSpinStep m false true s e).get? (i, j + m, k + m, l) =
        if e.1 = (i, j, k, l) then some e.2 else Dict.get? s (i, j + m, k + m, l) := by
      intro s e he
      rw [step_less s e (hup e he) i j k l hi]
      refine if_congr ⟨?_, .inr⟩ rfl rfl
      rintro (h | h)
      · rcases hone with ho | ho
        · exact absurd (List.mem_map.2 ⟨e, he, h⟩) (Dict.get?_none.1 ho)
        · exact h.trans ho
      · exact h
    suffices H : ∀ (xs : Dict (Nat × Nat × Nat × Nat) ℂ) s, (∀ e ∈ xs, e ∈ d) →
        (xs.map Prod.fst).Nodup → (xs.foldl (coulombSpinStep m false true) s).get? (i, j + m, k + m, l)
          = (Dict.get? xs (i, j, k, l)).or (Dict.get? s (i, j + m, k + m, l)) by
      rw [H d d (fun _ h => h) hn, hU]; rfl
    intro xs
    induction xs with
    | nil => intro s _ _; simp [Dict.get?]
    | cons e xs ih =>
      intro s hsub hnd
      rw [List.map_cons, List.nodup_cons] at hnd
      rw [List.foldl_cons, ih _ (fun e' he' => hsub e' (by simp [he'])) hnd.2,
        hstep s e (hsub e (by simp))]
      obtain ⟨k0, v0⟩ := e
      simp only [Dict.get?]
      by_cases h0 : k0 = (i, j, k, l)
      · rw [if_pos h0, if_pos h0, ← h0, Dict.get?_none.2 hnd.1]; rfl
      · rw [if_neg h0, if_neg h0]

theorem set_twice {κ : Type} [DecidableEq κ] (d : Dict κ ℂ) (k : κ) (v : ℂ) : (d.set k v).set k v = d.set k v := by
  induction d with
  | nil => simp [Dict.set]
  | cons e d ih =>
    simp only [Dict.set]
    by_cases h : e.1 = k
    · simp [h, Dict.set]
    · simp [h, Dict.set, ih]

/-- The entry of the Hermitian conjugate, and the same with the operators of both pairs exchanged. -/
def conjKey (k : Nat × Nat × Nat × Nat) : Nat × Nat × Nat × Nat := (k.2.2.2, k.2.2.1, k.2.1, k.1)
def conjSwap (k : Nat × Nat × Nat × Nat) : Nat × Nat × Nat × Nat := (k.2.2.1, k.2.2.2, k.1, k.2.1)

/-- `coulomb` with `herm_c=True`: if no entry is given together with its conjugate (entries that are their own
conjugates are allowed), the result is the same as with `herm_c=False`. -/
theorem coulomb_herm_eq {m : Nat} {cs : CoulombArg} (hv : cs.Valid) (mLessN : Bool)
    (hr : ∀ k ∈ (makeCoulombDict none true mLessN cs).map Prod.fst, UpKey m k)
    (hc : ∀ k ∈ (makeCoulombDict none true mLessN cs).map Prod.fst,
      conjKey k ∈ (makeCoulombDict none true mLessN cs).map Prod.fst → conjKey k = k)
    (hs : mLessN = true → ∀ k ∈ (makeCoulombDict none true mLessN cs).map Prod.fst,
      conjSwap k ∈ (makeCoulombDict none true mLessN cs).map Prod.fst → conjSwap k = k ∧ k.1 = k.2.1) :
    makeCoulombDict (some m) true mLessN cs = makeCoulombDict (some m) false mLessN cs := by
  have hn := coulomb_nodup none true mLessN hv
  rw [coulomb_spin_eq, coulomb_spin_eq]
  have e0 : makeCoulombDict none false mLessN cs = makeCoulombDict none true mLessN cs := by cases cs <;> rfl
  rw [e0]
  generalize makeCoulombDict none true mLessN cs = d at hr hn hc hs
  suffices H : ∀ (ys xs : Dict (Nat × Nat × Nat × Nat) ℂ) (s : Dict (Nat × Nat × Nat × Nat) ℂ), d = ys ++ xs →
      (∀ a b c e, b < m → c < m → s.get? (a, b + m, c + m, e) ≠ none → a < m → e < m →
        (a, b, c, e) ∈ ys.map Prod.fst ∨ mLessN = true ∧ (b, a, e, c) ∈ ys.map Prod.fst) →
      xs.foldl (coulombSpinStep m true mLessN) s = xs.foldl (coulombSpinStep m false mLessN) s by
    refine H [] d d rfl ?_
    intro a b c e _ _ h _ _
    refine absurd (Dict.get?_none.2 fun hk => ?_) h
    have := (hr _ hk).2.1
    simp at this
  intro ys xs
  induction xs generalizing ys with
  | nil => intro s _ _; rfl
  | cons e xs ih =>
    intro s hd hinv
    have hek : e.1 ∈ d.map Prod.fst := by rw [hd]; simp
    have hup := hr _ hek
    have hys : ∀ k ∈ ys.map Prod.fst, k ∈ d.map Prod.fst := by
      intro k hk
      rw [hd, List.map_append]
      exact List.mem_append_left _ hk
    have hne : e.1 ∉ ys.map Prod.fst := by
      intro h
      rw [hd, List.map_append] at hn
      exact (List.nodup_append.1 hn).2.2 _ h _ (by simp) rfl
    obtain ⟨⟨a, b, c, f⟩, U⟩ := e
    simp only [UpKey] at hup hek hne
    obtain ⟨u1, u2, u3, u4⟩ := hup
    have p1 : s.get? (f, c + m, b + m, a) = none := by
      by_contra h
      rcases hinv _ _ _ _ u3 u2 h u4 u1 with h | ⟨hm, h⟩
      · have := hc _ hek (hys _ h)
        simp only [conjKey, Prod.mk.injEq] at this
        obtain ⟨rfl, rfl, -, -⟩ := this
        exact hne h
      · have := (hs hm _ hek (hys _ h)).1
        simp only [conjSwap, Prod.mk.injEq] at this
        obtain ⟨rfl, rfl, -, -⟩ := this
        exact hne h
    have estep : coulombSpinStep m true mLessN s ((a, b, c, f), U) = coulombSpinStep m false mLessN s ((a, b, c, f), U) := by
      unfold coulombSpinStep
      dsimp only
      simp only [p1, or_true, true_or, if_true]
      cases mLessN with
      | false => rfl
      | true =>
        simp only [if_true]
        by_cases p2 : Dict.get? (s.set (a, b + m, c + m, f) U) (c, f + m, a + m, b) = none
        · rw [if_pos (.inr p2)]
        · rw [if_neg (by simpa using p2)]
          rw [Dict.get?_set] at p2
          have key : a = b ∧ c = f ∧ a = c := by
            by_cases q : (a, b + m, c + m, f) = (c, f + m, a + m, b)
            · simp only [Prod.mk.injEq, Nat.add_right_cancel_iff] at q
              have hk : conjSwap (a, b, c, f) ∈ d.map Prod.fst := by
                have : conjSwap (a, b, c, f) = (a, b, c, f) := by
                  simp only [conjSwap, Prod.mk.injEq]
                  exact ⟨q.1.symm, q.2.2.2, q.1, q.2.2.2.symm⟩
                rw [this]
                exact hek
              have := (hs rfl _ hek hk).2
              simp only at this
              omega
            · rw [if_neg q] at p2
              rcases hinv _ _ _ _ u4 u1 p2 u3 u2 with h | ⟨hm, h⟩
              · have := (hs rfl _ hek (hys _ h)).1
                simp only [conjSwap, Prod.mk.injEq] at this
                obtain ⟨rfl, rfl, -, -⟩ := this
                exact absurd h hne
              · have := hc _ hek (hys _ h)
                simp only [conjKey, Prod.mk.injEq] at this
                obtain ⟨rfl, rfl, -, -⟩ := this
                exact absurd h hne
          obtain ⟨rfl, rfl, rfl⟩ := key
          rw [set_twice]
    rw [List.foldl_cons, List.foldl_cons, estep]
    refine ih (ys ++ [((a, b, c, f), U)]) _ (by rw [hd]; simp) ?_
    intro a' b' c' f' hb' hc' h ha' hf'
    rw [List.map_append, List.mem_append, List.mem_append]
    have hold : s.get? (a', b' + m, c' + m, f') ≠ none →
        ((a', b', c', f') ∈ ys.map Prod.fst ∨ (a', b', c', f') ∈ [((a, b, c, f), U)].map Prod.fst) ∨
        mLessN = true ∧ ((b', a', f', c') ∈ ys.map Prod.fst ∨ (b', a', f', c') ∈ [((a, b, c, f), U)].map Prod.fst) := by
      intro h
      rcases hinv _ _ _ _ hb' hc' h ha' hf' with h | ⟨hm, h⟩
      · exact .inl (.inl h)
      · exact .inr ⟨hm, .inl h⟩
    unfold coulombSpinStep at h
    dsimp only at h
    simp only [true_or, if_true] at h
    rw [Dict.get?_set, if_neg (by simp only [Prod.mk.injEq]; omega)] at h
    cases mLessN with
    | false =>
      simp only [Bool.false_eq_true, if_false] at h
      rw [Dict.get?_set, if_neg (by simp only [Prod.mk.injEq]; omega), Dict.get?_set] at h
      by_cases q : (a, b + m, c + m, f) = (a', b' + m, c' + m, f')
      · simp only [Prod.mk.injEq, Nat.add_right_cancel_iff] at q
        obtain ⟨rfl, rfl, rfl, rfl⟩ := q
        exact .inl (.inr (by simp))
      · rw [if_neg q] at h
        exact hold h
    | true =>
      simp only [if_true] at h
      rw [Dict.get?_set] at h
      by_cases q' : (b, a + m, f + m, c) = (a', b' + m, c' + m, f')
      · simp only [Prod.mk.injEq, Nat.add_right_cancel_iff] at q'
        obtain ⟨rfl, rfl, rfl, rfl⟩ := q'
        exact .inr ⟨rfl, .inr (by simp)⟩
      rw [if_neg q', Dict.get?_set] at h
      by_cases q : (a, b + m, c + m, f) = (a', b' + m, c' + m, f')
      · simp only [Prod.mk.injEq, Nat.add_right_cancel_iff] at q
        obtain ⟨rfl, rfl, rfl, rfl⟩ := q
        exact .inl (.inr (by simp))
      · rw [if_neg q] at h
        exact hold h

/-- C42, `coulomb` with `herm_c=True` and `m_less_n=False`: as `c42_coulomb_plain_partial`, if no entry is given
together with its conjugate. -/
theorem c42_coulomb_herm_plain_partial {m : Nat} {cs : CoulombArg} (hv : cs.Valid)
    (hr : ∀ k ∈ (makeCoulombDict none true false cs).map Prod.fst, UpKey m k)
    (hc : ∀ k ∈ (makeCoulombDict none true false cs).map Prod.fst,
      conjKey k ∈ (makeCoulombDict none true false cs).map Prod.fst → conjKey k = k)
    (i j k l : Nat) (hi : i < m) (hj : j < m) :
    (makeCoulombDict (some m) true false cs).get? (i, j + m, k + m, l)
      = (makeCoulombDict none true false cs).get? (i, j, k, l) ∧
    (makeCoulombDict (some m) true false cs).get? (i + m, j, k, l + m)
      = (makeCoulombDict none true false cs).get? (i, j, k, l) := by
  rw [coulomb_herm_eq hv false hr hc (by simp)]
  have e0 : makeCoulombDict none true false cs = makeCoulombDict none false false cs := by cases cs <;> rfl
  rw [e0] at hr ⊢
  exact c42_coulomb_plain_partial hv hr i j k l hi hj

/-- C42, `coulomb` with `herm_c=True` and `m_less_n=True`: as `c42_coulomb_less_partial`, if no entry is given together
with its conjugate in either order of the operators, and no entry `(m, n, m, n)` with `m ≠ n`. -/
theorem c42_coulomb_herm_less_partial {m : Nat} {cs : CoulombArg} (hv : cs.Valid)
    (hr : ∀ k ∈ (makeCoulombDict none true true cs).map Prod.fst, UpKey m k)
    (hc : ∀ k ∈ (makeCoulombDict none true true cs).map Prod.fst,
      conjKey k ∈ (makeCoulombDict none true true cs).map Prod.fst → conjKey k = k)
    (hs : ∀ k ∈ (makeCoulombDict none true true cs).map Prod.fst,
      conjSwap k ∈ (makeCoulombDict none true true cs).map Prod.fst → conjSwap k = k ∧ k.1 = k.2.1)
    (i j k l : Nat) (hi : i < m) (hj : j < m) :
    (makeCoulombDict (some m) true true cs).get? (j, i + m, l + m, k)
      = (makeCoulombDict (some m) true true cs).get? (i, j + m, k + m, l) ∧
    (∀ U, (makeCoulombDict none true true cs).get? (i, j, k, l) = some U →
      ((makeCoulombDict none true true cs).get? (j, i, l, k) = none ∨ (j, i, l, k) = (i, j, k, l)) →
      (makeCoulombDict (some m) true true cs).get? (i, j + m, k + m, l) = some U) := by
  rw [coulomb_herm_eq hv true hr hc (fun _ => hs)]
  have e0 : makeCoulombDict none true true cs = makeCoulombDict none false true cs := by cases cs <;> rfl
  rw [e0] at hr ⊢
  exact c42_coulomb_less_partial hv hr i j k l hi hj

/-- Two orbitals with intra- and inter-orbital repulsion meet the hypotheses. -/
example : let ks := (makeCoulombDict none true true (.list [((0, 1, 1, 0), 2), ((0, 0, 0, 0), 3)])).map Prod.fst
    (∀ k ∈ ks, UpKey 2 k) ∧ (∀ k ∈ ks, conjKey k ∈ ks → conjKey k = k) ∧
      ∀ k ∈ ks, conjSwap k ∈ ks → conjSwap k = k ∧ k.1 = k.2.1 := by
  simp [makeCoulombDict, Dict.set, UpKey, conjKey, conjSwap]

/-- With `herm_c=True` and `m_less_n=False` the result is not invariant when an entry and its
conjugate are both given: (up, down, down, up) is written for one of them only. -/
theorem c42_coulomb_herm_false : ∃ d : Dict (Nat × Nat × Nat × Nat) ℂ,
    (∀ k ∈ d.map Prod.fst, UpKey 4 k) ∧
    (makeCoulombDict (some 4) true false (.dict d)).get? (3 + 4, 2, 1, 0 + 4) ≠
      (makeCoulombDict (some 4) true false (.dict d)).get? (3, 2 + 4, 1 + 4, 0) := by
  refine ⟨[((0, 1, 2, 3), 1), ((3, 2, 1, 0), 1)], by simp [UpKey], ?_⟩
  simp [makeCoulombDict, coulombSpinStep, Dict.get?, Dict.set]

/-- Entries given for two spin-up orbitals. -/
example : ∀ k ∈ (makeCoulombDict none false true (.list [((0, 1, 1, 0), 2), ((0, 0, 0, 0), 3)])).map
    Prod.fst, UpKey 2 k := by
  simp [makeCoulombDict, Dict.set, UpKey]

example : ∀ k ∈ (makeHsingleDict none true (.list [((0, 1), 2), ((1, 1), 3)]) false).map
    Prod.fst, k.1 < 2 ∧ k.2 < 2 := by
  simp [makeHsingleDict, rowsDict, Dict.set]

end Verif
