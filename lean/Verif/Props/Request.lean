import Verif.Spec.Request
import Verif.Props.Spin

/-! C51: `add` and `change` of parameters, for all kinds of arguments. -/

namespace Verif

noncomputable section

section
variable {κ : Type} [DecidableEq κ]

theorem find_none_snd {rows : List (κ × ℂ)} {k : κ} (h : ∀ e ∈ rows, e.1 ≠ k) :
    rows.reverse.find? (fun e => e.1 = k) = none := by
  rw [List.find?_eq_none]
  intro e he
  simpa using h e (List.mem_reverse.1 he)

theorem rowsDict_get (rows : List (κ × ℂ)) (k : κ) :
    (rowsDict rows).get? k = (rows.reverse.find? fun e => e.1 = k).map Prod.snd := by
  suffices h : ∀ d : Dict κ ℂ, (rows.foldl (fun d e => d.set e.1 e.2) d).get? k =
      ((rows.reverse.find? fun e => e.1 = k).map Prod.snd).or (d.get? k) by
    rw [rowsDict, h]
    exact Option.or_none
  induction rows with
  | nil => intro d; rfl
  | cons e rows ih =>
    intro d
    rw [List.foldl_cons, ih, List.reverse_cons, List.find?_append, Dict.get?_set]
    cases h : rows.reverse.find? fun e => decide (e.1 = k) with
    | some x => rfl
    | none =>
      by_cases he : e.1 = k
      · simp [he]
      · simp [he]

theorem arrayDict_get (keys : List κ) (val : κ → ℂ) (z : Bool) (k : κ) (hk : k ∈ keys) :
    ((arrayDict keys val z).get? k).getD 0 = val k ∧ (z = true → (arrayDict keys val z).get? k = some (val k)) := by
  classical
  suffices h : ∀ (keys : List κ) (d : Dict κ ℂ), (k ∈ keys ∨ (d.get? k).getD 0 = val k ∧ (z = true → d.get? k = some (val k))) →
      (k ∉ keys ∨ d.get? k = none ∨ d.get? k = some (val k)) →
      ((keys.foldl (fun d k => if val k ≠ 0 ∨ z = true then d.set k (val k) else d) d).get? k).getD 0 = val k ∧
      (z = true → (keys.foldl (fun d k => if val k ≠ 0 ∨ z = true then d.set k (val k) else d) d).get? k = some (val k)) by
    have := h keys [] (.inl hk) (.inr (.inl rfl))
    unfold arrayDict
    convert this using 10
  intro keys
  induction keys with
  | nil =>
    intro d h _
    simpa using h
  | cons x keys ih =>
    intro d h h'
    rw [List.foldl_cons]
    by_cases hx : x = k
    · subst hx
      have hd : Dict.get? d x = none ∨ Dict.get? d x = some (val x) := by
        rcases h' with h' | h'
        · exact absurd (by simp) h'
        · exact h'
      by_cases hv : val x ≠ 0 ∨ z = true
      · rw [if_pos hv]
        exact ih _ (.inr ⟨by simp, by simp⟩) (.inr (.inr (by simp)))
      · rw [if_neg hv]
        push Not at hv
        refine ih _ (.inr ⟨?_, fun hz => absurd hz hv.2⟩) (.inr hd)
        rcases hd with hd | hd <;> simp [hd, hv.1]
    · have e : ∀ d' : Dict κ ℂ, d' = (if val x ≠ 0 ∨ z = true then d.set x (val x) else d) → d'.get? k = d.get? k := by
        rintro d' rfl
        split
        · exact Dict.get?_set_ne _ hx _
        · rfl
      have e := e _ rfl
      refine ih _ ?_ ?_
      · rcases h with h | h
        · rcases List.mem_cons.1 h with h | h
          · exact absurd h.symm hx
          · exact .inl h
        · right
          rw [e]
          exact h
      · rcases h' with h' | h'
        · exact .inl fun hk => h' (List.mem_cons_of_mem _ hk)
        · right
          rw [e]
          exact h'

theorem arrayDict_out (keys : List κ) (val : κ → ℂ) (z : Bool) (k : κ) (hk : k ∉ keys) :
    (arrayDict keys val z).get? k = none := by
  classical
  unfold arrayDict
  suffices h : ∀ (keys : List κ) (d : Dict κ ℂ), k ∉ keys → d.get? k = none →
      (keys.foldl (fun d k => if val k ≠ 0 ∨ z = true then d.set k (val k) else d) d).get? k = none by
    convert h keys [] hk rfl using 5
  intro keys
  induction keys with
  | nil => intro d _ h; exact h
  | cons x keys ih =>
    intro d hk h
    rw [List.mem_cons, not_or] at hk
    rw [List.foldl_cons]
    refine ih _ hk.2 ?_
    split
    · rw [Dict.get?_set_ne _ (Ne.symm hk.1), h]
    · exact h

/-- The dictionary `d` made of an argument that asks for `f`; zeros of arrays are in it only with `add_zeros`. -/
structure Meets (z : Bool) (d : Dict κ ℂ) (f : κ → Option ℂ) : Prop where
  nodup : (d.map Prod.fst).Nodup
  value : ∀ k, (d.get? k).getD 0 = (f k).getD 0
  all : z = true → ∀ k, d.get? k = f k
  only : ∀ k, f k = none → d.get? k = none

theorem Meets.of_eq {z : Bool} {d : Dict κ ℂ} {f : κ → Option ℂ} (hn : (d.map Prod.fst).Nodup) (h : ∀ k, d.get? k = f k) :
    Meets z d f := ⟨hn, fun k => by rw [h], fun _ => h, fun k hk => by rw [h, hk]⟩

theorem Meets.array {z : Bool} (inArray : List Nat → κ → Prop) (keys : List Nat → List κ)
    (hk : ∀ shape k, k ∈ keys shape ↔ inArray shape k) (shape : List Nat) (val : κ → ℂ) :
    Meets z (arrayDict (keys shape) val z) ((Param.array shape val).asks inArray) := by
  classical
  refine ⟨arrayDict_nodup _ _ _, ?_, ?_, ?_⟩
  · intro k
    by_cases h : inArray shape k
    · rw [Param.asks, if_pos h, (arrayDict_get _ _ _ _ ((hk shape k).2 h)).1]
      rfl
    · rw [Param.asks, if_neg h, arrayDict_out _ _ _ _ fun h' => h ((hk shape k).1 h')]
  · intro hz k
    by_cases h : inArray shape k
    · rw [Param.asks, if_pos h, (arrayDict_get _ _ _ _ ((hk shape k).2 h)).2 hz]
    · rw [Param.asks, if_neg h, arrayDict_out _ _ _ _ fun h' => h ((hk shape k).1 h')]
  · intro k h
    refine arrayDict_out _ _ _ _ fun h' => ?_
    rw [Param.asks, if_pos ((hk shape k).1 h')] at h
    exact absurd h (by simp)

theorem Meets.add {d new : Dict κ ℂ} {f : κ → Option ℂ} {z : Bool} (h : Meets z new f) (k : κ) :
    valueAt (dictAdd d new) k = valueAt d k + (f k).getD 0 := by
  unfold valueAt
  rw [dictAdd_get _ _ h.nodup, h.value]

theorem Meets.change {d new : Dict κ ℂ} {f : κ → Option ℂ} (h : Meets true new f) (k : κ) :
    valueAt (dictChange d new).1 k = (f k).getD (valueAt d k) := by
  unfold valueAt
  rw [dictChange_value _ _ h.nodup, h.all rfl]

end

theorem Meets.spin {z : Bool} {d : Dict (Nat × Nat) ℂ} {f : Nat × Nat → Option ℂ} (h : Meets z d f) {a b : Nat}
    (hf : ∀ k, f k ≠ none → k.1 < a ∧ k.2 < b) : Meets z (spinDict (fun k => (k.1 + a, k.2 + b)) d) (bothSpins a b f) := by
  have hr : ∀ k ∈ d.map Prod.fst, k.1 < a ∧ k.2 < b := by
    intro k hk
    refine hf k fun h0 => ?_
    exact Dict.get?_none.1 (h.only k h0) hk
  have hnone : ∀ k : Nat × Nat, ¬ (k.1 < a ∧ k.2 < b) → d.get? k = none := fun k hk =>
    Dict.get?_none.2 fun hm => hk (hr _ hm)
  have hget : ∀ k, (spinDict (fun k => (k.1 + a, k.2 + b)) d).get? k = bothSpins a b d.get? k := by
    intro k
    obtain ⟨i, j⟩ := k
    rcases Nat.eq_zero_or_pos b with rfl | hb
    · have hd : d = [] := by
        cases d with
        | nil => rfl
        | cons e d => exact absurd (hr e.1 (by simp)).2 (by omega)
      subst hd
      unfold bothSpins
      split
      · rfl
      · split <;> rfl
    obtain ⟨h1, h2, h3⟩ := pair_spin h.nodup hr hb
    unfold bothSpins
    dsimp only
    by_cases c1 : i < a ∧ j < b
    · rw [if_pos c1, h1 i j c1.2]
    · rw [if_neg c1]
      by_cases c2 : a ≤ i ∧ b ≤ j
      · rw [if_pos c2]
        have := h2 (i - a) (j - b)
        rw [Nat.sub_add_cancel c2.1, Nat.sub_add_cancel c2.2] at this
        exact this
      · rw [if_neg c2]
        by_cases cj : j < b
        · rw [h1 i j cj, hnone _ c1]
        · have := h3 i (j - b) (by omega)
          rw [Nat.sub_add_cancel (by omega)] at this
          exact this
  have hcases : ∀ k, (∃ k', ∀ g : Nat × Nat → Option ℂ, bothSpins a b g k = g k') ∨ ∀ g, bothSpins a b g k = none := by
    intro k
    by_cases c1 : k.1 < a ∧ k.2 < b
    · exact .inl ⟨k, fun g => if_pos c1⟩
    · by_cases c2 : a ≤ k.1 ∧ b ≤ k.2
      · exact .inl ⟨_, fun g => (if_neg c1).trans (if_pos c2)⟩
      · exact .inr fun g => (if_neg c1).trans (if_neg c2)
  refine ⟨spinDict_nodup _ _ h.nodup, ?_, ?_, ?_⟩
  · intro k
    rw [hget]
    rcases hcases k with ⟨k', hk⟩ | hk
    · rw [hk, hk, h.value]
    · rw [hk, hk]
  · intro hz k
    rw [hget]
    rcases hcases k with ⟨k', hk⟩ | hk
    · rw [hk, hk, h.all hz]
    · rw [hk, hk]
  · intro k h0
    rw [hget]
    rcases hcases k with ⟨k', hk⟩ | hk
    · rw [hk] at h0 ⊢
      exact h.only _ h0
    · rw [hk]

theorem mem_hsingleKeys (herm : Bool) (shape : List Nat) (k : Nat × Nat) :
    k ∈ hsingleKeys herm shape ↔ inSquare herm shape k := by
  obtain ⟨i, j⟩ := k
  cases shape with
  | nil => simp [hsingleKeys, inSquare]
  | cons n shape =>
    simp only [hsingleKeys, inSquare, List.mem_flatMap, List.mem_map, List.mem_filter, List.mem_range, List.headD_cons,
      Prod.mk.injEq, decide_eq_true_eq]
    constructor
    · rintro ⟨j1, h1, j2, ⟨h2, h3⟩, rfl, rfl⟩
      refine ⟨h1, h2, fun h => ?_⟩
      rw [if_pos h] at h3
      exact h3
    · rintro ⟨h1, h2, h3⟩
      refine ⟨i, h1, j, ⟨h2, ?_⟩, rfl, rfl⟩
      split
      · rename_i h
        exact h3 h
      · omega

theorem mem_pairKeys (shape : List Nat) (k : Nat × Nat) : k ∈ pairKeys shape ↔ inPairs shape k := by
  obtain ⟨i, j⟩ := k
  match shape with
  | [] => simp [pairKeys, inPairs]
  | [a] => simp [pairKeys, inPairs]
  | a :: b :: _ => simp [pairKeys, inPairs]

theorem mem_tripleKeys (shape : List Nat) (k : Nat × Nat × Nat) : k ∈ tripleKeys shape ↔ inTriples shape k := by
  obtain ⟨i, j, l⟩ := k
  match shape with
  | [] => simp [tripleKeys, inTriples]
  | [a] => simp [tripleKeys, inTriples]
  | [a, b] => simp [tripleKeys, inTriples]
  | a :: b :: c :: _ => simp [tripleKeys, inTriples]

/-- What is asked for with `hsingle`. -/
theorem hsingle_meets (nss : Option Nat) (herm z : Bool) {hs : Param (Nat × Nat)} (hv : hs.Valid)
    (hf : FirstSpin (nss.map fun m => (m, m)) (hs.asks (inSquare herm))) :
    Meets z (makeHsingleDict nss herm hs z) (requested (nss.map fun m => (m, m)) (hs.asks (inSquare herm))) := by
  have h0 : Meets z (makeHsingleDict none herm hs z) (hs.asks (inSquare herm)) := by
    cases hs with
    | dict d => exact .of_eq hv fun _ => rfl
    | list rows => exact .of_eq (rowsDict_nodup rows) fun k => rowsDict_get rows k
    | array shape val => exact .array _ (hsingleKeys herm) (mem_hsingleKeys herm) shape val
    | other => exact .of_eq (by simp [makeHsingleDict]) fun _ => rfl
  cases nss with
  | none => exact h0
  | some m =>
    have e : makeHsingleDict (some m) herm hs z =
        spinDict (fun k => (k.1 + m, k.2 + m)) (makeHsingleDict none herm hs z) := by
      cases hs <;> rfl
    rw [e]
    exact h0.spin (hf m m rfl)

/-- What is asked for with `tleads`. -/
theorem tleads_meets (sym : Option (Nat × Nat)) (z : Bool) {ts : Param (Nat × Nat)} (hv : ts.Valid)
    (hf : FirstSpin sym (ts.asks inPairs)) :
    Meets z (makeTleadsDict sym ts z) (requested sym (ts.asks inPairs)) := by
  have h0 : Meets z (makeTleadsDict none ts z) (ts.asks inPairs) := by
    cases ts with
    | dict d => exact .of_eq hv fun _ => rfl
    | list rows => exact .of_eq (rowsDict_nodup rows) fun k => rowsDict_get rows k
    | array shape val => exact .array _ pairKeys mem_pairKeys shape val
    | other => exact .of_eq (by simp [makeTleadsDict]) fun _ => rfl
  cases sym with
  | none => exact h0
  | some m =>
    have e : makeTleadsDict (some m) ts z =
        spinDict (fun k => (k.1 + m.1, k.2 + m.2)) (makeTleadsDict none ts z) := by
      cases ts <;> rfl
    rw [e]
    exact h0.spin (hf m.1 m.2 rfl)

/-- What is asked for with `velph`. -/
theorem velph_meets (nss : Option Nat) (z : Bool) {vs : Param (Nat × Nat × Nat)} (hv : vs.Valid)
    (hf : ∀ l, FirstSpin (nss.map fun m => (m, m)) fun p => vs.asks inTriples (l, p)) :
    Meets z (makeVelphDict nss vs z) (requested3 nss (vs.asks inTriples)) := by
  have h0 : Meets z (makeVelphDict none vs z) (vs.asks inTriples) := by
    cases vs with
    | dict d => exact .of_eq hv fun _ => rfl
    | list rows => exact .of_eq (rowsDict_nodup rows) fun k => rowsDict_get rows k
    | array shape val => exact .array _ tripleKeys mem_tripleKeys shape val
    | other => exact .of_eq (by simp [makeVelphDict]) fun _ => rfl
  cases nss with
  | none => exact h0
  | some m =>
    have e : makeVelphDict (some m) vs z =
        spinDict (fun k => (k.1, k.2.1 + m, k.2.2 + m)) (makeVelphDict none vs z) := by
      cases vs <;> rfl
    rw [e]
    generalize makeVelphDict none vs z = d at h0
    generalize vs.asks inTriples = f at h0 hf
    have hr : ∀ k ∈ d.map Prod.fst, k.2.1 < m ∧ k.2.2 < m := by
      intro k hk
      refine hf k.1 m m rfl k.2 fun h => ?_
      exact Dict.get?_none.1 (h0.only k h) hk
    have hnone : ∀ k : Nat × Nat × Nat, ¬ (k.2.1 < m ∧ k.2.2 < m) → d.get? k = none := fun k hk =>
      Dict.get?_none.2 fun hm => hk (hr _ hm)
    have hget : ∀ k, (spinDict (fun k => (k.1, k.2.1 + m, k.2.2 + m)) d).get? k =
        bothSpins m m (fun p => d.get? (k.1, p)) k.2 := by
      rintro ⟨l, i, j⟩
      unfold bothSpins
      dsimp only
      by_cases c2 : m ≤ i ∧ m ≤ j
      · by_cases c1 : i < m ∧ j < m
        · omega
        rw [if_neg c1, if_pos c2, (spin_get h0.nodup (l, i, j)).1 (l, i - m, j - m)
          (by rw [Nat.sub_add_cancel c2.1, Nat.sub_add_cancel c2.2]) ?_, hnone (l, i, j) c1, Option.or_none]
        rintro ⟨⟨x, y, w⟩, _⟩ _ h
        simp only [Prod.mk.injEq] at h ⊢
        omega
      · rw [(spin_get h0.nodup (l, i, j)).2 ?_]
        · by_cases c1 : i < m ∧ j < m
          · rw [if_pos c1]
          · rw [if_neg c1, if_neg c2, hnone (l, i, j) c1]
        · rintro ⟨⟨x, y, w⟩, _⟩ _ h
          simp only [Prod.mk.injEq] at h
          omega
    have hcases : ∀ k : Nat × Nat × Nat, (∃ k', ∀ g : Nat × Nat × Nat → Option ℂ, bothSpins m m (fun p => g (k.1, p)) k.2 = g k') ∨
        ∀ g : Nat × Nat × Nat → Option ℂ, bothSpins m m (fun p => g (k.1, p)) k.2 = none := by
      intro k
      by_cases c1 : k.2.1 < m ∧ k.2.2 < m
      · exact .inl ⟨k, fun g => if_pos c1⟩
      · by_cases c2 : m ≤ k.2.1 ∧ m ≤ k.2.2
        · exact .inl ⟨_, fun g => (if_neg c1).trans (if_pos c2)⟩
        · exact .inr fun g => (if_neg c1).trans (if_neg c2)
    refine ⟨spinDict_nodup _ _ h0.nodup, ?_, ?_, ?_⟩
    · intro k
      rw [hget]
      show _ = (bothSpins m m (fun p => f (k.1, p)) k.2).getD 0
      rcases hcases k with ⟨k', hk⟩ | hk
      · rw [hk, hk, h0.value]
      · rw [hk, hk]
    · intro hz k
      rw [hget]
      show _ = bothSpins m m (fun p => f (k.1, p)) k.2
      rcases hcases k with ⟨k', hk⟩ | hk
      · rw [hk, hk, h0.all hz]
      · rw [hk, hk]
    · intro k hk0
      rw [hget]
      change bothSpins m m (fun p => f (k.1, p)) k.2 = none at hk0
      rcases hcases k with ⟨k', hk⟩ | hk
      · rw [hk] at hk0 ⊢
        exact h0.only _ hk0
      · rw [hk]

/-- **C51**, `hsingle`: with any kind of argument, with and without the symmetry 'spin', a new dot has the requested values,
`add` adds them to the stored ones, and `change` sets them and leaves all others. -/
theorem c51_hsingle {hs : Param (Nat × Nat)} {cs : CoulombArg} (hv : hs.Valid) :
    (∀ {si nss hermHs hermC mLessN hamSsqQ qd}, FirstSpin (nss.map fun m => (m, m)) (hs.asks (inSquare hermHs)) →
      QD.init si nss hermHs hermC mLessN hamSsqQ hs cs = .ok qd →
      ∀ k, valueAt qd.hsingle k = (requested (nss.map fun m => (m, m)) (hs.asks (inSquare hermHs)) k).getD 0) ∧
    ∀ {qd qd' : QD}, FirstSpin (qd.nss.map fun m => (m, m)) (hs.asks (inSquare qd.hermHs)) →
      (qd.add hs cs = .ok qd' → ∀ k, valueAt qd'.hsingle k =
        valueAt qd.hsingle k + (requested (qd.nss.map fun m => (m, m)) (hs.asks (inSquare qd.hermHs)) k).getD 0) ∧
      (qd.change hs cs = .ok qd' → ∀ k, valueAt qd'.hsingle k =
        (requested (qd.nss.map fun m => (m, m)) (hs.asks (inSquare qd.hermHs)) k).getD (valueAt qd.hsingle k)) := by
  refine ⟨?_, fun hf => ⟨?_, ?_⟩⟩
  · intro si nss hermHs hermC mLessN hamSsqQ qd hf h k
    rw [(addHam_params h).1]
    exact (hsingle_meets nss hermHs false hv hf).value k
  · intro h k
    rw [(addHam_params h).1]
    exact (hsingle_meets _ _ false hv hf).add k
  · intro h k
    rw [(addHam_params h).1]
    exact (hsingle_meets _ _ true hv hf).change k

/-- **C51**, `tleads`, likewise. -/
theorem c51_tleads {ts : Param (Nat × Nat)} (hv : ts.Valid) :
    (∀ {si nleads sym l}, FirstSpin sym (ts.asks inPairs) → LeadsTun.init si nleads sym ts = .ok l →
      ∀ k, valueAt l.tleads k = (requested sym (ts.asks inPairs) k).getD 0) ∧
    ∀ {l l' : LeadsTun}, FirstSpin l.sym (ts.asks inPairs) →
      (l.add ts = .ok l' → ∀ k, valueAt l'.tleads k = valueAt l.tleads k + (requested l.sym (ts.asks inPairs) k).getD 0) ∧
      (l.change ts = .ok l' → ∀ k, valueAt l'.tleads k = (requested l.sym (ts.asks inPairs) k).getD (valueAt l.tleads k)) := by
  refine ⟨?_, fun hf => ⟨?_, ?_⟩⟩
  · intro si nleads sym l hf h k
    obtain ⟨_, -, h⟩ := bind_iff.1 h
    obtain ⟨_, -, h⟩ := bind_iff.1 h
    cases h
    exact (tleads_meets sym false hv hf).value k
  · intro h k
    obtain ⟨_, -, h⟩ := bind_iff.1 h
    obtain ⟨_, -, h⟩ := bind_iff.1 h
    cases h
    exact (tleads_meets _ false hv hf).add k
  · intro h k
    obtain ⟨_, -, h⟩ := bind_iff.1 h
    cases h
    exact (tleads_meets _ true hv hf).change k

/-- **C51**, `velph`, likewise. -/
theorem c51_velph {vs : Param (Nat × Nat × Nat)} (hv : vs.Valid) :
    (∀ {si nbaths nss b}, (∀ l, FirstSpin (nss.map fun m => (m, m)) fun p => vs.asks inTriples (l, p)) →
      Baths.init si nbaths nss vs = .ok b → ∀ k, valueAt b.velph k = (requested3 nss (vs.asks inTriples) k).getD 0) ∧
    ∀ {b b' : Baths}, (∀ l, FirstSpin (b.nss.map fun m => (m, m)) fun p => vs.asks inTriples (l, p)) →
      (b.add vs = .ok b' → ∀ k, valueAt b'.velph k = valueAt b.velph k + (requested3 b.nss (vs.asks inTriples) k).getD 0) ∧
      (b.change vs = .ok b' → ∀ k, valueAt b'.velph k = (requested3 b.nss (vs.asks inTriples) k).getD (valueAt b.velph k)) := by
  refine ⟨?_, fun hf => ⟨?_, ?_⟩⟩
  · intro si nbaths nss b hf h k
    obtain ⟨_, -, h⟩ := bind_iff.1 h
    cases h
    exact (velph_meets nss false hv hf).value k
  · intro h k
    obtain ⟨_, -, h⟩ := bind_iff.1 h
    cases h
    exact (velph_meets _ false hv hf).add k
  · intro h k
    obtain ⟨_, -, h⟩ := bind_iff.1 h
    cases h
    exact (velph_meets _ true hv hf).change k

theorem coulomb_meets (hermC mLessN : Bool) {cs : CoulombArg} (hv : cs.Valid) (hz : cs.NoZeros) :
    Meets true (makeCoulombDict none hermC mLessN cs) cs.asks := by
  refine .of_eq (coulomb_nodup none hermC mLessN hv) fun k => ?_
  cases cs with
  | dict d => rfl
  | other => rfl
  | list rows =>
    show Dict.get? (rows.foldl _ []) k = _
    rw [CoulombArg.asks, ← rowsDict_get, rowsDict]
    congr 1
    refine List.foldl_ext _ _ _ fun d e he => ?_
    rw [if_pos (hz e he)]

/-- **C51**, `coulomb` without the symmetry 'spin' and without zeros in a list; for those see `c51_coulomb_list_zero`. -/
theorem c51_coulomb {hs : Param (Nat × Nat)} {cs : CoulombArg} (hv : cs.Valid) (hz : cs.NoZeros) :
    (∀ {si hermHs hermC mLessN hamSsqQ qd}, QD.init si none hermHs hermC mLessN hamSsqQ hs cs = .ok qd →
      ∀ k, valueAt qd.coulomb k = (cs.asks k).getD 0) ∧
    ∀ {qd qd' : QD}, qd.nss = none →
      (qd.add hs cs = .ok qd' → ∀ k, valueAt qd'.coulomb k = valueAt qd.coulomb k + (cs.asks k).getD 0) ∧
      (qd.change hs cs = .ok qd' → ∀ k, valueAt qd'.coulomb k = (cs.asks k).getD (valueAt qd.coulomb k)) := by
  refine ⟨?_, fun hn => ⟨?_, ?_⟩⟩
  · intro si hermHs hermC mLessN hamSsqQ qd h k
    rw [(addHam_params h).2]
    exact (coulomb_meets hermC mLessN hv hz).value k
  · intro h k
    rw [(addHam_params h).2, hn]
    exact (coulomb_meets _ _ hv hz).add k
  · intro h k
    rw [(addHam_params h).2, hn]
    exact (coulomb_meets _ _ hv hz).change k

/-- **C51**, `coulomb` with the symmetry 'spin': the elements between orbitals of one species. Those between the species
follow from the dictionary in C42. -/
theorem c51_coulomb_spin_partial {hs : Param (Nat × Nat)} {cs : CoulombArg} (hv : cs.Valid) (hz : cs.NoZeros) {m : Nat}
    {qd qd' : QD} (hn : qd.nss = some m) (hf : ∀ k, cs.asks k ≠ none → UpKey m k) {i j k l : Nat} (hi : i < m) (hj : j < m)
    (hk : k < m) (hl : l < m) :
    (qd.add hs cs = .ok qd' →
      valueAt qd'.coulomb (i, j, k, l) = valueAt qd.coulomb (i, j, k, l) + (cs.asks (i, j, k, l)).getD 0 ∧
      valueAt qd'.coulomb (i + m, j + m, k + m, l + m) =
        valueAt qd.coulomb (i + m, j + m, k + m, l + m) + (cs.asks (i, j, k, l)).getD 0) ∧
    (qd.change hs cs = .ok qd' →
      valueAt qd'.coulomb (i, j, k, l) = (cs.asks (i, j, k, l)).getD (valueAt qd.coulomb (i, j, k, l)) ∧
      valueAt qd'.coulomb (i + m, j + m, k + m, l + m) =
        (cs.asks (i, j, k, l)).getD (valueAt qd.coulomb (i + m, j + m, k + m, l + m))) := by
  have h0 := coulomb_meets qd.hermC qd.mLessN hv hz
  have hr : ∀ k ∈ (makeCoulombDict none qd.hermC qd.mLessN cs).map Prod.fst, UpKey m k := by
    intro k hk
    refine hf k fun h => ?_
    exact Dict.get?_none.1 (h0.only k h) hk
  obtain ⟨c1, c2⟩ := c42_coulomb_same hv qd.hermC qd.mLessN hr i j k l hi hj
  rw [h0.all rfl] at c1 c2
  have hnd := coulomb_nodup (some m) qd.hermC qd.mLessN hv
  constructor
  · intro h
    rw [(addHam_params h).2, hn]
    unfold valueAt
    dsimp only
    rw [dictAdd_get _ _ hnd, dictAdd_get _ _ hnd, c1, c2]
    exact ⟨rfl, rfl⟩
  · intro h
    rw [(addHam_params h).2, hn]
    unfold valueAt
    dsimp only
    rw [dictChange_value _ _ hnd, dictChange_value _ _ hnd, c1, c2]
    exact ⟨rfl, rfl⟩

/-- A list in which a row replaces an earlier one, with the symmetry 'spin' for two orbitals. -/
example : Param.Valid (.list [((0, 1), 1), ((0, 1), 2)] : Param (Nat × Nat)) ∧
    FirstSpin ((some 2).map fun m => (m, m)) (Param.asks (inSquare true) (.list [((0, 1), 1), ((0, 1), 2)])) ∧
    requested ((some 2).map fun m => (m, m)) (Param.asks (inSquare true) (.list [((0, 1), 1), ((0, 1), 2)])) (2, 3) = some 2 ∧
    requested ((some 2).map fun m => (m, m)) (Param.asks (inSquare true) (.list [((0, 1), 1), ((0, 1), 2)])) (0, 3) = none := by
  refine ⟨trivial, ?_, ?_, ?_⟩
  · intro a b h k hk
    simp only [Option.map_some, Option.some.injEq, Prod.mk.injEq] at h
    have : k = (0, 1) := by
      by_contra hne
      exact hk (by simp [Param.asks, Ne.symm hne])
    rw [this, ← h.1, ← h.2]
    decide
  · simp [requested, bothSpins, Param.asks]
  · simp [requested, bothSpins]

/-- An array with a zero: the zero is requested, the element below the diagonal is not read. -/
example : Param.asks (inSquare true) (.array [2, 2] fun k => k.1) (0, 1) = some 0 ∧
    Param.asks (inSquare true) (.array [2, 2] fun k => k.1) (1, 0) = none ∧
    Param.asks (inSquare true) (.array [2, 2] fun k => k.1) (1, 1) = some 1 := by
  simp [Param.asks, inSquare]

end
end Verif
