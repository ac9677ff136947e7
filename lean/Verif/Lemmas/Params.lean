import Verif.Model.Params
import Verif.Lemmas.Fock
import Mathlib.Algebra.BigOperators.Group.List.Lemmas

/-! Linearity of the constructions of many-body matrices in the dictionary of parameters. -/

namespace Verif

variable {κ : Type}

theorem bind_iff {α β : Type} {x : Py α} {f : α → Py β} {y : β} :
    (x >>= f) = .ok y ↔ ∃ a, x = .ok a ∧ f a = .ok y := by
  cases x with
  | error e => exact ⟨fun h => (nomatch h), fun ⟨_, h, _⟩ => (nomatch h)⟩
  | ok a => exact ⟨fun h => ⟨a, rfl, h⟩, fun ⟨_, h, h'⟩ => by cases h; exact h'⟩

/-! ### Dictionaries -/

section
variable [DecidableEq κ] {β : Type}

theorem Dict.mem_set {d : Dict κ β} {k : κ} {v : β} {e : κ × β} (h : e ∈ d.set k v) :
    e = (k, v) ∨ e ∈ d := by
  induction d with
  | nil => simpa [Dict.set] using h
  | cons p d ih =>
    obtain ⟨k', v'⟩ := p
    simp only [Dict.set] at h
    split at h
    · rename_i hk
      rcases List.mem_cons.1 h with rfl | h
      · left; rw [hk]
      · right; simp [h]
    · rcases List.mem_cons.1 h with rfl | h
      · right; simp
      · rcases ih h with h | h
        · exact .inl h
        · right; simp [h]

theorem Dict.nodup_set {d : Dict κ β} (h : (d.map Prod.fst).Nodup) (k : κ) (v : β) :
    ((d.set k v).map Prod.fst).Nodup := by
  rw [Dict.keys_set]
  split
  · exact h
  · rename_i hk
    exact List.nodup_append.2 ⟨h, by simp, by
      intro a ha b hb
      rw [List.mem_singleton] at hb
      exact fun hab => hk (hb ▸ hab ▸ ha)⟩

theorem Dict.get?_none {d : Dict κ β} {k : κ} : d.get? k = none ↔ k ∉ d.map Prod.fst := by
  induction d with
  | nil => simp [Dict.get?]
  | cons p d ih =>
    obtain ⟨k', v'⟩ := p
    simp only [Dict.get?, List.map_cons, List.mem_cons]
    by_cases hk : k' = k
    · simp [hk]
    · rw [if_neg hk, ih]
      have hk' : k ≠ k' := fun h => hk h.symm
      simp [hk']

end

/-! ### Weights -/

/-- The sum of the contributions of the entries of a dictionary. -/
noncomputable def weight (G : κ → ℂ → List Nat → ℂ) (d : Dict κ ℂ) (ix : List Nat) : ℂ :=
  (d.map fun e => G e.1 e.2 ix).sum

def Additive' (G : κ → ℂ → List Nat → ℂ) : Prop :=
  ∀ k x y ix, G k (x + y) ix = G k x ix + G k y ix

section
variable [DecidableEq κ]

theorem weight_set_some {G : κ → ℂ → List Nat → ℂ} (hG : Additive' G) {d : Dict κ ℂ} {k : κ} {v : ℂ}
    (h : d.get? k = some v) (x : ℂ) (ix : List Nat) :
    weight G (d.set k (v + x)) ix = weight G d ix + G k x ix := by
  induction d with
  | nil => simp [Dict.get?] at h
  | cons p d ih =>
    obtain ⟨k0, v0⟩ := p
    simp only [Dict.get?] at h
    simp only [Dict.set]
    by_cases hk : k0 = k
    · rw [if_pos hk] at h ⊢
      cases h
      subst hk
      simp only [weight, List.map_cons, List.sum_cons, hG k0 v x ix]
      ring
    · rw [if_neg hk] at h ⊢
      have := ih h
      simp only [weight, List.map_cons, List.sum_cons] at this ⊢
      rw [this]; ring

theorem weight_set_none {G : κ → ℂ → List Nat → ℂ} {d : Dict κ ℂ} {k : κ}
    (h : d.get? k = none) (x : ℂ) (ix : List Nat) :
    weight G (d.set k x) ix = weight G d ix + G k x ix := by
  induction d with
  | nil => simp [Dict.set, weight]
  | cons p d ih =>
    obtain ⟨k0, v0⟩ := p
    simp only [Dict.get?] at h
    simp only [Dict.set]
    by_cases hk : k0 = k
    · rw [if_pos hk] at h; cases h
    · rw [if_neg hk] at h ⊢
      have := ih h
      simp only [weight, List.map_cons, List.sum_cons] at this ⊢
      rw [this]; ring

/-- `d''` holds the sum of the parameters of `d` and `d'`. -/
structure SumDict (d d' d'' : Dict κ ℂ) : Prop where
  weight : ∀ G : κ → ℂ → List Nat → ℂ, Additive' G →
    ∀ ix, weight G d'' ix = weight G d ix + weight G d' ix
  keys : ∀ k, k ∈ d''.map Prod.fst ↔ k ∈ d.map Prod.fst ∨ k ∈ d'.map Prod.fst

theorem sumDict_nil (d : Dict κ ℂ) : SumDict d [] d :=
  ⟨fun G _ ix => by simp [Verif.weight], by simp⟩

theorem SumDict.snoc {d d' d'' : Dict κ ℂ} (h : SumDict d d' d'') (e : κ × ℂ) :
    SumDict d (d' ++ [e]) (dictAddStep d'' e) := by
  unfold dictAddStep
  cases hg : d''.get? e.1 with
  | some v =>
    refine ⟨fun G hG ix => ?_, fun k => ?_⟩
    · show Verif.weight G (d''.set e.1 (v + e.2)) ix = _
      rw [weight_set_some hG hg, h.weight G hG]
      simp [Verif.weight, add_assoc]
    · show k ∈ (d''.set e.1 (v + e.2)).map Prod.fst ↔ _
      have : e.1 ∈ d''.map Prod.fst := by
        by_contra hc
        rw [Dict.get?_none.2 hc] at hg; cases hg
      rw [Dict.keys_set, if_pos this, h.keys]
      rw [h.keys] at this
      simp only [List.map_append, List.mem_append, List.map_cons, List.map_nil,
        List.mem_singleton]
      constructor
      · rintro (h | h) <;> simp [h]
      · rintro (h | h | rfl)
        · exact .inl h
        · exact .inr h
        · exact this
  | none =>
    refine ⟨fun G hG ix => ?_, fun k => ?_⟩
    · show Verif.weight G (d''.set e.1 e.2) ix = _
      rw [weight_set_none hg, h.weight G hG]
      simp [Verif.weight, add_assoc]
    · show k ∈ (d''.set e.1 e.2).map Prod.fst ↔ _
      have := Dict.get?_none.1 hg
      rw [Dict.keys_set, if_neg this]
      simp only [List.map_append, List.mem_append, List.map_cons, List.map_nil,
        List.mem_singleton, h.keys]
      tauto

theorem sumDict_add (d new : Dict κ ℂ) : SumDict d new (dictAdd d new) := by
  suffices h : ∀ (rest done : Dict κ ℂ) (cur : Dict κ ℂ), SumDict d done cur →
      SumDict d (done ++ rest) (rest.foldl dictAddStep cur) from
    h new [] d (sumDict_nil d)
  intro rest
  induction rest with
  | nil => intro done cur h; simpa using h
  | cons e rest ih =>
    intro done cur h
    rw [List.foldl_cons]
    have := ih (done ++ [e]) _ (h.snoc e)
    simpa using this

theorem set_append {d : Dict κ ℂ} {k : κ} (h : k ∉ d.map Prod.fst) (v : ℂ) :
    d.set k v = d ++ [(k, v)] := by
  induction d with
  | nil => rfl
  | cons p d ih =>
    obtain ⟨k0, v0⟩ := p
    simp only [List.map_cons, List.mem_cons, not_or] at h
    simp only [Dict.set, if_neg (Ne.symm h.1), ih h.2, List.cons_append]

theorem sumDict_change (d new : Dict κ ℂ) (hn : (new.map Prod.fst).Nodup) :
    SumDict d (dictChange d new).2 (dictChange d new).1 := by
  suffices h : ∀ (rest : Dict κ ℂ) (p : Dict κ ℂ × Dict κ ℂ), SumDict d p.2 p.1 →
      (rest.map Prod.fst).Nodup → (∀ k ∈ rest.map Prod.fst, k ∉ p.2.map Prod.fst) →
      SumDict d (rest.foldl dictChangeStep p).2 (rest.foldl dictChangeStep p).1 from
    h new (d, []) (sumDict_nil d) hn (by simp)
  intro rest
  induction rest with
  | nil => intro p h _ _; exact h
  | cons e rest ih =>
    intro p h hnd hk
    rw [List.foldl_cons]
    rw [List.map_cons, List.nodup_cons] at hnd
    have he : e.1 ∉ p.2.map Prod.fst := hk _ (by simp)
    have hrest : ∀ k ∈ rest.map Prod.fst, k ∉ p.2.map Prod.fst := fun k hk' =>
      hk k (by simp only [List.map_cons, List.mem_cons]; exact .inr hk')
    have hrest' : ∀ x : ℂ, ∀ k ∈ rest.map Prod.fst, k ∉ (p.2.set e.1 x).map Prod.fst := by
      intro x k hk'
      rw [Dict.keys_set, if_neg he]
      simp only [List.mem_append, List.mem_singleton, not_or]
      exact ⟨hrest k hk', fun hc => hnd.1 (hc ▸ hk')⟩
    cases hg : p.1.get? e.1 with
    | some v =>
      by_cases hz : e.2 - v = 0
      · have e1 : dictChangeStep p e = p := by simp [dictChangeStep, hg, hz]
        rw [e1]; exact ih p h hnd.2 hrest
      · have e1 : dictChangeStep p e = (p.1.set e.1 (v + (e.2 - v)), p.2.set e.1 (e.2 - v)) := by
          simp only [dictChangeStep, hg]; exact if_pos hz
        rw [e1]
        refine ih _ ?_ hnd.2 (hrest' _)
        have := h.snoc (e.1, e.2 - v)
        simp only [dictAddStep, hg] at this
        rw [set_append he]
        exact this
    | none =>
      by_cases hz : e.2 = 0
      · have e1 : dictChangeStep p e = p := by simp [dictChangeStep, hg, hz]
        rw [e1]; exact ih p h hnd.2 hrest
      · have e1 : dictChangeStep p e = (p.1.set e.1 e.2, p.2.set e.1 e.2) := by
          simp only [dictChangeStep, hg]; exact if_pos hz
        rw [e1]
        refine ih _ ?_ hnd.2 (hrest' _)
        have := h.snoc e
        simp only [dictAddStep, hg] at this
        rw [set_append he]
        exact this

end

/-! ### Linear constructions -/

/-- A construction adds the sum of contributions of the entries to an array of shape `D`; whether
it raises depends on the keys only. -/
structure Linear (D : List Nat) (C : Dict κ ℂ → Arr → Py Arr) (base : Prop) (good : κ → Prop)
    (G : κ → ℂ → List Nat → ℂ) : Prop where
  add : Additive' G
  iff : ∀ d a b, a.dims = D →
    (C d a = .ok b ↔ base ∧ (∀ k ∈ d.map Prod.fst, good k) ∧ b = a.plus (weight G d))

/-- One step of a construction with a fixed key. -/
def StepOk (D : List Nat) (f : Arr → ℂ → Py Arr) : Prop :=
  (∃ F : ℂ → List Nat → ℂ, (∀ x y ix, F (x + y) ix = F x ix + F y ix) ∧
    ∀ a v, a.dims = D → f a v = .ok (a.plus (F v))) ∨
  (∀ a v, a.dims = D → ∃ e, f a v = .error e)

namespace StepOk
variable {D : List Nat}

theorem pure' : StepOk D (fun a _ => pure a) :=
  .inl ⟨fun _ _ => 0, by simp, fun a v _ => by rw [Arr.plus_zero]; rfl⟩

theorem err (e : PyErr) : StepOk D (fun _ _ => .error e) := .inr fun _ _ _ => ⟨e, rfl⟩

theorem add (ix : List Nat) (c : ℂ → ℂ) (hc : ∀ x y, c (x + y) = c x + c y) :
    StepOk D (fun a v => a.add ix (c v)) := by
  by_cases h : List.Forall₂ (· < ·) ix D
  · refine .inl ⟨fun v => single ix (c v), fun x y jx => ?_, fun a v ha => Arr.add_ok (ha ▸ h)⟩
    simp only [single, hc]
    split <;> simp
  · exact .inr fun a v ha => ⟨.index, if_neg (ha ▸ h)⟩

theorem bind {β : Type} (x : Py β) (f : β → Arr → ℂ → Py Arr) (h : ∀ b, StepOk D (f b)) :
    StepOk D (fun a v => x >>= fun b => f b a v) := by
  cases x with
  | ok b => exact h b
  | error e => exact err e

theorem seq {f g : Arr → ℂ → Py Arr} (hf : StepOk D f) (hg : StepOk D g) :
    StepOk D (fun a v => f a v >>= fun a => g a v) := by
  rcases hf with ⟨F, hF, hf⟩ | hf
  · rcases hg with ⟨H, hH, hg⟩ | hg
    · refine .inl ⟨fun v ix => F v ix + H v ix, fun x y ix => ?_, fun a v ha => ?_⟩
      · simp only [hF, hH]; ring
      · simp only [hf a v ha]
        rw [← Arr.plus_plus]
        exact hg _ v (by simpa using ha)
    · refine .inr fun a v ha => ?_
      obtain ⟨e, he⟩ := hg (a.plus (F v)) v (by simpa using ha)
      exact ⟨e, by simp only [hf a v ha]; exact he⟩
  · refine .inr fun a v ha => ?_
    obtain ⟨e, he⟩ := hf a v ha
    exact ⟨e, by simp only [he]; rfl⟩

theorem ite {p : Prop} [Decidable p] {f g : Arr → ℂ → Py Arr} (hf : StepOk D f) (hg : StepOk D g) :
    StepOk D (fun a v => if p then f a v else g a v) := by
  by_cases h : p
  · simpa [h] using hf
  · simpa [h] using hg

end StepOk

theorem fold_linear {D : List Nat} {f : Arr → κ × ℂ → Py Arr}
    (h : ∀ k, StepOk D fun a v => f a (k, v)) :
    ∃ good G, Linear D (fun d a => d.foldlM f a) True good G := by
  classical
  have h' : ∀ k, ∃ F : ℂ → List Nat → ℂ, (∀ x y ix, F (x + y) ix = F x ix + F y ix) ∧
      ((∀ a v, a.dims = D → f a (k, v) = .ok (a.plus (F v))) ∨
        (∀ a v, a.dims = D → ∃ e, f a (k, v) = .error e)) := by
    intro k
    rcases h k with ⟨F, h1, h2⟩ | h2
    · exact ⟨F, h1, .inl h2⟩
    · exact ⟨fun _ _ => 0, by simp, .inr h2⟩
  choose G hG h2 using h'
  refine ⟨fun k => ∀ a v, a.dims = D → f a (k, v) = .ok (a.plus (G k v)), G, hG, ?_⟩
  intro d
  induction d with
  | nil =>
    intro a b _
    have : a.plus (weight G []) = a := by simp [Arr.plus, weight]
    simp only [List.foldlM_nil, this]
    constructor
    · rintro ⟨⟩; simp
    · rintro ⟨-, -, rfl⟩; rfl
  | cons e d ih =>
    intro a b ha
    obtain ⟨k, v⟩ := e
    rw [List.foldlM_cons]
    have hw : a.plus (weight G ((k, v) :: d)) = (a.plus (G k v)).plus (weight G d) := by
      rw [Arr.plus_plus]
      simp [weight, Arr.plus]
    rcases h2 k with hk | hk
    · rw [hk a v ha]
      refine Iff.trans (ih (a.plus (G k v)) b (by simpa using ha)) ?_
      rw [hw]
      simp only [true_and, List.map_cons, List.mem_cons, forall_eq_or_imp]
      constructor
      · rintro ⟨h1, h2⟩; exact ⟨⟨hk, h1⟩, h2⟩
      · rintro ⟨⟨-, h1⟩, h2⟩; exact ⟨h1, h2⟩
    · obtain ⟨err, he⟩ := hk a v ha
      rw [he]
      constructor
      · intro h; cases h
      · rintro ⟨-, h1, -⟩
        have := h1 k (by simp) a v ha
        rw [this] at he; cases he

theorem columns_linear {D : List Nat} {σ : Type} (js : List Nat) (col : Nat → Py σ)
    (step : Nat → σ → Arr → κ × ℂ → Py Arr)
    (h : ∀ j s k, StepOk D fun a v => step j s a (k, v)) :
    ∃ base good G, Linear D (fun d a => js.foldlM (fun a j => col j >>= fun s =>
      d.foldlM (step j s) a) a) base good G := by
  induction js with
  | nil =>
    refine ⟨True, fun _ => True, fun _ _ _ => 0, by simp [Additive'], ?_⟩
    intro d a b _
    have : a.plus (weight (fun _ _ _ => 0) d) = a := by simp [Arr.plus, weight]
    simp only [List.foldlM_nil, this]
    constructor
    · rintro ⟨⟩; simp
    · rintro ⟨-, -, rfl⟩; rfl
  | cons j js ih =>
    obtain ⟨base, good, G, hL⟩ := ih
    cases hc : col j with
    | error e =>
      refine ⟨False, fun _ => True, fun _ _ _ => 0, by simp [Additive'], ?_⟩
      intro d a b _
      simp only [List.foldlM_cons, hc]
      constructor
      · intro h; cases h
      · rintro ⟨⟨⟩, _⟩
    | ok s =>
      obtain ⟨good', G', hL'⟩ := fold_linear (h j s)
      refine ⟨base, fun k => good' k ∧ good k, fun k v ix => G' k v ix + G k v ix, ?_, ?_⟩
      · intro k x y ix
        show G' k (x + y) ix + G k (x + y) ix = G' k x ix + G k x ix + (G' k y ix + G k y ix)
        rw [hL'.add k x y ix, hL.add k x y ix]; ring
      · intro d a b ha
        have hw : ∀ a : Arr, a.plus (weight (fun k v ix => G' k v ix + G k v ix) d) =
            (a.plus (weight G' d)).plus (weight G d) := by
          intro a
          rw [Arr.plus_plus]
          congr 1
          funext ix
          simp only [weight]
          exact List.sum_map_add
        simp only [List.foldlM_cons, hc]
        rw [hw]
        show ((d.foldlM (step j s) a) >>= _ = _) ↔ _
        cases hd : d.foldlM (step j s) a with
        | error e =>
          constructor
          · intro h; cases h
          · rintro ⟨_, h2, _⟩
            have := (hL'.iff d a _ ha).2 ⟨trivial, fun k hk => (h2 k hk).1, rfl⟩
            simp only [hd] at this; cases this
        | ok a' =>
          obtain ⟨-, h2, rfl⟩ := (hL'.iff d a _ ha).1 hd
          refine Iff.trans (hL.iff d _ b (by simpa using ha)) ?_
          constructor
          · rintro ⟨h1, h3, h4⟩; exact ⟨h1, fun k hk => ⟨h2 k hk, h3 k hk⟩, h4⟩
          · rintro ⟨h1, h3, h4⟩; exact ⟨h1, fun k hk => (h3 k hk).2, h4⟩

theorem Linear.dims {D : List Nat} {C : Dict κ ℂ → Arr → Py Arr} {base good G}
    (h : Linear D C base good G) {d : Dict κ ℂ} {a b : Arr} (ha : a.dims = D) (hb : C d a = .ok b) :
    b.dims = D := by
  obtain ⟨-, -, rfl⟩ := (h.iff d a b ha).1 hb
  simpa using ha

theorem Linear.sum [DecidableEq κ] {D : List Nat} {C : Dict κ ℂ → Arr → Py Arr} {base good G}
    (h : Linear D C base good G) {d d' d'' : Dict κ ℂ} (hs : SumDict d d' d'') {z t t' : Arr}
    (hz : z.dims = D) (h1 : C d z = .ok t) (h2 : C d' t = .ok t') : C d'' z = .ok t' := by
  have ht := h.dims hz h1
  obtain ⟨b1, k1, rfl⟩ := (h.iff _ _ _ hz).1 h1
  obtain ⟨-, k2, rfl⟩ := (h.iff _ _ _ ht).1 h2
  refine (h.iff _ _ _ hz).2 ⟨b1, fun k hk => ?_, ?_⟩
  · rcases (hs.keys k).1 hk with hk | hk
    · exact k1 k hk
    · exact k2 k hk
  · rw [Arr.plus_plus]
    congr 1
    funext ix
    exact (hs.weight G h.add ix).symm

/-! ### The constructions of the package -/

theorem mul_add_left (c : ℂ) (x y : ℂ) : (x + y) * c = x * c + y * c := add_mul x y c

/-- Reduces a step to the additions. -/
macro "stepok" : tactic => `(tactic| repeat' first
  | exact StepOk.pure'
  | refine StepOk.ite ?_ ?_
  | refine StepOk.bind _ _ fun _ => ?_)

theorem hopping_linear (si : SI) (herm : Bool) (lst : List Nat) :
    ∃ base good G, Linear [lst.length, lst.length]
      (fun d a => constructHamHopping si herm d lst (some a)) base good G := by
  obtain ⟨base, good, G, h⟩ := columns_linear (D := [lst.length, lst.length])
    (List.range lst.length) (fun j => pyGet lst (j : Nat) >>= fun b => si.getState b)
    (fun j s => hopStep si herm lst j s) (by
      intro j s k
      unfold hopStep
      dsimp only
      refine StepOk.ite (StepOk.bind _ _ fun x => ?_) (StepOk.bind _ _ fun x => ?_)
      · stepok
        exact StepOk.add _ (fun v => v) fun _ _ => rfl
      refine StepOk.ite (StepOk.bind _ _ fun y => ?_) StepOk.pure'
      refine StepOk.ite ?_ StepOk.pure'
      refine StepOk.bind _ _ fun s1 => StepOk.bind _ _ fun s2 => StepOk.bind _ _ fun r => ?_
      cases r with
      | none => exact StepOk.pure'
      | some i =>
        exact StepOk.bind _ _ fun ind => StepOk.seq
          (StepOk.add _ (fun v => v * _) fun _ _ => add_mul _ _ _)
          (StepOk.ite (StepOk.add _ (fun v => star v * _) fun x y => by
            rw [star_add, add_mul]) StepOk.pure'))
  refine ⟨base, good, G, h.add, fun d a b ha => ?_⟩
  rw [← h.iff d a b ha]
  simp only [constructHamHopping, Option.getD_some, bind_assoc]

theorem coulomb_linear (si : SI) (hermC mLessN : Bool) (lst : List Nat) :
    ∃ base good G, Linear [lst.length, lst.length]
      (fun d a => constructHamCoulomb si hermC mLessN d lst (some a)) base good G := by
  obtain ⟨base, good, G, h⟩ := columns_linear (D := [lst.length, lst.length])
    (List.range lst.length) (fun j => pyGet lst (j : Nat) >>= fun b => si.getState b)
    (fun j s => coulStep si hermC mLessN lst j s) (by
      intro j s k
      unfold coulStep
      dsimp only
      refine StepOk.bind _ _ fun x => ?_
      refine StepOk.ite (StepOk.bind _ _ fun y => ?_) StepOk.pure'
      refine StepOk.ite (StepOk.bind _ _ fun s1 => StepOk.bind _ _ fun s2 =>
        StepOk.bind _ _ fun x => ?_) StepOk.pure'
      refine StepOk.ite (StepOk.bind _ _ fun y => ?_) StepOk.pure'
      refine StepOk.ite (StepOk.bind _ _ fun s3 => StepOk.bind _ _ fun s4 =>
        StepOk.bind _ _ fun r => ?_) StepOk.pure'
      cases r with
      | none => exact StepOk.pure'
      | some i =>
        exact StepOk.bind _ _ fun ind => StepOk.seq
          (StepOk.add _ (fun v => v * _) fun _ _ => add_mul _ _ _)
          (StepOk.ite (StepOk.add _ (fun v => star v * _) fun x y => by
            rw [star_add, add_mul]) StepOk.pure'))
  refine ⟨base, good, G, h.add, fun d a b ha => ?_⟩
  rw [← h.iff d a b ha]
  simp only [constructHamCoulomb, Option.getD_some, bind_assoc]

theorem tba_linear (si : SI) (nleads : Nat) :
    ∃ base good G, Linear [nleads, si.nmany, si.nmany]
      (fun d a => constructTba si nleads d (some a)) base good G := by
  obtain ⟨base, good, G, h⟩ := columns_linear (D := [nleads, si.nmany, si.nmany])
    (List.range si.nmany) (fun j => si.getState (j : Nat))
    (fun j s => tbaStep si j s) (by
      intro j s k
      unfold tbaStep
      dsimp only
      refine StepOk.bind _ _ fun x => ?_
      refine StepOk.ite (StepOk.bind _ _ fun s1 => StepOk.bind _ _ fun r => ?_)
        (StepOk.bind _ _ fun s1 => StepOk.bind _ _ fun r => ?_)
      · cases r with
        | none => exact StepOk.pure'
        | some i => exact StepOk.add _ (fun v => _ * v) fun _ _ => mul_add _ _ _
      · cases r with
        | none => exact StepOk.pure'
        | some i =>
          exact StepOk.add _ (fun v => _ * star v) fun _ _ => by rw [star_add, mul_add])
  refine ⟨base, good, G, h.add, fun d a b ha => ?_⟩
  rw [← h.iff d a b ha]
  simp only [constructTba, Option.getD_some]

theorem vbbp_linear (si : SI) (nbaths : Nat) :
    ∃ base good G, Linear [nbaths, si.nmany, si.nmany]
      (fun d a => constructVbbp si nbaths d (some a)) base good G := by
  obtain ⟨base, good, G, h⟩ := columns_linear (D := [nbaths, si.nmany, si.nmany])
    (List.range si.nmany) (fun j => si.getState (j : Nat))
    (fun j s => vbbpStep si j s) (by
      intro j s k
      unfold vbbpStep
      dsimp only
      refine StepOk.ite (StepOk.bind _ _ fun x => ?_) (StepOk.bind _ _ fun x => ?_)
      · stepok
        exact StepOk.add _ (fun v => v) fun _ _ => rfl
      refine StepOk.ite (StepOk.bind _ _ fun y => ?_) StepOk.pure'
      refine StepOk.ite ?_ StepOk.pure'
      refine StepOk.bind _ _ fun s1 => StepOk.bind _ _ fun s2 => StepOk.bind _ _ fun r => ?_
      cases r with
      | none => exact StepOk.pure'
      | some i => exact StepOk.add _ (fun v => v * _) fun _ _ => add_mul _ _ _)
  refine ⟨base, good, G, h.add, fun d a b ha => ?_⟩
  rw [← h.iff d a b ha]
  simp only [constructVbbp, Option.getD_some]

/-! ### Keys of the converted arguments -/

section
variable [DecidableEq κ]

theorem foldl_set_nodup {β : Type} (f : Dict κ ℂ → β → Dict κ ℂ)
    (hf : ∀ d b, (d.map Prod.fst).Nodup → ((f d b).map Prod.fst).Nodup) (xs : List β)
    (d : Dict κ ℂ) (hd : (d.map Prod.fst).Nodup) : ((xs.foldl f d).map Prod.fst).Nodup := by
  induction xs generalizing d with
  | nil => exact hd
  | cons x xs ih => exact ih _ (hf d x hd)

theorem rowsDict_nodup (rows : List (κ × ℂ)) : ((rowsDict rows).map Prod.fst).Nodup :=
  foldl_set_nodup _ (fun _ _ h => Dict.nodup_set h _ _) _ _ (by simp)

theorem arrayDict_nodup (keys : List κ) (val : κ → ℂ) (z : Bool) :
    ((arrayDict keys val z).map Prod.fst).Nodup := by
  classical
  unfold arrayDict
  refine foldl_set_nodup _ (fun d k h => ?_) _ _ (by simp)
  split
  · exact Dict.nodup_set h _ _
  · exact h

theorem spinDict_nodup (shift : κ → κ) (d : Dict κ ℂ) (hd : (d.map Prod.fst).Nodup) :
    ((spinDict shift d).map Prod.fst).Nodup :=
  foldl_set_nodup _ (fun _ _ h => Dict.nodup_set h _ _) _ _ hd

end

theorem coulombSpinStep_nodup (m0 : Nat) (hermC mLessN : Bool)
    (s : Dict (Nat × Nat × Nat × Nat) ℂ) (e) (h : (s.map Prod.fst).Nodup) :
    ((coulombSpinStep m0 hermC mLessN s e).map Prod.fst).Nodup := by
  unfold coulombSpinStep
  dsimp only
  have h1 : ∀ (p : Prop) [Decidable p] (s : Dict (Nat × Nat × Nat × Nat) ℂ) k v,
      (s.map Prod.fst).Nodup → ((if p then s.set k v else s).map Prod.fst).Nodup := by
    intro p _ s k v h
    split
    · exact Dict.nodup_set h _ _
    · exact h
  refine Dict.nodup_set ?_ _ _
  split
  · exact h1 _ _ _ _ (h1 _ _ _ _ h)
  · exact Dict.nodup_set (h1 _ _ _ _ h) _ _

end Verif

namespace Verif

variable {κ : Type}

/-- Whether a construction succeeds depends on the keys only. -/
theorem Linear.ok_of_keys {D : List Nat} {C : Dict κ ℂ → Arr → Py Arr} {base good G}
    (h : Linear D C base good G) {d d' : Dict κ ℂ} {a b a' : Arr} (ha : a.dims = D)
    (hb : C d a = .ok b) (ha' : a'.dims = D)
    (hk : ∀ k ∈ d'.map Prod.fst, k ∈ d.map Prod.fst) : ∃ b', C d' a' = .ok b' := by
  obtain ⟨h1, h2, -⟩ := (h.iff _ _ _ ha).1 hb
  exact ⟨_, (h.iff _ _ _ ha').2 ⟨h1, fun k hk' => h2 k (hk k hk'), rfl⟩⟩

variable [DecidableEq κ]

theorem dictAdd_get (d new : Dict κ ℂ) (hn : (new.map Prod.fst).Nodup) (k : κ) :
    ((dictAdd d new).get? k).getD 0 = (d.get? k).getD 0 + (new.get? k).getD 0 := by
  unfold dictAdd
  induction new generalizing d with
  | nil => simp [Dict.get?]
  | cons e new ih =>
    rw [List.map_cons, List.nodup_cons] at hn
    rw [List.foldl_cons, ih _ hn.2]
    obtain ⟨k0, v0⟩ := e
    simp only [Dict.get?]
    by_cases hk : k0 = k
    · subst hk
      have h0 : Dict.get? new k0 = none := Dict.get?_none.2 hn.1
      rw [h0, if_pos rfl]
      cases hg : Dict.get? d k0 with
      | none => simp [dictAddStep, hg, Dict.get?_set]
      | some v => simp [dictAddStep, hg, Dict.get?_set]
    · rw [if_neg hk]
      have : (dictAddStep d (k0, v0)).get? k = d.get? k := by
        cases hg : Dict.get? d k0 with
        | none => simp [dictAddStep, hg, Dict.get?_set, hk]
        | some v => simp [dictAddStep, hg, Dict.get?_set, hk]
      rw [this]

theorem dictChange_get (d new : Dict κ ℂ) (hn : (new.map Prod.fst).Nodup) (k : κ) :
    ((dictChange d new).1.get? k).getD 0 =
      if k ∈ new.map Prod.fst then (new.get? k).getD 0 else (d.get? k).getD 0 := by
  suffices h : ∀ (p : Dict κ ℂ × Dict κ ℂ), ((new.foldl dictChangeStep p).1.get? k).getD 0 =
      if k ∈ new.map Prod.fst then (new.get? k).getD 0 else (p.1.get? k).getD 0 from h (d, [])
  induction new with
  | nil => intro p; simp
  | cons e new ih =>
    intro p
    rw [List.map_cons, List.nodup_cons] at hn
    rw [List.foldl_cons, ih hn.2]
    obtain ⟨k0, v0⟩ := e
    by_cases hk : k0 = k
    · subst hk
      rw [if_neg hn.1]
      simp only [List.map_cons, List.mem_cons, true_or, if_true, Dict.get?, Option.getD_some]
      cases hg : Dict.get? p.1 k0 with
      | none =>
        by_cases hz : v0 = 0
        · simp [dictChangeStep, hg, hz]
        · simp [dictChangeStep, hg, hz, Dict.get?_set]
      | some v =>
        by_cases hz : v0 - v = 0
        · simp [dictChangeStep, hg, hz, sub_eq_zero.1 hz]
        · simp [dictChangeStep, hg, hz, Dict.get?_set]
    · have hk' : k ≠ k0 := Ne.symm hk
      have : (dictChangeStep p (k0, v0)).1.get? k = p.1.get? k := by
        cases hg : Dict.get? p.1 k0 with
        | none =>
          by_cases hz : v0 = 0
          · simp [dictChangeStep, hg, hz]
          · simp [dictChangeStep, hg, hz, Dict.get?_set, hk]
        | some v =>
          by_cases hz : v0 - v = 0
          · simp [dictChangeStep, hg, hz]
          · simp [dictChangeStep, hg, hz, Dict.get?_set, hk]
      have hm : k ∈ ((k0, v0) :: new).map Prod.fst ↔ k ∈ new.map Prod.fst := by
        rw [List.map_cons, List.mem_cons]
        exact or_iff_right hk'
      rw [this]
      simp only [Dict.get?, if_neg hk, hm]

theorem dictChange_value (d new : Dict κ ℂ) (hn : (new.map Prod.fst).Nodup) (k : κ) :
    ((dictChange d new).1.get? k).getD 0 = (new.get? k).getD ((d.get? k).getD 0) := by
  rw [dictChange_get d new hn k]
  split
  · rename_i h
    cases hg : new.get? k with
    | none => exact absurd h (Dict.get?_none.1 hg)
    | some v => rfl
  · rename_i h
    rw [Dict.get?_none.2 h]; rfl

theorem dictChange_keys (d new : Dict κ ℂ) (k : κ)
    (h : k ∈ (dictChange d new).2.map Prod.fst) : k ∈ new.map Prod.fst := by
  suffices H : ∀ (p : Dict κ ℂ × Dict κ ℂ), k ∈ (new.foldl dictChangeStep p).2.map Prod.fst →
      k ∈ p.2.map Prod.fst ∨ k ∈ new.map Prod.fst by
    exact (H (d, []) h).elim (fun h => by simp at h) id
  clear h
  induction new with
  | nil => intro p h; exact .inl h
  | cons e new ih =>
    intro p h
    rw [List.foldl_cons] at h
    have hstep : k ∈ (dictChangeStep p e).2.map Prod.fst → k ∈ p.2.map Prod.fst ∨ k = e.1 := by
      have hset : ∀ x : ℂ, k ∈ (p.2.set e.1 x).map Prod.fst → k ∈ p.2.map Prod.fst ∨ k = e.1 := by
        intro x hx
        rw [Dict.keys_set] at hx
        split at hx
        · exact .inl hx
        · simpa [or_comm] using hx
      unfold dictChangeStep
      split <;> split
      · exact hset _
      · exact .inl
      · exact hset _
      · exact .inl
    rw [List.map_cons, List.mem_cons]
    rcases ih _ h with h | h
    · rcases hstep h with h | h
      · exact .inl h
      · exact .inr (.inl h)
    · exact .inr (.inr h)

end Verif
