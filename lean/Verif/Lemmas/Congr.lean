import Verif.Lemmas.Fct

/-! Loops with bodies that agree, or that agree up to a map of the results. -/

namespace Verif

noncomputable section

theorem collect_congr {α β : Type} {l : List α} {f g : α → Py (List β)} (h : ∀ x ∈ l, f x = g x) :
    collect l f = collect l g := by
  unfold collect
  generalize ([] : List β) = acc
  induction l generalizing acc with
  | nil => rfl
  | cons a l ih =>
    rw [List.foldlM_cons, List.foldlM_cons, h a (by simp)]
    exact congrArg _ (funext fun r => ih (fun x hx => h x (by simp [hx])) r)

theorem collect_map {α β γ : Type} (m : β → γ) {l : List α} {f : α → Py (List β)} {g : α → Py (List γ)}
    (h : ∀ x ∈ l, g x = List.map m <$> f x) : collect l g = List.map m <$> collect l f := by
  have key : ∀ acc, l.foldlM (fun acc x => do let r ← g x; pure (acc ++ r)) (acc.map m)
      = List.map m <$> l.foldlM (fun acc x => do let r ← f x; pure (acc ++ r)) acc := by
    induction l with
    | nil => intro acc; rfl
    | cons a l ih =>
      intro acc
      rw [List.foldlM_cons, List.foldlM_cons, h a (by simp)]
      cases hf : f a with
      | error e => rfl
      | ok r =>
        have := ih (fun x hx => h x (by simp [hx])) (acc ++ r)
        rw [List.map_append] at this
        exact this
  exact key []

theorem sumM_congr {α β : Type} [Zero β] [Add β] {l : List α} {f g : α → Py β} (h : ∀ x ∈ l, f x = g x) :
    sumM l f = sumM l g := by
  unfold sumM
  generalize (0 : β) = acc
  induction l generalizing acc with
  | nil => rfl
  | cons a l ih =>
    rw [List.foldlM_cons, List.foldlM_cons, h a (by simp)]
    exact congrArg _ (funext fun r => ih (fun x hx => h x (by simp [hx])) r)

theorem sumM_map {α β γ : Type} [AddZeroClass β] [AddZeroClass γ] (m : β →+ γ) {l : List α} {f : α → Py β}
    {g : α → Py γ} (h : ∀ x ∈ l, g x = m <$> f x) : sumM l g = m <$> sumM l f := by
  have key : ∀ acc, l.foldlM (fun s x => do let r ← g x; pure (s + r)) (m acc)
      = m <$> l.foldlM (fun s x => do let r ← f x; pure (s + r)) acc := by
    induction l with
    | nil => intro acc; rfl
    | cons a l ih =>
      intro acc
      rw [List.foldlM_cons, List.foldlM_cons, h a (by simp)]
      cases hf : f a with
      | error e => rfl
      | ok r =>
        have := ih (fun x hx => h x (by simp [hx])) (acc + r)
        rw [map_add] at this
        exact this
  have := key 0
  rw [map_zero] at this
  exact this

theorem foldlM_congr' {α σ : Type} {l : List α} {f g : σ → α → Py σ} (h : ∀ x ∈ l, ∀ s, f s x = g s x) (s : σ) :
    l.foldlM f s = l.foldlM g s := by
  induction l generalizing s with
  | nil => rfl
  | cons a l ih =>
    rw [List.foldlM_cons, List.foldlM_cons, h a (by simp)]
    exact congrArg _ (funext fun r => ih (fun x hx => h x (by simp [hx])) r)

theorem foldlM_map' {α σ τ : Type} (m : σ → τ) {l : List α} {f : σ → α → Py σ} {g : τ → α → Py τ}
    (h : ∀ x ∈ l, ∀ s, g (m s) x = m <$> f s x) (s : σ) : l.foldlM g (m s) = m <$> l.foldlM f s := by
  induction l generalizing s with
  | nil => rfl
  | cons a l ih =>
    rw [List.foldlM_cons, List.foldlM_cons, h a (by simp)]
    cases hf : f s a with
    | error e => rfl
    | ok r => exact ih (fun x hx => h x (by simp [hx])) r

section
variable {v : View} {la : Lab} (h : VOk v la)
include h

/-- The array of factors depends only on the values for considered states. -/
theorem fillFct_congr {β : Type} (z : β) {f g : Nat → Nat → Nat → β}
    (hf : ∀ q c b l, c ∈ v.row (q + 1) → b ∈ v.row q → f l c b = g l c b) : v.fillFct z f = v.fillFct z g := by
  unfold View.fillFct
  apply foldlM_congr'
  intro q hq s
  have hq' := List.mem_range.1 hq
  rw [h.states_succ (by omega), h.states (by omega)]
  simp only [py_bind_ok]
  apply foldlM_congr'
  intro p hp s
  obtain ⟨h1, h2⟩ := prod2_mem hp
  rw [h.ind1 q _ _ h1 h2]
  simp only [py_bind_ok]
  apply foldlM_congr'
  intro l _ s
  rw [hf q _ _ l h1 h2]

/-- Mapping the stored values. -/
theorem fillFct_map {β γ : Type} (m : β → γ) (z : β) (f : Nat → Nat → Nat → β) :
    v.fillFct (m z) (fun l c b => m (f l c b)) = (fun fct l k => m (fct l k)) <$> v.fillFct z f := by
  unfold View.fillFct
  apply foldlM_map' (fun (fct : Nat → Nat → β) l k => m (fct l k))
  intro q hq s
  have hq' := List.mem_range.1 hq
  rw [h.states_succ (by omega), h.states (by omega)]
  simp only [py_bind_ok]
  apply foldlM_map' (fun (fct : Nat → Nat → β) l k => m (fct l k))
  intro p hp s
  obtain ⟨h1, h2⟩ := prod2_mem hp
  rw [h.ind1 q _ _ h1 h2]
  simp only [py_bind_ok]
  apply foldlM_map' (fun (fct : Nat → Nat → β) l k => m (fct l k))
  intro l _ s
  unfold View.wr
  split
  · refine congrArg Except.ok (funext fun l' => funext fun k' => ?_)
    dsimp only
    split <;> rfl
  · rfl

end

end

end Verif
