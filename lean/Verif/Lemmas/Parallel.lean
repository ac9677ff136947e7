import Verif.Model.Parallel
import Mathlib.Algebra.BigOperators.Group.Finset.Basic
import Mathlib.Algebra.BigOperators.Group.List.Basic
import Mathlib.Tactic.Ring

/-! A parallel loop whose iterations update different cells computes the sums of the updates. -/

namespace Verif

open Finset

variable {κ : Type} [DecidableEq κ]

/-- Sum of the updates of one cell. -/
def cellSum (l : List (κ × ℝ)) (k : κ) : ℝ := (l.map fun p => if p.1 = k then p.2 else 0).sum

theorem cellSum_nil (k : κ) : cellSum ([] : List (κ × ℝ)) k = 0 := rfl

theorem cellSum_cons (p : κ × ℝ) (l : List (κ × ℝ)) (k : κ) :
    cellSum (p :: l) k = (if p.1 = k then p.2 else 0) + cellSum l k := by
  simp [cellSum]

theorem cellSum_append (l l' : List (κ × ℝ)) (k : κ) :
    cellSum (l ++ l') k = cellSum l k + cellSum l' k := by
  simp [cellSum]

/-- What holds during the loop. -/
structure PInv (x0 : κ → ℝ) (N : Nat) (prog : Nat → List (κ × ℝ)) (s : PState κ) : Prop where
  sub : ∀ i, ∀ p ∈ s.todo i, p ∈ prog i
  reg : ∀ i x, s.reg i = some x → ∃ k w ws, s.todo i = (k, w) :: ws ∧ x = s.mem k
  sum : ∀ k, s.mem k + ∑ i ∈ range N, cellSum (s.todo i) k = x0 k + ∑ i ∈ range N, cellSum (prog i) k

theorem PInv.start (x0 : κ → ℝ) (N : Nat) (prog : Nat → List (κ × ℝ)) :
    PInv x0 N prog (PState.startAt x0 prog) :=
  ⟨fun _ _ h => h, fun _ _ h => by simp [PState.startAt] at h, fun _ => by simp [PState.startAt]⟩

theorem PInv.step {x0 : κ → ℝ} {N : Nat} {prog : Nat → List (κ × ℝ)} (hN : ∀ i, N ≤ i → prog i = [])
    (hd : ∀ i j, i ≠ j → ∀ p ∈ prog i, ∀ q ∈ prog j, p.1 ≠ q.1) {s s' : PState κ}
    (hs : PInv x0 N prog s) (h : PStep s s') : PInv x0 N prog s' := by
  cases h with
  | load i k w ws ht hr =>
    refine ⟨hs.sub, ?_, hs.sum⟩
    intro j x hj
    simp only at hj ⊢
    split at hj
    · rename_i e
      subst e
      exact ⟨k, w, ws, ht, by simpa using hj.symm⟩
    · exact hs.reg j x hj
  | store i k w ws x ht hr =>
    have hki : (k, w) ∈ prog i := hs.sub i _ (by rw [ht]; simp)
    have hi : i < N := by
      by_contra hi
      rw [hN i (by omega)] at hki
      simp at hki
    refine ⟨?_, ?_, ?_⟩
    · intro j p hp
      simp only at hp
      split at hp
      · rename_i e
        subst e
        exact hs.sub j p (by rw [ht]; simp [hp])
      · exact hs.sub j p hp
    · intro j y hj
      simp only at hj ⊢
      by_cases e : j = i
      · simp [e] at hj
      · simp only [e, if_false] at hj ⊢
        obtain ⟨k', w', ws', e1, e2⟩ := hs.reg j y hj
        refine ⟨k', w', ws', e1, ?_⟩
        have : k' ≠ k := hd j i e (k', w') (hs.sub j _ (by rw [e1]; simp)) (k, w) hki
        rw [if_neg this, e2]
    · intro k'
      rw [← hs.sum k']
      obtain ⟨k0, w0, ws0, e1, e2⟩ := hs.reg i x hr
      rw [ht] at e1
      obtain ⟨e3, e4⟩ := List.cons.inj e1
      obtain ⟨rfl, rfl⟩ := Prod.mk.inj e3
      have hsplit : ∀ f : Nat → ℝ, ∑ j ∈ range N, f j = f i + ∑ j ∈ (range N).erase i, f j :=
        fun f => (add_sum_erase (range N) f (mem_range.2 hi)).symm
      rw [hsplit fun j => cellSum ((if j = i then ws else s.todo j) : List (κ × ℝ)) k',
        hsplit fun j => cellSum (s.todo j) k']
      have hsame : ∑ j ∈ (range N).erase i, cellSum ((if j = i then ws else s.todo j) : List (κ × ℝ)) k'
          = ∑ j ∈ (range N).erase i, cellSum (s.todo j) k' := by
        apply sum_congr rfl
        intro j hj
        rw [if_neg (ne_of_mem_erase hj)]
      rw [hsame]
      simp only [if_true, ht, cellSum_cons]
      by_cases e : k' = k
      · subst e
        simp only [if_true, e2]
        ring
      · rw [if_neg e, if_neg (Ne.symm e)]
        ring

/-- Each end of the loop is the same. -/
theorem PEndFrom.eq {x0 : κ → ℝ} {N : Nat} {prog : Nat → List (κ × ℝ)} (hN : ∀ i, N ≤ i → prog i = [])
    (hd : ∀ i j, i ≠ j → ∀ p ∈ prog i, ∀ q ∈ prog j, p.1 ≠ q.1) {x : κ → ℝ}
    (h : PEndFrom x0 prog x) (k : κ) : x k = x0 k + ∑ i ∈ range N, cellSum (prog i) k := by
  obtain ⟨s, hs, hf, rfl⟩ := h
  have hinv : PInv x0 N prog s := by
    clear hf
    induction hs with
    | refl => exact PInv.start x0 N prog
    | tail _ hst ih => exact ih.step hN hd hst
  have := hinv.sum k
  simp only [hf, cellSum_nil, sum_const_zero, add_zero] at this
  exact this

theorem PEnd.eq {N : Nat} {prog : Nat → List (κ × ℝ)} (hN : ∀ i, N ≤ i → prog i = [])
    (hd : ∀ i j, i ≠ j → ∀ p ∈ prog i, ∀ q ∈ prog j, p.1 ≠ q.1) {x : κ → ℝ}
    (h : PEnd prog x) (k : κ) : x k = ∑ i ∈ range N, cellSum (prog i) k := by
  have := PEndFrom.eq (x0 := fun _ => 0) hN hd h k
  simpa using this

/-- The number of memory accesses left. -/
def PState.left (N : Nat) (s : PState κ) : Nat :=
  ∑ i ∈ range N, (2 * (s.todo i).length - if (s.reg i).isSome then 1 else 0)

omit [DecidableEq κ] in
theorem sum_lt_at {N i : Nat} (hi : i < N) {f g : Nat → Nat} (hlt : f i < g i)
    (he : ∀ j, j ≠ i → f j = g j) : ∑ j ∈ range N, f j < ∑ j ∈ range N, g j := by
  rw [← add_sum_erase (range N) f (mem_range.2 hi), ← add_sum_erase (range N) g (mem_range.2 hi)]
  have : ∑ j ∈ (range N).erase i, f j = ∑ j ∈ (range N).erase i, g j :=
    sum_congr rfl fun j hj => he j (ne_of_mem_erase hj)
  omega

/-- From each state in which an iteration is not complete a step is possible, and each step
decreases the number of accesses left. -/
theorem PState.progress {s : PState κ} {N i : Nat} (hi : i < N) (h : s.todo i ≠ []) :
    ∃ s', PStep s s' ∧ s'.left N < s.left N ∧ ∀ j, s.todo j = [] → s'.todo j = [] := by
  obtain ⟨⟨k, w⟩, ws, ht⟩ : ∃ p ws, s.todo i = p :: ws := by
    rcases hq : s.todo i with _ | ⟨p, ws⟩
    · exact absurd hq h
    · exact ⟨p, ws, rfl⟩
  rcases hr : s.reg i with _ | x
  · refine ⟨_, .load s i k w ws ht hr, ?_, fun j hj => hj⟩
    apply sum_lt_at hi
    · simp [ht, hr]
    · intro j hj
      simp [hj]
  · refine ⟨_, .store s i k w ws x ht hr, ?_, ?_⟩
    · apply sum_lt_at hi
      · simp only [if_true, ht, hr, List.length_cons, Option.isSome]
        simp
        omega
      · intro j hj
        simp [hj]
    · intro j hj
      simp only
      split
      · rename_i e
        subst e
        rw [ht] at hj
        simp at hj
      · exact hj

/-- The loop can be executed to its end from every state. -/
theorem PState.finish (N : Nat) (s : PState κ) (hN : ∀ i, N ≤ i → s.todo i = []) :
    ∃ s', Relation.ReflTransGen PStep s s' ∧ ∀ i, s'.todo i = [] := by
  induction hn : s.left N using Nat.strong_induction_on generalizing s with
  | _ n ih =>
    by_cases hf : ∀ i, s.todo i = []
    · exact ⟨s, .refl, hf⟩
    · simp only [not_forall] at hf
      obtain ⟨i, hi⟩ := hf
      have hiN : i < N := by
        by_contra hc
        exact hi (hN i (by omega))
      obtain ⟨s1, g1, g2, g3⟩ := s.progress hiN hi
      obtain ⟨s2, k1, k2⟩ := ih (s1.left N) (by omega) s1 (fun j hj => g3 j (hN j hj)) rfl
      exact ⟨s2, .head g1 k1, k2⟩

theorem PEndFrom.exists (x0 : κ → ℝ) {N : Nat} {prog : Nat → List (κ × ℝ)}
    (hN : ∀ i, N ≤ i → prog i = []) : ∃ x, PEndFrom x0 prog x := by
  obtain ⟨s, h1, h2⟩ := (PState.startAt x0 prog).finish N hN
  exact ⟨s.mem, s, h1, h2, rfl⟩

theorem PEnd.exists {N : Nat} {prog : Nat → List (κ × ℝ)} (hN : ∀ i, N ≤ i → prog i = []) :
    ∃ x, PEnd prog x := by
  obtain ⟨s, h1, h2⟩ := (PState.start prog).finish N hN
  exact ⟨s.mem, s, h1, h2, rfl⟩

end Verif
