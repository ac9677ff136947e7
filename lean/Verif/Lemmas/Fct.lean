import Verif.Lemmas.GenKern

/-! Factor arrays, current arrays and the balance between neighbouring charge states. -/

namespace Verif

open Finset

noncomputable section

/-! ### Filling an array -/

/-- A loop whose every iteration keeps what has been established and establishes something. -/
theorem foldlM_est {α σ ι : Type} (P : σ → ι → Prop) (D : α → ι → Prop) {xs : List α}
    {step : σ → α → Py σ}
    (hs : ∀ x ∈ xs, ∀ s, ∃ s', step s x = .ok s' ∧ (∀ i, P s i → P s' i) ∧ ∀ i, D x i → P s' i)
    (s : σ) : ∃ s', xs.foldlM step s = .ok s' ∧ (∀ i, P s i → P s' i) ∧
      ∀ x ∈ xs, ∀ i, D x i → P s' i := by
  induction xs generalizing s with
  | nil => exact ⟨s, rfl, fun _ h => h, by simp⟩
  | cons x xs ih =>
    obtain ⟨s1, g1, k1, d1⟩ := hs x (by simp) s
    obtain ⟨s2, g2, k2, d2⟩ := ih (fun y hy => hs y (by simp [hy])) s1
    refine ⟨s2, ?_, fun i hi => k2 i (k1 i hi), ?_⟩
    · rw [List.foldlM_cons, g1]; exact g2
    · intro y hy i hi
      rcases List.mem_cons.1 hy with rfl | hy
      · exact k2 i (d1 i hi)
      · exact d2 y hy i hi

section
variable {v : View} {la : Lab} (h : VMul v la)
namespace VMul
include h

/-- The array filled by `generate_fct` has the value `f l c b` at the position of `c, b`. -/
theorem fillFct_ok {β : Type} (z : β) (f : Nat → Nat → Nat → β) :
    ∃ fct, v.fillFct z f = .ok fct ∧ ∀ q c b l, c ∈ v.row (q + 1) → b ∈ v.row q → l < v.nleads →
      fct l (la.ix1 q c b) = f l c b := by
  let P : (Nat → Nat → β) → Nat × Nat × Nat × Nat → Prop := fun fct i =>
    i.2.2.1 ∈ v.row (i.2.1 + 1) → i.2.2.2 ∈ v.row i.2.1 →
      fct i.1 (la.ix1 i.2.1 i.2.2.1 i.2.2.2) = f i.1 i.2.2.1 i.2.2.2
  have key := foldlM_est P (fun (q : Nat) i => i.2.1 = q ∧ i.1 < v.nleads)
    (xs := List.range (v.ncharge - 1))
    (step := fun fct (charge : Nat) => do
      let Cs ← v.states (charge + 1)
      let Bs ← v.states charge
      (prod2 Cs Bs).foldlM
        (fun fct p => do
          let cb ← v.ind1 p.1 p.2 charge
          (List.range v.nleads).foldlM (fun fct l => v.wr fct l cb (f l p.1 p.2)) fct) fct)
    (by
      intro q hq s
      have hq' : q < v.ncharge := by have := List.mem_range.1 hq; omega
      rw [h.states_succ hq', h.states (by omega)]
      simp only [py_bind_ok]
      obtain ⟨s', g, k, d⟩ := foldlM_est P (fun (p : Nat × Nat) i => i.2.1 = q ∧ i.2.2 = p ∧
          i.1 < v.nleads) (xs := prod2 (v.row (q + 1)) (v.row q))
        (step := fun fct p => do
          let cb ← v.ind1 p.1 p.2 q
          (List.range v.nleads).foldlM (fun fct l => v.wr fct l cb (f l p.1 p.2)) fct)
        (by
          rintro ⟨c, b⟩ hp s
          obtain ⟨hc, hb⟩ := prod2_mem hp
          simp only at hc hb
          simp only
          rw [h.ind1 q c b hc hb]
          simp only [py_bind_ok]
          obtain ⟨s', g, k, d⟩ := foldlM_est P (fun (l : Nat) i => i = (l, q, c, b))
            (xs := List.range v.nleads)
            (step := fun fct l => v.wr fct l (la.ix1 q c b) (f l c b))
            (by
              intro l _ s
              unfold View.wr
              rw [if_pos (h.ix1_lt q c b hc hb)]
              refine ⟨_, rfl, ?_, ?_⟩
              · rintro ⟨l', q', c', b'⟩ hi hc' hb'
                simp only at hc' hb' hi ⊢
                have hi := hi hc' hb'
                split
                · rename_i hh
                  obtain ⟨rfl, e⟩ := hh
                  obtain ⟨rfl, rfl, rfl⟩ := h.ix1_inj q' c' b' q c b hc' hb' hc hb e
                  rfl
                · exact hi
              · rintro i rfl hc' hb'
                simp) s
          refine ⟨s', g, k, ?_⟩
          rintro ⟨l, q', c', b'⟩ ⟨rfl, e, hl⟩
          simp only [Prod.mk.injEq] at e
          obtain ⟨rfl, rfl⟩ := e
          exact d l (List.mem_range.2 hl) _ rfl) s
      refine ⟨s', g, k, ?_⟩
      rintro ⟨l, q', c', b'⟩ ⟨rfl, hl⟩ hc' hb'
      simp only at hc' hb'
      exact d (c', b') (by simp only [prod2, List.mem_flatMap, List.mem_map]
                           exact ⟨c', hc', b', hb', rfl⟩) _ ⟨rfl, rfl, hl⟩ hc' hb') (fun _ _ => z)
  obtain ⟨fct, g, _, d⟩ := key
  refine ⟨fct, g, ?_⟩
  intro q c b l hc hb hl
  have := h.row_lt hc
  exact d q (List.mem_range.2 (by omega)) (l, q, c, b) ⟨rfl, hl⟩ hc hb

theorem rd_ok {β : Type} (fct : Nat → Nat → β) (l : Nat) {q c b : Nat} (hc : c ∈ v.row (q + 1))
    (hb : b ∈ v.row q) : v.rd fct l (la.ix1 q c b) = .ok (fct l (la.ix1 q c b)) := by
  unfold View.rd
  rw [if_pos (h.ix1_lt q c b hc hb)]
  rfl

/-! ### Balance -/

theorem mem_R {c b : Nat} : b ∈ v.R c ↔ b ∈ v.row c := by simp [View.R]

theorem Lo_zero : v.Lo 0 = ∅ := by simp [View.Lo, View.low]

theorem Lo_succ (q : Nat) : v.Lo (q + 1) = v.R q := by simp [View.Lo, View.low, View.R]

theorem R_top : v.R v.ncharge = ∅ := by simp [View.R, h.last]

/-- What enters from the lower charge state and what leaves to the higher one, added over all
charges, is a sum over pairs of neighbouring states. -/
theorem balance {β : Type} [AddCommMonoid β] (D U : Nat → Nat → Nat → β) :
    ∑ q ∈ range v.ncharge, ∑ b ∈ v.R q,
      (∑ a ∈ v.Lo q, D (q - 1) b a + ∑ c ∈ v.R (q + 1), U q c b)
    = ∑ q ∈ range (v.ncharge - 1), ∑ c ∈ v.R (q + 1), ∑ b ∈ v.R q, (D q c b + U q c b) := by
  have hU : ∑ q ∈ range v.ncharge, ∑ b ∈ v.R q, ∑ c ∈ v.R (q + 1), U q c b
      = ∑ q ∈ range (v.ncharge - 1), ∑ c ∈ v.R (q + 1), ∑ b ∈ v.R q, U q c b := by
    rcases hn : v.ncharge with _ | n
    · simp
    · rw [sum_range_succ, ← hn, R_top h, hn]
      simp only [sum_empty, sum_const_zero, add_zero, Nat.add_sub_cancel]
      exact sum_congr rfl fun q _ => sum_comm
  have hD : ∑ q ∈ range v.ncharge, ∑ b ∈ v.R q, ∑ a ∈ v.Lo q, D (q - 1) b a
      = ∑ q ∈ range (v.ncharge - 1), ∑ c ∈ v.R (q + 1), ∑ b ∈ v.R q, D q c b := by
    rcases hn : v.ncharge with _ | n
    · simp
    · rw [sum_range_succ', Lo_zero h]
      simp [Lo_succ h]
  simp only [sum_add_distrib]
  rw [hU, hD]

end VMul

end

theorem fillFct_ok {v : View} {la : Lab} (h : VOk v la) :
    type_of% (@VMul.fillFct_ok v la h.toVMul) := VMul.fillFct_ok h.toVMul

theorem rd_ok {v : View} {la : Lab} (h : VOk v la) :
    type_of% (@VMul.rd_ok v la h.toVMul) := VMul.rd_ok h.toVMul

theorem mem_R {v : View} {la : Lab} (h : VOk v la) :
    type_of% (@VMul.mem_R v la h.toVMul) := VMul.mem_R h.toVMul

theorem Lo_zero {v : View} {la : Lab} (h : VOk v la) :
    type_of% (@VMul.Lo_zero v la h.toVMul) := VMul.Lo_zero h.toVMul

theorem Lo_succ {v : View} {la : Lab} (h : VOk v la) :
    type_of% (@VMul.Lo_succ v la h.toVMul) := VMul.Lo_succ h.toVMul

theorem R_top {v : View} {la : Lab} (h : VOk v la) :
    type_of% (@VMul.R_top v la h.toVMul) := VMul.R_top h.toVMul

theorem balance {v : View} {la : Lab} (h : VOk v la) :
    type_of% (@VMul.balance v la h.toVMul) := VMul.balance h.toVMul

/-- The labels below `npauli` are those of the diagonal elements. -/
theorem sum_pop {v : View} {la : Lab} (h : VOk v la) {β : Type} [AddCommMonoid β] (f : Nat → β) :
    ∑ i ∈ range v.npauli, f i = ∑ q ∈ range v.ncharge, ∑ b ∈ v.R q, f (la.lab q b b) := by
  rw [sum_sigma']
  symm
  apply sum_nbij (fun x : (_ : Nat) × Nat => la.lab x.1 x.2 x.2)
  · rintro ⟨q, b⟩ hx
    simp only [mem_sigma, mem_range] at hx ⊢
    exact h.lab_diag q b ((mem_R h).1 hx.2)
  · rintro ⟨q, b⟩ hx ⟨q', b'⟩ hx' e
    simp only [coe_sigma, Set.mem_sigma_iff, mem_coe, mem_range] at hx hx'
    have hb := (mem_R h).1 hx.2
    have hb' := (mem_R h).1 hx'.2
    obtain ⟨e1, e2⟩ := h.lab_inj q b b q' b' b' hb hb (h.inc_diag q b hb) hb' hb'
      (h.inc_diag q' b' hb') e
    subst e1
    rcases e2 with ⟨rfl, _⟩ | ⟨rfl, _⟩ <;> rfl
  · intro k hk
    simp only [coe_range, Set.mem_Iio] at hk
    obtain ⟨c, b, bp, hb, hbp, hi, e⟩ := h.lab_surj k (lt_of_lt_of_le hk h.np_le)
    by_cases hbb : b = bp
    · subst hbb
      exact ⟨⟨c, b⟩, by simpa using ⟨h.row_lt hb, (mem_R h).2 hb⟩, e⟩
    · have := (h.lab_off c b bp hb hbp hbb hi).1
      omega
  · intro x _; rfl

/-! ### Current arrays -/

theorem foldl_ite_sum {α : Type} (p : α → Prop) [DecidablePred p] (f : α → ℝ) (l : List α) (s : ℝ) :
    l.foldl (fun s x => if p x then s + f x else s) s
      = s + (l.map fun x => if p x then f x else 0).sum := by
  induction l generalizing s with
  | nil => simp
  | cons a l ih =>
    rw [List.foldl_cons, ih, List.map_cons, List.sum_cons]
    split <;> ring

theorem current_eq (evs : List CEv) (l : Nat) :
    current evs l = (evs.map fun ev => if ev.l = l then ev.i else 0).sum := by
  unfold current
  rw [foldl_ite_sum]; simp

theorem energyCurrent_eq (evs : List CEv) (l : Nat) :
    energyCurrent evs l = (evs.map fun ev => if ev.l = l then ev.e else 0).sum := by
  unfold energyCurrent
  rw [foldl_ite_sum]; simp

/-- Events emitted once for every lead. -/
theorem leads_sum (n : Nat) (g : Nat → ℝ) {l : Nat} (hl : l < n) :
    ((List.range n).map fun k => if k = l then g k else 0).sum = g l := by
  rw [sum_single List.nodup_range (x := l) (by simpa using hl)]
  · simp
  · intro y _ hy; simp [hy]

theorem sum_range_list {β : Type} [AddCommMonoid β] (n : Nat) (f : Nat → β) :
    ((List.range n).map f).sum = ∑ q ∈ range n, f q := rfl

/-! ### Matrices -/

/-- The entry `(r, j)` is the value on the `j`-th basis vector. -/
theorem Mat.val_eq_app (m : Mat) {r j : Nat} (hj : j < m.cols) :
    m.val r j = m.app (fun k => if k = j then 1 else 0) r := by
  unfold Mat.app
  simp [hj]

theorem Mat.app_zeros (n k : Nat) (φ : Nat → ℝ) (r : Nat) : (Mat.zeros n k).app φ r = 0 := by
  simp [Mat.app, Mat.zeros]

end

end Verif
