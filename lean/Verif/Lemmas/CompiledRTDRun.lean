import Verif.Lemmas.CompiledRTD
import Verif.Lemmas.RTDOut
import Verif.Lemmas.RTDObj
import Verif.Lemmas.Parallel

/-! The updates made by the loops of the compiled `generate_kern` of the RTD approach. -/

namespace Verif

open Finset

noncomputable section

namespace CRTD

open RTD (Name Call In Ev evs evsD shapes atOf valD)

/-! ### Updates and additions -/

/-- The array in which the compiled version keeps a matrix. -/
def arrOf (t : Nat) : Name → Arr
  | .Wdd => .Wdd2 t
  | .WE1 => .WE1
  | .WE2 => .WE2
  | .ReWdn => .ReWdn
  | .ImWdn => .ImWdn
  | .ReWnd => .ReWnd
  | .ImWnd => .ImWnd

theorem arrOf_inj {t : Nat} {n n' : Name} (e : arrOf t n = arrOf t n') : n = n' := by
  cases n <;> cases n' <;> first | rfl | (simp [arrOf] at e)

/-- The array has an axis for the leads. -/
def hasLead : Name → Bool
  | .ReWnd | .ImWnd => false
  | _ => true

/-- The update for an addition. -/
def toWr (t : Nat) (e : Ev) : Wr := ⟨arrOf t e.n, if hasLead e.n then e.l else 0, e.r, e.c, e.x⟩

/-- The additions of a call to `Lnn`. -/
def lnnD (v : View) : Call → List (Nat × ℝ)
  | .lnn a b q f => match RTD.offPos v a b q with
    | .ok p => [(p.toNat, f)]
    | .error _ => []
  | _ => []

/-- All updates of a call. -/
def wr (v : View) (t : Nat) (k : Call) : List Wr :=
  (evsD v (shapes v) k).map (toWr t) ++ (lnnD v k).map fun p => ⟨.Lnn, 0, (p.1 : Nat), 0, p.2⟩

theorem resolve_bound {sh : RTD.Shape} {n : Name} {l : Nat} {i j : Int} {x : ℝ} {e : Ev}
    (h : RTD.resolve sh n l i j x = .ok e) : e.l < (sh e.n).1 ∧ e.r < (sh e.n).2.1 ∧ e.c < (sh e.n).2.2 := by
  obtain ⟨h1, h2, h3, h4, h5, _⟩ := RTD.resolve_inv h
  rw [h1, h2]
  exact ⟨h3, pyIdx_ok_lt h4, pyIdx_ok_lt h5⟩

theorem evs_bound {v : View} {sh : RTD.Shape} {k : Call} {es : List Ev} (h : evs v sh k = .ok es) :
    ∀ e ∈ es, e.l < (sh e.n).1 ∧ e.r < (sh e.n).2.1 ∧ e.c < (sh e.n).2.2 := by
  cases k with
  | dd l fm fp bb aa mi =>
    simp only [evs] at h
    obtain ⟨e1, h1, h⟩ := bind_ok_inv h
    obtain ⟨e2, h2, h⟩ := bind_ok_inv h
    simp only [py_pure, Except.ok.injEq] at h
    subst h
    simp only [List.mem_cons, List.not_mem_nil, or_false]
    rintro e (rfl | rfl)
    · exact resolve_bound h1
    · exact resolve_bound h2
  | two r f i0 i1 a3 q3 a4 q4 =>
    simp only [evs] at h
    obtain ⟨i3, _, h⟩ := bind_ok_inv h
    obtain ⟨i4, _, h⟩ := bind_ok_inv h
    obtain ⟨e1, h1, h⟩ := bind_ok_inv h
    obtain ⟨e2, h2, h⟩ := bind_ok_inv h
    obtain ⟨e3, h3, h⟩ := bind_ok_inv h
    obtain ⟨e4, h4, h⟩ := bind_ok_inv h
    simp only [py_pure, Except.ok.injEq] at h
    subst h
    simp only [List.mem_cons, List.not_mem_nil, or_false]
    rintro e (rfl | rfl | rfl | rfl)
    · exact resolve_bound h1
    · exact resolve_bound h2
    · exact resolve_bound h3
    · exact resolve_bound h4
  | elem f l b bp q a ap q' mi =>
    simp only [evs] at h
    obtain ⟨i, _, h⟩ := bind_ok_inv h
    obtain ⟨j, _, h⟩ := bind_ok_inv h
    obtain ⟨e1, h1, h⟩ := bind_ok_inv h
    simp only [py_pure, Except.ok.injEq] at h
    subst h
    simp only [List.mem_singleton]
    rintro e rfl
    exact resolve_bound h1
  | lnn a b q f =>
    simp only [evs, py_pure, Except.ok.injEq] at h
    subst h
    simp
  | imGamma =>
    simp only [evs, py_pure, Except.ok.injEq] at h
    subst h
    simp

theorem evsD_bound {v : View} {sh : RTD.Shape} {k : Call} :
    ∀ e ∈ evsD v sh k, e.l < (sh e.n).1 ∧ e.r < (sh e.n).2.1 ∧ e.c < (sh e.n).2.2 := by
  unfold evsD
  split
  · rename_i es h
    exact evs_bound h
  · simp

theorem shapes_leads (v : View) (n : Name) : (shapes v n).1 = v.nleads := by cases n <;> rfl

/-! ### Sums of updates -/

theorem cellSum_flatMap {α κ : Type} [DecidableEq κ] (l : List α) (f : α → List (κ × ℝ)) (c : κ) :
    cellSum (l.flatMap f) c = (l.map fun x => cellSum (f x) c).sum := by
  induction l with
  | nil => rfl
  | cons a l ih => rw [List.flatMap_cons, cellSum_append, ih, List.map_cons, List.sum_cons]

theorem cellSum_zero {κ : Type} [DecidableEq κ] {l : List (κ × ℝ)} {c : κ} (h : ∀ p ∈ l, p.1 ≠ c) :
    cellSum l c = 0 := by
  unfold cellSum
  apply List.sum_eq_zero
  intro x hx
  obtain ⟨p, hp, rfl⟩ := List.mem_map.1 hx
  rw [if_neg (h p hp)]

theorem sum_range_list (f : Nat → ℝ) (n : Nat) : ∑ i ∈ range n, f i = ((List.range n).map f).sum := by
  rw [Finset.sum, range_val, Multiset.range, Multiset.map_coe, Multiset.sum_coe]

theorem list_sum_comm {α : Type} (l : List α) (n : Nat) (f : Nat → α → ℝ) :
    (l.map fun a => ∑ i ∈ range n, f i a).sum = ∑ i ∈ range n, (l.map (f i)).sum := by
  induction l with
  | nil => simp
  | cons a l ih => simp only [List.map_cons, List.sum_cons, ih, sum_add_distrib]

section
variable (v : View) (t : Nat)

theorem cells_append (k : Call) (c : Cell) : cellSum ((wr v t k).map Wr.cell) c =
    cellSum ((evsD v (shapes v) k).map fun e => (toWr t e).cell) c +
    cellSum ((lnnD v k).map fun p => (Wr.cell ⟨.Lnn, 0, (p.1 : Nat), 0, p.2⟩)) c := by
  unfold wr
  rw [List.map_append, List.map_map, List.map_map, cellSum_append]
  rfl

theorem lnn_cells {k : Call} {c : Cell} (hc : c.1 ≠ .Lnn) :
    cellSum ((lnnD v k).map fun p => (Wr.cell ⟨.Lnn, 0, (p.1 : Nat), 0, p.2⟩)) c = 0 := by
  apply cellSum_zero
  intro p hp
  obtain ⟨x, _, rfl⟩ := List.mem_map.1 hp
  intro e
  exact hc (by rw [← e]; rfl)

theorem cell_lead {n : Name} (hn : hasLead n = true) (l r c : Nat) (k : Call) :
    cellSum ((wr v t k).map Wr.cell) (arrOf t n, l, r, c) = atOf v (shapes v) n l r c k := by
  rw [cells_append, lnn_cells v (by cases n <;> simp [arrOf]), add_zero]
  unfold cellSum atOf
  rw [List.map_map]
  congr 1
  apply List.map_congr_left
  intro e _
  simp only [Function.comp, Wr.cell, toWr, Ev.at, Int.toNat_natCast, Prod.mk.injEq]
  by_cases hm : e.n = n
  · rw [hm]
    simp [hn]
  · rw [if_neg (fun h => hm (arrOf_inj h.1)), if_neg (fun h => hm h.1)]

theorem cell_nolead {n : Name} (hn : hasLead n = false) (r c : Nat) (k : Call) :
    cellSum ((wr v t k).map Wr.cell) (arrOf t n, 0, r, c)
      = ∑ l ∈ range v.nleads, atOf v (shapes v) n l r c k := by
  rw [cells_append, lnn_cells v (by cases n <;> simp [arrOf]), add_zero]
  unfold cellSum atOf
  rw [List.map_map, ← list_sum_comm]
  congr 1
  apply List.map_congr_left
  intro e he
  have hb := (evsD_bound e he).1
  rw [shapes_leads] at hb
  simp only [Function.comp, Wr.cell, toWr, Ev.at, Int.toNat_natCast, Prod.mk.injEq]
  by_cases hm : e.n = n
  · rw [hm]
    simp only [hn, Bool.false_eq_true, if_false, true_and]
    by_cases hrc : e.r = r ∧ e.c = c
    · simp only [hrc, and_self, and_true, if_true]
      rw [Finset.sum_ite_eq, if_pos (mem_range.2 hb)]
    · rw [if_neg hrc]
      symm
      apply sum_eq_zero
      intro l _
      rw [if_neg (fun h => hrc h.2)]
  · rw [if_neg (fun h => hm (arrOf_inj h.1))]
    symm
    apply sum_eq_zero
    intro l _
    rw [if_neg (fun h => hm h.1)]

/-- What a call adds to an entry of the diagonal of `Lnn`. -/
def lnnAt (v : View) (r : Nat) (k : Call) : ℝ := ((lnnD v k).map fun p => if p.1 = r then p.2 else 0).sum

theorem cell_lnn (r : Nat) (k : Call) :
    cellSum ((wr v t k).map Wr.cell) (.Lnn, 0, r, 0) = lnnAt v r k := by
  rw [cells_append, cellSum_zero, zero_add]
  · unfold cellSum lnnAt
    rw [List.map_map]
    congr 1
    apply List.map_congr_left
    intro p _
    simp [Wr.cell]
  · intro p hp
    obtain ⟨e, _, rfl⟩ := List.mem_map.1 hp
    simp only [Wr.cell, toWr]
    cases e.n <;> simp [arrOf]

theorem cell_copy {t' : Nat} (ht : t' ≠ t) (l r c : Nat) (k : Call) :
    cellSum ((wr v t k).map Wr.cell) (.Wdd2 t', l, r, c) = 0 := by
  rw [cells_append, lnn_cells v (by simp), add_zero]
  apply cellSum_zero
  intro p hp
  obtain ⟨e, _, rfl⟩ := List.mem_map.1 hp
  simp only [Wr.cell, toWr]
  cases e.n <;> simp [arrOf]
  exact fun h => absurd h.symm ht

end

/-! ### The value of `Lnn` in the Python version -/

/-- The call has its place in `Lnn`. -/
def LnnAt (v : View) (n : Nat) : Call → Prop
  | .lnn a b q _ => a ≠ b ∧ ∃ p : Nat, p < n ∧ RTD.offPos v a b q = .ok (p : Int)
  | _ => True

theorem run_lnn_val {v : View} {n : Nat} {a a' : RTD.Acc} {ks : List Call} (h : RTD.run v a ks = .ok a')
    (hr : a.mats.Lnn.rows = n) (hc : a.mats.Lnn.cols = n) (hk : ∀ k ∈ ks, LnnAt v n k) (r c : Nat) :
    a'.mats.Lnn.val r c = a.mats.Lnn.val r c + if r = c then (ks.map (lnnAt v r)).sum else 0 := by
  induction ks generalizing a with
  | nil =>
    simp only [RTD.run, List.foldlM_nil, py_pure, Except.ok.injEq] at h
    subst h; simp
  | cons k ks ih =>
    unfold RTD.run at h
    rw [List.foldlM_cons] at h
    obtain ⟨a1, h1, h⟩ := bind_ok_inv h
    have hs := RTD.run_lnn (v := v) (a := a) (a' := a1) (ks := [k]) (by
      unfold RTD.run; rw [List.foldlM_cons, h1]; rfl)
    have ih := ih h (hs.1.trans hr) (hs.2.1.trans hc) (fun k hk' => hk k (List.mem_cons_of_mem _ hk'))
    have h0 : ∀ (hz : k.isLnn = false), lnnAt v r k = 0 := by
      intro hz
      cases k <;> first | rfl | simp [Call.isLnn] at hz
    by_cases hz : k.isLnn = false
    · rw [ih, hs.2.2 (by simpa using hz), List.map_cons, List.sum_cons, h0 hz, zero_add]
    · cases k with
      | lnn x y q f =>
        obtain ⟨hne, p, hp, hpos⟩ := hk (.lnn x y q f) (by simp)
        have hat : lnnAt v r (.lnn x y q f) = if p = r then f else 0 := by
          simp [lnnAt, lnnD, hpos]
        simp only [RTD.call] at h1
        obtain ⟨i, g1, h1⟩ := bind_ok_inv h1
        unfold RTD.offPos at hpos
        rw [g1] at hpos
        simp only [py_bind_ok, py_pure, Except.ok.injEq] at hpos
        rw [if_pos hne] at hpos
        obtain ⟨m, g2, h1⟩ := bind_ok_inv h1
        rw [hpos] at g2
        unfold Mat.add at g2
        rw [hr, hc, pyIdx_nat hp] at g2
        simp only [py_bind_ok, py_pure, Except.ok.injEq] at g2 h1
        subst g2 h1
        rw [ih, List.map_cons, List.sum_cons, hat]
        simp only
        by_cases e : r = c
        · subst e
          simp only [and_self, if_true]
          by_cases e' : r = p
          · subst e'; simp; ring
          · rw [if_neg e', if_neg (Ne.symm e')]; simp
        · rw [if_neg e, if_neg e, if_neg (fun h => e (h.1.trans h.2.symm))]
      | _ => simp [Call.isLnn] at hz

/-- The flag of the Python version. -/
theorem run_im {v : View} {a a' : RTD.Acc} {ks : List Call} (h : RTD.run v a ks = .ok a') :
    a'.im = true ↔ a.im = true ∨ Call.imGamma ∈ ks := by
  induction ks generalizing a with
  | nil =>
    simp only [RTD.run, List.foldlM_nil, py_pure, Except.ok.injEq] at h
    subst h; simp
  | cons k ks ih =>
    unfold RTD.run at h
    rw [List.foldlM_cons] at h
    obtain ⟨a1, h1, h⟩ := bind_ok_inv h
    rw [ih h]
    have key : a1.im = true ↔ a.im = true ∨ Call.imGamma = k := by
      cases k with
      | dd =>
        simp only [RTD.call] at h1
        obtain ⟨_, _, h1⟩ := bind_ok_inv h1
        obtain ⟨_, _, h1⟩ := bind_ok_inv h1
        simp only [py_pure, Except.ok.injEq] at h1
        subst h1; simp
      | two =>
        simp only [RTD.call] at h1
        obtain ⟨_, _, h1⟩ := bind_ok_inv h1
        obtain ⟨_, _, h1⟩ := bind_ok_inv h1
        obtain ⟨_, _, h1⟩ := bind_ok_inv h1
        obtain ⟨_, _, h1⟩ := bind_ok_inv h1
        obtain ⟨_, _, h1⟩ := bind_ok_inv h1
        obtain ⟨_, _, h1⟩ := bind_ok_inv h1
        simp only [py_pure, Except.ok.injEq] at h1
        subst h1; simp
      | elem =>
        simp only [RTD.call] at h1
        obtain ⟨_, _, h1⟩ := bind_ok_inv h1
        obtain ⟨_, _, h1⟩ := bind_ok_inv h1
        obtain ⟨_, _, h1⟩ := bind_ok_inv h1
        simp only [py_pure, Except.ok.injEq] at h1
        subst h1; simp
      | lnn =>
        simp only [RTD.call] at h1
        obtain ⟨_, _, h1⟩ := bind_ok_inv h1
        obtain ⟨_, _, h1⟩ := bind_ok_inv h1
        simp only [py_pure, Except.ok.injEq] at h1
        subst h1; simp
      | imGamma =>
        simp only [RTD.call, py_pure, Except.ok.injEq] at h1
        subst h1; simp
    rw [key, List.mem_cons]
    tauto

end CRTD

end

end Verif
