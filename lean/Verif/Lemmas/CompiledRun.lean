import Verif.Lemmas.CompiledCur
import Verif.Lemmas.Parallel
import Verif.Spec.Compiled

/-! The updates made by the compiled handlers, and the parallel loop. -/

namespace Verif

open Finset

noncomputable section

/-- Within the first `n` rows and columns. -/
def MWr.In (n : Nat) (w : MWr) : Prop := 0 ≤ w.row ∧ w.row < n ∧ 0 ≤ w.col ∧ w.col < n

/-- Within the first `n` elements. -/
def VWr.In (n : Nat) (w : VWr) : Prop := 0 ≤ w.pos ∧ w.pos < n

theorem Mat.runWr_val {n : Nat} (ws : List MWr) (hw : ∀ w ∈ ws, w.In n) (m : Mat)
    (hr : n ≤ m.rows) (hc : n ≤ m.cols) :
    ∃ m', m.runWr ws = .ok m' ∧ m'.rows = m.rows ∧ m'.cols = m.cols ∧
      ∀ r c, m'.val r c = m.val r c + cellSum (ws.map MWr.cell) (r, c) := by
  induction ws generalizing m with
  | nil => exact ⟨m, rfl, rfl, rfl, by simp [cellSum]⟩
  | cons w ws ih =>
    obtain ⟨a1, a2, a3, a4⟩ := hw w (by simp)
    obtain ⟨i, hi⟩ := Int.eq_ofNat_of_zero_le a1
    obtain ⟨j, hj⟩ := Int.eq_ofNat_of_zero_le a3
    have e : m.cadd w = .ok ⟨m.rows, m.cols, fun r' c' =>
        if r' = i ∧ c' = j then m.val r' c' + w.val else m.val r' c'⟩ := by
      unfold Mat.cadd
      rw [hi, hj, cIdx_nat (by omega), cIdx_nat (by omega)]
      rfl
    obtain ⟨m', g1, g2, g3, g4⟩ := ih (fun w hw' => hw w (by simp [hw']))
      ⟨m.rows, m.cols, fun r' c' =>
        if r' = i ∧ c' = j then m.val r' c' + w.val else m.val r' c'⟩ hr hc
    refine ⟨m', ?_, g2, g3, ?_⟩
    · unfold Mat.runWr at *
      rw [List.foldlM_cons, e]
      exact g1
    · intro r c
      rw [g4, List.map_cons, cellSum_cons]
      simp only [MWr.cell, hi, hj, Int.ofNat_eq_natCast, Int.toNat_natCast, Prod.mk.injEq]
      by_cases e : r = i ∧ c = j
      · rw [if_pos e, if_pos ⟨e.1.symm, e.2.symm⟩, add_assoc]
      · rw [if_neg e, if_neg (fun h => e ⟨h.1.symm, h.2.symm⟩), zero_add]

theorem Vec.runWr_val {n : Nat} (ws : List VWr) (hw : ∀ w ∈ ws, w.In n) (x : Vec)
    (hr : n ≤ x.size) :
    ∃ x', x.runWr ws = .ok x' ∧ x'.size = x.size ∧
      ∀ r, x'.val r = x.val r + cellSum (ws.map VWr.cell) r := by
  induction ws generalizing x with
  | nil => exact ⟨x, rfl, rfl, by simp [cellSum]⟩
  | cons w ws ih =>
    obtain ⟨a1, a2⟩ := hw w (by simp)
    obtain ⟨i, hi⟩ := Int.eq_ofNat_of_zero_le a1
    have e : x.cadd w.pos w.val = .ok ⟨x.size, fun j => if j = i then x.val j + w.val else x.val j⟩ := by
      unfold Vec.cadd
      rw [hi, cIdx_nat (by omega)]
      rfl
    obtain ⟨x', g1, g2, g4⟩ := ih (fun w hw' => hw w (by simp [hw']))
      ⟨x.size, fun j => if j = i then x.val j + w.val else x.val j⟩ hr
    refine ⟨x', ?_, g2, ?_⟩
    · unfold Vec.runWr at *
      rw [List.foldlM_cons, e]
      exact g1
    · intro r
      rw [g4, List.map_cons, cellSum_cons]
      simp only [VWr.cell, hi, Int.ofNat_eq_natCast, Int.toNat_natCast]
      by_cases e : r = i
      · rw [if_pos e, if_pos e.symm, add_assoc]
      · rw [if_neg e, if_neg (Ne.symm e), zero_add]

/-- The rows of the element `t`: its label, and the position of its imaginary part if it is
not diagonal. -/
def rowsOf (v : View) (la : Lab) (t : Trip) (r : Int) : Prop :=
  r = (la.lab t.2.2 t.1 t.2.1 : Nat) ∨
    (t.1 ≠ t.2.1 ∧ r = (v.imag (la.lab t.2.2 t.1 t.2.1) : Nat))

/-- Different iterations change different rows. -/
theorem rows_disj {v : View} {la : Lab} {uni : Nat → Nat → Nat → Bool} (h : VRep v la uni)
    {t t' : Trip} (ht : t ∈ elems v la uni) (ht' : t' ∈ elems v la uni) (hne : t ≠ t') {r r' : Int}
    (hr : rowsOf v la t r) (hr' : rowsOf v la t' r') : r ≠ r' := by
  obtain ⟨a1, a2, a3, a4⟩ := (elems_mem h).1 ht
  obtain ⟨b1, b2, b3, b4⟩ := (elems_mem h).1 ht'
  have hl : la.lab t.2.2 t.1 t.2.1 ≠ la.lab t'.2.2 t'.1 t'.2.1 :=
    fun e => hne (elems_lab_inj h ht ht' e)
  have l1 := h.lab_lt a1 a2 a3
  have l2 := h.lab_lt b1 b2 b3
  rcases hr with rfl | ⟨e, rfl⟩ <;> rcases hr' with rfl | ⟨e', rfl⟩
  · omega
  · have := (h.imagPos_off b1 b2 e' b3).2.1
    omega
  · have := (h.imagPos_off a1 a2 e a3).2.1
    omega
  · have h1 := (h.lab_off _ _ _ a1 a2 e a3).1
    have h2 := (h.lab_off _ _ _ b1 b2 e' b3).1
    unfold View.imag
    omega

namespace CKH.Of

variable {kh : CKH} {d : DM} {nleads : Nat} (o : CKH.Of kh d nleads)
  {la : Lab} (h : VMul (d.view nleads) la)
include o h

/-- The updates of one call are what the Python handler does. -/
theorem writes_ok {k : KCall} {t : Trip} (hk : KGood (d.view nleads) la k)
    (ht : k.target = ((t.2.2 : Int), t.1, t.2.1)) :
    ∃ ws, kh.writes k = .ok ws ∧ (∀ m, (d.view nleads).callKern m k = m.runWr ws) ∧
      ∀ w ∈ ws, w.In d.ndm0r ∧ rowsOf (d.view nleads) la t w.row := by
  obtain ⟨tb, tbp, tc⟩ := t
  have hnd : kh.ndm0 = (d.view nleads).ndm0 := o.ndm0
  have hnr : d.ndm0r = (d.view nleads).ndm0r := rfl
  rw [hnr]
  cases k with
  | pauli => exact absurd hk (by simp [KGood])
  | energy e b bp c =>
    simp only [KCall.target, Prod.mk.injEq] at ht
    obtain ⟨rfl, rfl, rfl⟩ := ht
    obtain ⟨h0, hb, hbp, hi, hcan⟩ := hk
    simp only [Int.toNat_natCast] at hb hbp hi hcan
    simp only [CKH.writes, View.callKern]
    rw [h.ind0_inc hb hbp hi]
    have hl := h.lab_lt_r hb hbp hi
    by_cases e1 : b = bp
    · subst e1
      have := h.imagPos_diag hb
      refine ⟨[], by simp, ?_, by simp⟩
      intro m
      simp only [py_bind_ok]
      unfold View.putEnergy
      rw [if_neg (by omega)]
      rfl
    · obtain ⟨e2, e3, e4⟩ := h.imagPos_off hb hbp e1 hi
      rw [if_neg e1, o.ind0_eq, h.ind0_inc hb hbp hi]
      refine ⟨_, rfl, ?_, ?_⟩
      · intro m
        simp only [py_bind_ok]
        unfold View.putEnergy
        rw [if_pos (by omega), o.imagPos_eq, e2]
        simp only [Mat.runWr, List.foldlM_cons, List.foldlM_nil]
        rw [Mat.cadd_eq _ (by omega) (by omega)]
        congr 1
        funext m1
        rw [Mat.cadd_eq _ (by omega) (by omega)]
        cases m1.add _ _ _ <;> rfl
      · rw [o.imagPos_eq, e2]
        intro w hw
        simp only [List.mem_cons, List.not_mem_nil, or_false] at hw
        rcases hw with rfl | rfl
        · exact ⟨⟨by simp, by simp; omega, by simp, by simp; omega⟩, Or.inl rfl⟩
        · exact ⟨⟨by simp, by simp; omega, by simp, by simp; omega⟩, Or.inr ⟨e1, rfl⟩⟩
  | elem f b bp c a ap c' =>
    simp only [KCall.target, Prod.mk.injEq] at ht
    obtain ⟨rfl, rfl, rfl⟩ := ht
    obtain ⟨h0, hb, hbp, hi, h0', ha, hap, hi'⟩ := hk
    obtain ⟨q', rfl⟩ := Int.eq_ofNat_of_zero_le h0'
    simp only [Int.ofNat_eq_natCast, Int.toNat_natCast] at hb hbp hi ha hap hi' ⊢
    simp only [CKH.writes, View.callKern]
    rw [o.ind0_eq, o.ind0_eq, o.conj0_eq, h.ind0_inc hb hbp hi, h.ind0_inc ha hap hi',
      h.conj0 q' a ap ha hap hi']
    simp only [py_bind_ok, o.imagPos_eq, hnd]
    have hl := h.lab_lt_r hb hbp hi
    have hla := h.lab_lt_r ha hap hi'
    have himg : ∀ {x y z}, x ∈ (d.view nleads).row z → y ∈ (d.view nleads).row z →
        la.inc z x y = true →
        ((d.view nleads).ndm0 : Int) ≤ (d.view nleads).imagPos (la.lab z x y : Int) →
        x ≠ y ∧ (d.view nleads).imagPos (la.lab z x y : Int) = ((d.view nleads).imag (la.lab z x y) : Int) ∧
        (d.view nleads).imag (la.lab z x y) < (d.view nleads).ndm0r := by
      intro x y z hx hy hz hge
      have hne : x ≠ y := by
        rintro rfl
        have := h.imagPos_diag hx
        omega
      exact ⟨hne, (h.imagPos_off hx hy hne hz).1, (h.imagPos_off hx hy hne hz).2.2⟩
    refine ⟨_, rfl, ?_, ?_⟩
    · intro m
      unfold View.putImagCol View.addImagRow
      simp only [Mat.runWr, List.foldlM_append, List.foldlM_cons, List.foldlM_nil]
      rw [Mat.cadd_eq _ (by omega) (by omega)]
      simp only [bind_assoc, pure_bind]
      congr 1
      funext m1
      by_cases g1 : ((d.view nleads).ndm0 : Int) ≤ (d.view nleads).imagPos (la.lab q' a ap : Int)
      · obtain ⟨_, f1, _⟩ := himg ha hap hi' g1
        simp only [g1, if_true, List.foldlM_cons]
        rw [Mat.cadd_eq _ (by omega) (by omega)]
        simp only [bind_assoc]
        congr 1
        funext m2
        by_cases g2 : ((d.view nleads).ndm0 : Int) ≤ (d.view nleads).imagPos (la.lab tc b bp : Int)
        · simp only [g2, if_true, List.foldlM_cons, List.foldlM_nil, bind_pure]
          rw [Mat.cadd_eq _ (by omega) (by omega)]
          congr 1
          funext m3
          rw [Mat.cadd_eq _ (by omega) (by omega)]
        · simp only [g2, if_false, List.foldlM_nil, pure_bind]
      · simp only [g1, if_false, List.foldlM_nil, pure_bind]
        by_cases g2 : ((d.view nleads).ndm0 : Int) ≤ (d.view nleads).imagPos (la.lab tc b bp : Int)
        · simp only [g2, if_true, List.foldlM_cons, List.foldlM_nil, bind_pure]
          rw [Mat.cadd_eq _ (by omega) (by omega)]
        · simp only [g2, if_false, List.foldlM_nil]
    · intro w hw
      simp only [List.mem_append, List.mem_singleton] at hw
      rcases hw with (rfl | hw) | hw
      · exact ⟨⟨by simp, by simp; omega, by simp, by simp; omega⟩, Or.inl rfl⟩
      · split at hw
        · rename_i g1
          obtain ⟨_, f1, f2⟩ := himg ha hap hi' g1
          rw [f1] at hw
          rcases List.mem_cons.1 hw with rfl | hw
          · exact ⟨⟨by simp, by simp; omega, by simp, by simp; omega⟩, Or.inl rfl⟩
          · split at hw
            · rename_i g2
              obtain ⟨f3, f4, f5⟩ := himg hb hbp hi g2
              rw [f4] at hw
              rw [List.mem_singleton] at hw
              subst hw
              exact ⟨⟨by simp, by simp; omega, by simp, by simp; omega⟩, Or.inr ⟨f3, rfl⟩⟩
            · simp at hw
        · simp at hw
      · split at hw
        · rename_i g2
          obtain ⟨f3, f4, f5⟩ := himg hb hbp hi g2
          rw [f4] at hw
          rw [List.mem_singleton] at hw
          subst hw
          exact ⟨⟨by simp, by simp; omega, by simp, by simp; omega⟩, Or.inr ⟨f3, rfl⟩⟩
        · simp at hw

/-- The same when no matrix is stored. -/
theorem writesFree_ok {φ : Vec} (hφ : d.ndm0r ≤ φ.size) {k : KCall} {t : Trip}
    (hk : KGood (d.view nleads) la k) (ht : k.target = ((t.2.2 : Int), t.1, t.2.1)) :
    ∃ ws, kh.writesFree φ k = .ok ws ∧ (∀ x, (d.view nleads).callFree φ x k = x.runWr ws) ∧
      ∀ w ∈ ws, w.In d.ndm0r ∧ rowsOf (d.view nleads) la t w.pos := by
  obtain ⟨tb, tbp, tc⟩ := t
  have hnd : kh.ndm0 = (d.view nleads).ndm0 := o.ndm0
  have hnr : d.ndm0r = (d.view nleads).ndm0r := rfl
  rw [hnr] at hφ ⊢
  cases k with
  | pauli => exact absurd hk (by simp [KGood])
  | energy e b bp c =>
    simp only [KCall.target, Prod.mk.injEq] at ht
    obtain ⟨rfl, rfl, rfl⟩ := ht
    obtain ⟨h0, hb, hbp, hi, hcan⟩ := hk
    simp only [Int.toNat_natCast] at hb hbp hi hcan
    simp only [CKH.writesFree, View.callFree]
    have hl := h.lab_lt_r hb hbp hi
    by_cases e1 : b = bp
    · subst e1
      exact ⟨[], by simp, fun x => by simp [Vec.runWr], by simp⟩
    · obtain ⟨e2, e3, e4⟩ := h.imagPos_off hb hbp e1 hi
      simp only [if_neg e1]
      rw [o.ind0_eq, o.phi0Element_eq h φ hb hbp, h.ind0_inc hb hbp hi, h.phi0Element hb hbp φ hφ]
      simp only [py_bind_ok, o.imagPos_eq, e2]
      refine ⟨_, rfl, ?_, ?_⟩
      · intro x
        simp only [Vec.runWr, List.foldlM_cons, List.foldlM_nil, bind_pure]
        rw [Vec.cadd_eq _ (by omega)]
        congr 1
        funext x1
        rw [Vec.cadd_eq _ (by omega)]
      · intro w hw
        simp only [List.mem_cons, List.not_mem_nil, or_false] at hw
        rcases hw with rfl | rfl
        · exact ⟨⟨by simp, by simp; omega⟩, Or.inl rfl⟩
        · exact ⟨⟨by simp, by simp; omega⟩, Or.inr ⟨e1, rfl⟩⟩
  | elem f b bp c a ap c' =>
    simp only [KCall.target, Prod.mk.injEq] at ht
    obtain ⟨rfl, rfl, rfl⟩ := ht
    obtain ⟨h0, hb, hbp, hi, h0', ha, hap, hi'⟩ := hk
    obtain ⟨q', rfl⟩ := Int.eq_ofNat_of_zero_le h0'
    simp only [Int.ofNat_eq_natCast, Int.toNat_natCast] at hb hbp hi ha hap hi' ⊢
    simp only [CKH.writesFree, View.callFree]
    rw [o.ind0_eq, o.ind0_eq, o.phi0Element_eq h φ ha hap, h.ind0_inc hb hbp hi,
      h.ind0_inc ha hap hi', h.phi0Element ha hap φ hφ]
    simp only [py_bind_ok, o.imagPos_eq, hnd]
    have hl := h.lab_lt_r hb hbp hi
    refine ⟨_, rfl, ?_, ?_⟩
    · intro x
      unfold View.subImag
      simp only [Vec.runWr, List.foldlM_cons]
      rw [Vec.cadd_eq _ (by omega)]
      congr 1
      funext x1
      by_cases g2 : ((d.view nleads).ndm0 : Int) ≤ (d.view nleads).imagPos (la.lab tc b bp : Int)
      · simp only [g2, if_true, List.foldlM_cons, List.foldlM_nil, bind_pure]
        rw [Vec.cadd_eq _ (by omega)]
      · simp only [g2, if_false, List.foldlM_nil]
    · intro w hw
      rcases List.mem_cons.1 hw with rfl | hw
      · exact ⟨⟨by simp, by simp; omega⟩, Or.inl rfl⟩
      · split at hw
        · rename_i g2
          have hne : b ≠ bp := by
            rintro rfl
            have := h.imagPos_diag hb
            omega
          obtain ⟨f4, _, f5⟩ := h.imagPos_off hb hbp hne hi
          rw [f4] at hw
          rw [List.mem_singleton] at hw
          subst hw
          exact ⟨⟨by simp, by simp; omega⟩, Or.inr ⟨hne, rfl⟩⟩
        · simp at hw

omit h in
/-- The calls of the Pauli approach. -/
theorem writes_pauli {fm fp : ℝ} {x y : Nat} (hx : x < d.npauli) (hy : y < d.npauli) :
    kh.writes (.pauli fm fp x y) = .ok [⟨x, x, fm⟩, ⟨x, y, fp⟩] ∧
      (∀ m, (d.view nleads).callKern m (.pauli fm fp x y) = m.runWr [⟨x, x, fm⟩, ⟨x, y, fp⟩]) ∧
      ∀ w ∈ ([⟨x, x, fm⟩, ⟨x, y, fp⟩] : List MWr), w.In d.npauli ∧ w.row = x := by
  refine ⟨rfl, ?_, ?_⟩
  · intro m
    simp only [View.callKern, Mat.runWr, List.foldlM_cons, List.foldlM_nil, bind_pure]
    rw [Mat.cadd_eq _ (by omega) (by omega)]
    congr 1
    funext m1
    rw [Mat.cadd_eq _ (by omega) (by omega)]
  · intro w hw
    simp only [List.mem_cons, List.not_mem_nil, or_false] at hw
    rcases hw with rfl | rfl
    · exact ⟨⟨by simp, by simp; omega, by simp, by simp; omega⟩, rfl⟩
    · exact ⟨⟨by simp, by simp; omega, by simp, by simp; omega⟩, rfl⟩

omit h in
theorem writesFree_pauli {φ : Vec} (hφ : d.npauli ≤ φ.size) {fm fp : ℝ} {x y : Nat}
    (hx : x < d.npauli) (hy : y < d.npauli) :
    kh.writesFree φ (.pauli fm fp x y) = .ok [⟨x, fm * φ.val x + fp * φ.val y⟩] ∧
      (∀ z, (d.view nleads).callFree φ z (.pauli fm fp x y)
        = z.runWr [⟨x, fm * φ.val x + fp * φ.val y⟩]) ∧
      ∀ w ∈ ([⟨x, fm * φ.val x + fp * φ.val y⟩] : List VWr), w.In d.npauli ∧ w.pos = x := by
  have g : ∀ {i : Nat}, i < d.npauli → φ.get (i : Int) = .ok (φ.val i) := by
    intro i hi
    unfold Vec.get; rw [pyIdx_nat (by omega)]; rfl
  refine ⟨?_, ?_, ?_⟩
  · simp only [CKH.writesFree]
    rw [Vec.cget_eq _ (by omega), Vec.cget_eq _ (by omega), g hx, g hy]
    rfl
  · intro z
    simp only [View.callFree, Vec.runWr, List.foldlM_cons, List.foldlM_nil, bind_pure]
    rw [g hx, g hy, Vec.cadd_eq _ (by omega)]
    rfl
  · intro w hw
    rw [List.mem_singleton] at hw
    subst hw
    exact ⟨⟨by simp, by simp; omega⟩, rfl⟩

end CKH.Of

/-! ### The whole loop -/

/-- The updates of one cell by all iterations. -/
theorem sum_flat {κ : Type} [DecidableEq κ] {β γ : Type} (ts : List β) (g : β → List γ) (cell : γ → κ × ℝ) (k : κ) :
    cellSum ((ts.flatMap g).map cell) k
      = ∑ i ∈ range ts.length, cellSum (((ts[i]?.map g).getD []).map cell) k := by
  induction ts with
  | nil => rfl
  | cons t ts ih =>
    rw [List.flatMap_cons, List.map_append, cellSum_append, ih, List.length_cons,
      sum_range_succ' (fun i => cellSum ((((t :: ts)[i]?.map g).getD []).map cell) k)]
    simp only [List.getElem?_cons_succ, List.getElem?_cons_zero, Option.map_some, Option.getD_some]
    rw [add_comm]

/-- `x` if there is no error. -/
def okOr {β : Type} (x : Py (List β)) : List β :=
  match x with
  | .ok l => l
  | .error _ => []

theorem runKern_append (v : View) (m : Mat) (l l' : List KCall) :
    v.runKern m (l ++ l') = v.runKern m l >>= fun m => v.runKern m l' := by
  unfold View.runKern
  rw [List.foldlM_append]

theorem runFree_append (v : View) (φ x : Vec) (l l' : List KCall) :
    v.runFree φ x (l ++ l') = v.runFree φ x l >>= fun x => v.runFree φ x l' := by
  unfold View.runFree
  rw [List.foldlM_append]

theorem runKern_flat {v : View} {ts : List Trip} {calls : Trip → List KCall} {g : Trip → List MWr}
    (hg : ∀ t ∈ ts, ∀ m, v.runKern m (calls t) = m.runWr (g t)) (m : Mat) :
    v.runKern m (ts.flatMap calls) = m.runWr (ts.flatMap g) := by
  induction ts generalizing m with
  | nil => rfl
  | cons t ts ih =>
    rw [List.flatMap_cons, List.flatMap_cons, runKern_append, hg t (by simp)]
    unfold Mat.runWr
    rw [List.foldlM_append]
    congr 1
    funext m1
    exact ih (fun t ht => hg t (by simp [ht])) m1

theorem runFree_flat {v : View} {φ : Vec} {ts : List Trip} {calls : Trip → List KCall}
    {g : Trip → List VWr} (hg : ∀ t ∈ ts, ∀ x, v.runFree φ x (calls t) = x.runWr (g t)) (x : Vec) :
    v.runFree φ x (ts.flatMap calls) = x.runWr (ts.flatMap g) := by
  induction ts generalizing x with
  | nil => rfl
  | cons t ts ih =>
    rw [List.flatMap_cons, List.flatMap_cons, runFree_append, hg t (by simp)]
    unfold Vec.runWr
    rw [List.foldlM_append]
    congr 1
    funext m1
    exact ih (fun t ht => hg t (by simp [ht])) m1

/-- From calls to lists of calls. -/
theorem writes_list {kh : CKH} {v : View} {P : MWr → Prop} {ks : List KCall}
    (hk : ∀ k ∈ ks, ∃ ws, kh.writes k = .ok ws ∧ (∀ m, v.callKern m k = m.runWr ws) ∧
      ∀ w ∈ ws, P w) :
    ∃ ws, collect ks kh.writes = .ok ws ∧ (∀ m, v.runKern m ks = m.runWr ws) ∧ ∀ w ∈ ws, P w := by
  induction ks with
  | nil => exact ⟨[], rfl, fun _ => rfl, by simp⟩
  | cons k ks ih =>
    obtain ⟨w1, a1, a2, a3⟩ := hk k (by simp)
    obtain ⟨w2, b1, b2, b3⟩ := ih fun k hk' => hk k (by simp [hk'])
    refine ⟨w1 ++ w2, ?_, ?_, ?_⟩
    · rw [collect_cons, a1, b1]; rfl
    · intro m
      unfold View.runKern Mat.runWr at *
      rw [List.foldlM_cons, a2, List.foldlM_append]
      congr 1
      funext m1
      exact b2 m1
    · intro w hw
      rcases List.mem_append.1 hw with hw | hw
      · exact a3 w hw
      · exact b3 w hw

theorem writesFree_list {kh : CKH} {v : View} {φ : Vec} {P : VWr → Prop} {ks : List KCall}
    (hk : ∀ k ∈ ks, ∃ ws, kh.writesFree φ k = .ok ws ∧ (∀ x, v.callFree φ x k = x.runWr ws) ∧
      ∀ w ∈ ws, P w) :
    ∃ ws, collect ks (kh.writesFree φ) = .ok ws ∧ (∀ x, v.runFree φ x ks = x.runWr ws) ∧
      ∀ w ∈ ws, P w := by
  induction ks with
  | nil => exact ⟨[], rfl, fun _ => rfl, by simp⟩
  | cons k ks ih =>
    obtain ⟨w1, a1, a2, a3⟩ := hk k (by simp)
    obtain ⟨w2, b1, b2, b3⟩ := ih fun k hk' => hk k (by simp [hk'])
    refine ⟨w1 ++ w2, ?_, ?_, ?_⟩
    · rw [collect_cons, a1, b1]; rfl
    · intro m
      unfold View.runFree Vec.runWr at *
      rw [List.foldlM_cons, a2, List.foldlM_append]
      congr 1
      funext m1
      exact b2 m1
    · intro w hw
      rcases List.mem_append.1 hw with hw | hw
      · exact a3 w hw
      · exact b3 w hw

section
variable {v : View} {la : Lab} {uni : Nat → Nat → Nat → Bool} (h : VRep v la uni)
  {kh : CKH} {E : Nat → ℝ} {coup : Nat → Nat → Int → Py (List KCall)} {calls : Trip → List KCall}
  {n : Nat} (hnod : kh.allBbp.Nodup) (hsub : ∀ t ∈ kh.allBbp, t ∈ elems v la uni)
  (hlen : kh.nelements = kh.allBbp.length)
include h hnod hsub hlen

theorem loop_ok
    (hw : ∀ i (hi : i < kh.allBbp.length), ∃ ws, kh.iterWrites E coup i = .ok ws ∧
      (∀ m, v.runKern m (calls kh.allBbp[i]) = m.runWr ws) ∧
      ∀ w ∈ ws, w.In n ∧ rowsOf v la kh.allBbp[i] w.row) {rows : Nat} (hrows : n ≤ rows) :
    ∃ m, v.runKern (Mat.zeros rows n) (kh.allBbp.flatMap calls) = .ok m ∧ kh.Computes E coup m := by
  have key : ∀ t ∈ kh.allBbp, ∃ ws : List MWr, (∀ m, v.runKern m (calls t) = m.runWr ws) ∧
      (∀ w ∈ ws, w.In n ∧ rowsOf v la t w.row) ∧
      ∀ i (hi : i < kh.allBbp.length), kh.allBbp[i] = t → kh.iterWrites E coup i = .ok ws := by
    intro t ht
    obtain ⟨i, hi, rfl⟩ := List.getElem_of_mem ht
    obtain ⟨ws, a1, a2, a3⟩ := hw i hi
    refine ⟨ws, a2, a3, ?_⟩
    intro j hj e
    rw [(hnod.getElem_inj_iff).1 e]
    exact a1
  choose! g g1 g2 g3 using key
  obtain ⟨prog, hprog⟩ : ∃ prog : Nat → List MWr, ∀ i, prog i = (kh.allBbp[i]?.map g).getD [] :=
    ⟨_, fun _ => rfl⟩
  have hat : ∀ i (hi : i < kh.allBbp.length), prog i = g kh.allBbp[i] := by
    intro i hi; rw [hprog]; simp [hi]
  have hout : ∀ i, kh.allBbp.length ≤ i → prog i = [] := by
    intro i hi; rw [hprog]; simp [hi]
  obtain ⟨m, k1, k2, k3, k4⟩ := Mat.runWr_val (n := n) (kh.allBbp.flatMap g) (by
    intro w hw
    obtain ⟨t, ht, hw⟩ := List.mem_flatMap.1 hw
    exact (g2 t ht w hw).1) (Mat.zeros rows n) hrows (le_refl n)
  rw [← runKern_flat g1] at k1
  refine ⟨m, k1, prog, ?_, ?_, ?_, ?_, ?_⟩
  · intro i hi
    rw [hlen] at hi
    rw [hat i hi]
    exact g3 _ (List.getElem_mem hi) i hi rfl
  · intro i hi
    exact hout i (by omega)
  · intro i w hw
    by_cases hi : i < kh.allBbp.length
    · rw [hat i hi] at hw
      obtain ⟨⟨a1, a2, a3, a4⟩, _⟩ := g2 _ (List.getElem_mem hi) w hw
      rw [k2, k3]
      exact ⟨a1, by simp only [Mat.zeros]; omega, a3, a4⟩
    · rw [hout i (by omega)] at hw
      simp at hw
  · apply PEnd.exists (N := kh.allBbp.length)
    intro i hi
    show (prog i).map MWr.cell = []
    rw [hout i hi]
    rfl
  · intro x hx r c
    rw [PEnd.eq (N := kh.allBbp.length) _ _ hx, k4, sum_flat]
    · simp [Mat.zeros, hprog]
    · intro i hi
      show (prog i).map MWr.cell = []
      rw [hout i hi]
      rfl
    · intro i j hij p hp q hq
      obtain ⟨w, hw', rfl⟩ := List.mem_map.1 hp
      obtain ⟨w', hw'', rfl⟩ := List.mem_map.1 hq
      by_cases hi : i < kh.allBbp.length
      · by_cases hj : j < kh.allBbp.length
        · rw [hat i hi] at hw'
          rw [hat j hj] at hw''
          obtain ⟨⟨a1, _⟩, a2⟩ := g2 _ (List.getElem_mem hi) w hw'
          obtain ⟨⟨b1, _⟩, b2⟩ := g2 _ (List.getElem_mem hj) w' hw''
          have hne : kh.allBbp[i] ≠ kh.allBbp[j] := fun e => hij ((hnod.getElem_inj_iff).1 e)
          have := rows_disj h (hsub _ (List.getElem_mem hi)) (hsub _ (List.getElem_mem hj)) hne a2 b2
          intro e
          simp only [MWr.cell, Prod.mk.injEq] at e
          omega
        · rw [hout j (by omega)] at hw''
          simp at hw''
      · rw [hout i (by omega)] at hw'
        simp at hw'

theorem loopFree_ok {φ : Vec}
    (hw : ∀ i (hi : i < kh.allBbp.length), ∃ ws, kh.iterWritesFree E coup φ i = .ok ws ∧
      (∀ x, v.runFree φ x (calls kh.allBbp[i]) = x.runWr ws) ∧
      ∀ w ∈ ws, w.In n ∧ rowsOf v la kh.allBbp[i] w.pos) :
    ∃ x, v.runFree φ (Vec.zeros n) (kh.allBbp.flatMap calls) = .ok x ∧ x.size = n ∧
      kh.ComputesFree E coup φ x := by
  have key : ∀ t ∈ kh.allBbp, ∃ ws : List VWr, (∀ x, v.runFree φ x (calls t) = x.runWr ws) ∧
      (∀ w ∈ ws, w.In n ∧ rowsOf v la t w.pos) ∧
      ∀ i (hi : i < kh.allBbp.length), kh.allBbp[i] = t → kh.iterWritesFree E coup φ i = .ok ws := by
    intro t ht
    obtain ⟨i, hi, rfl⟩ := List.getElem_of_mem ht
    obtain ⟨ws, a1, a2, a3⟩ := hw i hi
    refine ⟨ws, a2, a3, ?_⟩
    intro j hj e
    rw [(hnod.getElem_inj_iff).1 e]
    exact a1
  choose! g g1 g2 g3 using key
  obtain ⟨prog, hprog⟩ : ∃ prog : Nat → List VWr, ∀ i, prog i = (kh.allBbp[i]?.map g).getD [] :=
    ⟨_, fun _ => rfl⟩
  have hat : ∀ i (hi : i < kh.allBbp.length), prog i = g kh.allBbp[i] := by
    intro i hi; rw [hprog]; simp [hi]
  have hout : ∀ i, kh.allBbp.length ≤ i → prog i = [] := by
    intro i hi; rw [hprog]; simp [hi]
  obtain ⟨m, k1, k2, k4⟩ := Vec.runWr_val (n := n) (kh.allBbp.flatMap g) (by
    intro w hw
    obtain ⟨t, ht, hw⟩ := List.mem_flatMap.1 hw
    exact (g2 t ht w hw).1) (Vec.zeros n) (le_refl n)
  rw [← runFree_flat g1] at k1
  refine ⟨m, k1, k2, prog, ?_, ?_, ?_, ?_, ?_⟩
  · intro i hi
    rw [hlen] at hi
    rw [hat i hi]
    exact g3 _ (List.getElem_mem hi) i hi rfl
  · intro i hi
    exact hout i (by omega)
  · intro i w hw
    by_cases hi : i < kh.allBbp.length
    · rw [hat i hi] at hw
      obtain ⟨⟨a1, a2⟩, _⟩ := g2 _ (List.getElem_mem hi) w hw
      rw [k2]
      exact ⟨a1, a2⟩
    · rw [hout i (by omega)] at hw
      simp at hw
  · apply PEnd.exists (N := kh.allBbp.length)
    intro i hi
    show (prog i).map VWr.cell = []
    rw [hout i hi]
    rfl
  · intro x hx r
    rw [PEnd.eq (N := kh.allBbp.length) _ _ hx, k4, sum_flat]
    · simp [Vec.zeros, hprog]
    · intro i hi
      show (prog i).map VWr.cell = []
      rw [hout i hi]
      rfl
    · intro i j hij p hp q hq
      obtain ⟨w, hw', rfl⟩ := List.mem_map.1 hp
      obtain ⟨w', hw'', rfl⟩ := List.mem_map.1 hq
      by_cases hi : i < kh.allBbp.length
      · by_cases hj : j < kh.allBbp.length
        · rw [hat i hi] at hw'
          rw [hat j hj] at hw''
          obtain ⟨⟨a1, _⟩, a2⟩ := g2 _ (List.getElem_mem hi) w hw'
          obtain ⟨⟨b1, _⟩, b2⟩ := g2 _ (List.getElem_mem hj) w' hw''
          have hne : kh.allBbp[i] ≠ kh.allBbp[j] := fun e => hij ((hnod.getElem_inj_iff).1 e)
          have := rows_disj h (hsub _ (List.getElem_mem hi)) (hsub _ (List.getElem_mem hj)) hne a2 b2
          intro e
          simp only [VWr.cell] at e
          omega
        · rw [hout j (by omega)] at hw''
          simp at hw''
      · rw [hout i (by omega)] at hw'
        simp at hw'

end

end

end Verif
