import Verif.Lemmas.Compiled
import Verif.Lemmas.EaExt

/-! The tables `all_bbp` and `all_ba` of the compiled handler; the factors and the currents. -/

namespace Verif

/-! ### Lists -/

theorem getD_get {l : List Nat} {i : Nat} (h : i < l.length) : l.getD i 0 = l[i] := by
  simp [List.getD, h]

theorem combsR2_range (l : List Nat) : combsR2 l = (List.range l.length).flatMap fun i =>
    (List.range' i (l.length - i)).map fun j => (l.getD i 0, l.getD j 0) := by
  induction l with
  | nil => rfl
  | cons a l ih =>
    rw [combsR2, List.length_cons, List.range_succ_eq_map, List.flatMap_cons]
    congr 1
    · rw [Nat.sub_zero, ← List.range_eq_range']
      apply List.ext_getElem
      · simp
      · intro i h1 h2
        simp only [List.length_map, List.length_cons] at h1
        simp only [List.getElem_map, List.getElem_range, List.getD_cons_zero]
        rw [getD_get (by simpa using h1)]
    · rw [ih, List.flatMap_map]
      congr 1
      funext i
      rw [show l.length + 1 - (i.succ) = l.length - i by omega,
        show i.succ = i + 1 from rfl, List.range'_eq_map_range, List.range'_eq_map_range]
      simp only [List.map_map]
      apply List.map_congr_left
      intro j _
      simp only [Function.comp]
      rw [show i + 1 + j = (i + j) + 1 by omega]
      simp

theorem collect_range_get {α β : Type} (l : List α) (F : α → Py (List β)) {n : Nat}
    (hn : n = l.length) :
    collect (List.range n) (fun (i : Nat) => cGet l (i : Int) >>= F) = collect l F := by
  subst hn
  have e : l = (List.range l.length).attach.map fun i => l[i.1]'(List.mem_range.1 i.2) := by
    apply List.ext_getElem
    · simp
    · intro i h1 h2; simp
  conv_rhs => rw [e]
  rw [collect_onmap]
  conv_lhs => rw [← List.attach_map_subtype_val (List.range l.length)]
  rw [collect_onmap]
  apply collect_congr
  intro i _
  rw [cGet_nat l (List.mem_range.1 i.2)]
  rfl

theorem foldlM_range_get {α σ : Type} (l : List α) (F : σ → α → Py σ) {n : Nat}
    (hn : n = l.length) (s : σ) :
    (List.range n).foldlM (fun s (i : Nat) => cGet l (i : Int) >>= F s) s = l.foldlM F s := by
  subst hn
  have e : l = (List.range l.length).attach.map fun i => l[i.1]'(List.mem_range.1 i.2) := by
    apply List.ext_getElem
    · simp
    · intro i h1 h2; simp
  conv_rhs => rw [e]
  rw [List.foldlM_map]
  conv_lhs => rw [← List.attach_map_subtype_val (List.range l.length)]
  rw [List.foldlM_map]
  apply foldlM_congr_c
  intro s i _
  rw [cGet_nat l (List.mem_range.1 i.2)]
  rfl

theorem fillRows_aux (rows : List Trip) (p : List Trip) (m : Nat) (hm : rows.length ≤ m) :
    (rows.zipIdx p.length).foldlM (fun arr q => cSet arr (q.2 : Int) q.1)
        (p ++ List.replicate m (0, 0, 0))
      = (.ok (p ++ rows ++ List.replicate (m - rows.length) (0, 0, 0)) : Py (List Trip)) := by
  induction rows generalizing p m with
  | nil => simp
  | cons r rows ih =>
    obtain ⟨m, rfl⟩ : ∃ k, m = k + 1 := ⟨m - 1, by simp at hm; omega⟩
    simp only [List.zipIdx_cons, List.foldlM_cons]
    have : cSet (p ++ List.replicate (m + 1) ((0, 0, 0) : Trip)) (p.length : Int) r
        = .ok ((p ++ [r]) ++ List.replicate m (0, 0, 0)) := by
      unfold cSet
      rw [cIdx_nat (by simp)]
      simp [List.replicate_succ]
    rw [this]
    simp only [py_bind_ok]
    have := ih (p ++ [r]) m (by simp at hm; omega)
    rw [List.length_append, List.length_singleton] at this
    rw [this]
    simp

/-- As many rows as there is place for. -/
theorem fillRows_ok {n : Nat} {rows : List Trip} (h : rows.length = n) :
    CKH.fillRows n rows = .ok rows := by
  unfold CKH.fillRows
  have := fillRows_aux rows [] n (by omega)
  simp only [List.length_nil, List.nil_append] at this
  rw [this, show n - rows.length = 0 by omega]
  simp

theorem flatMap_ite_eq {α β : Type} (l : List α) (q : α → Bool) (g : α → β) :
    (l.flatMap fun x => if q x then [g x] else []) = (l.filter q).map g := by
  induction l with
  | nil => rfl
  | cons a l ih => cases h : q a <;> simp [h, ih]

/-! ### The elements of the parallel loop -/

/-- The elements with an equation of their own, in the order of the loops. -/
def elems (v : View) (la : Lab) (uni : Nat → Nat → Nat → Bool) : List Trip :=
  (List.range v.ncharge).flatMap fun c => (combsR2 (v.row c)).flatMap fun p =>
    if la.inc c p.1 p.2 && uni c p.1 p.2 then [(p.1, p.2, c)] else []

/-- The diagonal ones. -/
def elemsD (v : View) (uni : Nat → Nat → Nat → Bool) : List Trip :=
  (List.range v.ncharge).flatMap fun c => (v.row c).flatMap fun b =>
    if uni c b b then [(b, b, c)] else []

/-- The pairs of neighbouring states. -/
def pairs1 (v : View) : List Trip :=
  (List.range (v.ncharge - 1)).flatMap fun q => (prod2 (v.row (q + 1)) (v.row q)).map fun p =>
    (p.1, p.2, q)

section
variable {v : View} {la : Lab} {uni : Nat → Nat → Nat → Bool} (h : VRep v la uni)
include h

theorem elems_mem {t : Trip} : t ∈ elems v la uni ↔ t.1 ∈ v.row t.2.2 ∧ t.2.1 ∈ v.row t.2.2 ∧
    la.inc t.2.2 t.1 t.2.1 = true ∧ uni t.2.2 t.1 t.2.1 = true := by
  obtain ⟨b, bp, c⟩ := t
  simp only [elems, List.mem_flatMap, List.mem_range]
  constructor
  · rintro ⟨c', _, p, hp, hm⟩
    split at hm
    · rename_i hi
      simp only [List.mem_singleton, Prod.mk.injEq] at hm
      obtain ⟨rfl, rfl, rfl⟩ := hm
      simp only [Bool.and_eq_true] at hi
      exact ⟨(combsR2_mem hp).1, (combsR2_mem hp).2, hi.1, hi.2⟩
    · simp at hm
  · rintro ⟨hb, hbp, hi, hu⟩
    refine ⟨c, h.row_lt hb, (b, bp), ?_, by simp [hi, hu]⟩
    by_cases e : b = bp
    · subst e; exact combsR2_iff.2 (Or.inr ⟨rfl, hb⟩)
    · exact combsR2_iff.2 (Or.inl (h.uni_ord c b bp hb hbp e hi hu))

theorem elems_nodup : (elems v la uni).Nodup := by
  unfold elems
  rw [List.nodup_flatMap]
  refine ⟨?_, ?_⟩
  · intro c _
    rw [flatMap_ite_eq _ (fun p : Nat × Nat => la.inc c p.1 p.2 && uni c p.1 p.2)]
    refine ((combsR2_nodup (h.nodup c)).filter _).map ?_
    rintro ⟨x, y⟩ ⟨x', y'⟩ e
    simpa using e
  · refine List.Pairwise.imp_of_mem ?_ List.nodup_range
    intro c c' _ _ hne t ht ht'
    simp only [List.mem_flatMap] at ht ht'
    obtain ⟨p, _, hp⟩ := ht
    obtain ⟨p', _, hp'⟩ := ht'
    split at hp
    · split at hp'
      · simp only [List.mem_singleton] at hp hp'
        rw [hp] at hp'
        simp only [Prod.mk.injEq] at hp'
        exact hne hp'.2.2
      · simp at hp'
    · simp at hp

/-- Labels of different elements of the loop differ. -/
theorem elems_lab_inj {t t' : Trip} (ht : t ∈ elems v la uni) (ht' : t' ∈ elems v la uni)
    (e : la.lab t.2.2 t.1 t.2.1 = la.lab t'.2.2 t'.1 t'.2.1) : t = t' := by
  obtain ⟨a1, a2, a3, a4⟩ := (elems_mem h).1 ht
  obtain ⟨b1, b2, b3, b4⟩ := (elems_mem h).1 ht'
  obtain ⟨e1, e2, e3⟩ := h.uni_inj _ _ _ _ _ _ a1 a2 a3 b1 b2 b3 a4 b4 e
  exact Prod.ext e2 (Prod.ext e3 e1)

theorem elems_length : (elems v la uni).length = v.ndm0 := by
  have hp : ((elems v la uni).map fun t => la.lab t.2.2 t.1 t.2.1).Perm (List.range v.ndm0) := by
    rw [List.perm_ext_iff_of_nodup ((elems_nodup h).map_on
      (fun x hx y hy e => elems_lab_inj h hx hy e)) List.nodup_range]
    intro k
    simp only [List.mem_map, List.mem_range]
    constructor
    · rintro ⟨t, ht, rfl⟩
      obtain ⟨a1, a2, a3, _⟩ := (elems_mem h).1 ht
      exact h.lab_lt a1 a2 a3
    · intro hk
      obtain ⟨c, b, bp, h1, h2, h3, h4, h5⟩ := h.uni_surj k hk
      exact ⟨(b, bp, c), (elems_mem h).2 ⟨h1, h2, h3, h4⟩, h5⟩
  simpa using hp.length_eq

theorem elemsD_mem {t : Trip} : t ∈ elemsD v uni ↔ t.1 ∈ v.row t.2.2 ∧ t.2.1 = t.1 ∧
    uni t.2.2 t.1 t.1 = true := by
  obtain ⟨b, bp, c⟩ := t
  simp only [elemsD, List.mem_flatMap, List.mem_range]
  constructor
  · rintro ⟨c', _, p, hp, hm⟩
    split at hm
    · rename_i hi
      simp only [List.mem_singleton, Prod.mk.injEq] at hm
      obtain ⟨rfl, rfl, rfl⟩ := hm
      exact ⟨hp, rfl, hi⟩
    · simp at hm
  · rintro ⟨hb, rfl, hu⟩
    exact ⟨c, h.row_lt hb, bp, hb, by simp [hu]⟩

theorem elemsD_sub {t : Trip} (ht : t ∈ elemsD v uni) : t ∈ elems v la uni := by
  obtain ⟨a1, a2, a3⟩ := (elemsD_mem h).1 ht
  exact (elems_mem h).2 ⟨a1, a2 ▸ a1, by rw [a2]; exact h.inc_diag _ _ a1, by rw [a2]; exact a3⟩

theorem elemsD_nodup : (elemsD v uni).Nodup := by
  unfold elemsD
  rw [List.nodup_flatMap]
  refine ⟨?_, ?_⟩
  · intro c _
    rw [flatMap_ite_eq _ (fun b : Nat => uni c b b)]
    refine ((h.nodup c).filter _).map ?_
    intro x y e
    simpa using e
  · refine List.Pairwise.imp_of_mem ?_ List.nodup_range
    intro c c' _ _ hne t ht ht'
    simp only [List.mem_flatMap] at ht ht'
    obtain ⟨p, _, hp⟩ := ht
    obtain ⟨p', _, hp'⟩ := ht'
    split at hp
    · split at hp'
      · simp only [List.mem_singleton] at hp hp'
        rw [hp] at hp'
        simp only [Prod.mk.injEq] at hp'
        exact hne hp'.2.2
      · simp at hp'
    · simp at hp

theorem elemsD_length : (elemsD v uni).length = v.npauli := by
  have hp : ((elemsD v uni).map fun t => la.lab t.2.2 t.1 t.2.1).Perm (List.range v.npauli) := by
    rw [List.perm_ext_iff_of_nodup ((elemsD_nodup h).map_on
      (fun x hx y hy e => elems_lab_inj h (elemsD_sub h hx) (elemsD_sub h hy) e)) List.nodup_range]
    intro k
    simp only [List.mem_map, List.mem_range]
    constructor
    · rintro ⟨t, ht, rfl⟩
      obtain ⟨a1, a2, _⟩ := (elemsD_mem h).1 ht
      rw [a2]
      exact h.lab_diag _ _ a1
    · intro hk
      obtain ⟨c, b, bp, h1, h2, h3, h4, h5⟩ := h.uni_surj k (by have := h.np_le; omega)
      have e : b = bp := by
        by_contra e
        have := (h.lab_off c b bp h1 h2 e h3).1
        omega
      subst e
      exact ⟨(b, b, c), (elemsD_mem h).2 ⟨h1, rfl, h4⟩, h5⟩
  simpa using hp.length_eq

end

namespace CKH.Of

variable {kh : CKH} {d : DM} {nleads : Nat} (o : CKH.Of kh d nleads)
include o

section
variable {la : Lab} {uni : Nat → Nat → Nat → Bool} (h : VRep (d.view nleads) la uni)
  (hx : ∀ c b bp, b ∈ (d.view nleads).row c → bp ∈ (d.view nleads).row c →
    la.inc c b bp = false → (d.view nleads).bool0 b bp c = .ok false)
include h

include hx in
theorem bbpPairs_ok (hn : kh.noCoh = false) (hj : kh.noConj = true) :
    kh.bbpPairs = .ok (elems (d.view nleads) la uni) := by
  have hl : (d.view nleads).ncharge + 1 ≤ d.statesdm.length := h.len
  have hnc : kh.ncharge = (d.view nleads).ncharge := o.ncharge
  unfold CKH.bbpPairs elems
  simp only [hj, if_true]
  rw [hnc]
  apply collect_ok
  intro c hc
  have hc := List.mem_range.1 hc
  rw [o.count_get (by omega)]
  simp only [py_bind_ok]
  rw [combsR2_range, List.flatMap_assoc]
  apply collect_ok
  intro i hi
  have hi := List.mem_range.1 hi
  rw [List.flatMap_map]
  apply collect_ok
  intro j hj
  have hj : j < ((d.view nleads).row c).length := by
    have := List.mem_range'_1.1 hj; omega
  rw [hn]
  simp only [Bool.false_eq_true, false_and, if_false]
  rw [o.stateAt_ok hi, o.stateAt_ok hj]
  simp only [py_bind_ok]
  rw [getD_get hi, getD_get hj]
  have mi := List.getElem_mem hi
  have mj := List.getElem_mem hj
  rw [o.bool0_eq]
  cases hinc : la.inc c ((d.view nleads).row c)[i] ((d.view nleads).row c)[j] with
  | false => rw [hx _ _ _ mi mj hinc]; rfl
  | true => rw [h.bool0 _ _ _ mi mj hinc]; simp

theorem bbpPairs_diag_ok (hn : kh.noCoh = true) (hj : kh.noConj = true) :
    kh.bbpPairs = .ok (elemsD (d.view nleads) uni) := by
  have hl : (d.view nleads).ncharge + 1 ≤ d.statesdm.length := h.len
  have hnc : kh.ncharge = (d.view nleads).ncharge := o.ncharge
  unfold CKH.bbpPairs elemsD
  simp only [hj, if_true]
  rw [hnc]
  apply collect_ok
  intro c hc
  have hc := List.mem_range.1 hc
  rw [o.count_get (by omega)]
  simp only [py_bind_ok]
  have e : (d.view nleads).row c = (List.range ((d.view nleads).row c).length).map
      fun i => ((d.view nleads).row c).getD i 0 := by
    apply List.ext_getElem
    · simp
    · intro i h1 h2
      simp only [List.getElem_map, List.getElem_range]
      rw [getD_get h1]
  conv_rhs => rw [e]
  rw [List.flatMap_map]
  apply collect_ok
  intro i hi
  have hi := List.mem_range.1 hi
  obtain ⟨k, hk⟩ : ∃ k, ((d.view nleads).row c).length - i = k + 1 :=
    ⟨((d.view nleads).row c).length - i - 1, by omega⟩
  rw [hk, List.range'_succ, collect_cons]
  have h0 : collect (List.range' (i + 1) k) (fun j =>
      if kh.noCoh = true ∧ i ≠ j then pure [] else do
          let b ← kh.stateAt (c : Nat) i
          let bp ← kh.stateAt (c : Nat) j
          let u ← kh.bool0 b bp (c : Nat)
          pure (if u then [(b, bp, c)] else [])) = (.ok [] : Py (List Trip)) := by
    rw [collect_ok (g := fun _ => [])]
    · simp
    · intro j hj
      have := List.mem_range'_1.1 hj
      rw [if_pos ⟨hn, by omega⟩]
      rfl
  rw [h0, if_neg (by simp), o.stateAt_ok hi]
  simp only [py_bind_ok]
  have mi := List.getElem_mem hi
  rw [o.bool0_eq, h.bool0 _ _ _ mi mi (h.inc_diag _ _ mi), getD_get hi]
  simp only [py_bind_ok, py_pure, List.append_nil]

end

theorem baPairs_ok' (hl : (d.view nleads).ncharge ≤ d.statesdm.length) :
    kh.baPairs = .ok (pairs1 (d.view nleads)) := by
  have hnc : kh.ncharge = (d.view nleads).ncharge := o.ncharge
  unfold CKH.baPairs pairs1
  rw [hnc, List.range'_eq_map_range, collect_onmap]
  apply collect_ok
  intro q hq
  have hq := List.mem_range.1 hq
  have e1 : ((1 + q : Nat) : Int) - 1 = (q : Int) := by omega
  have e2 : 1 + q - 1 = q := by omega
  rw [show (1 + q : Nat) = q + 1 by omega] at e1 e2 ⊢
  rw [o.count_get (by omega)]
  simp only [py_bind_ok, e1, e2]
  rw [o.count_get (c := q) (by omega)]
  simp only [py_bind_ok]
  unfold prod2
  have er : ∀ c, (d.view nleads).row c = (List.range ((d.view nleads).row c).length).map
      fun i => ((d.view nleads).row c).getD i 0 := by
    intro c
    apply List.ext_getElem
    · simp
    · intro i h1 h2
      simp only [List.getElem_map, List.getElem_range]
      rw [getD_get h1]
  rw [List.map_flatMap]
  conv_rhs => rw [er (q + 1)]
  rw [List.flatMap_map]
  apply collect_ok
  intro i hi
  have hi := List.mem_range.1 hi
  rw [List.map_map]
  conv_rhs => rw [er q]
  rw [List.map_map, List.map_eq_flatMap]
  apply collect_ok
  intro j hj
  have hj := List.mem_range.1 hj
  rw [o.stateAt_ok hi, o.stateAt_ok hj]
  simp only [py_bind_ok, py_pure, Function.comp]
  rw [getD_get hi, getD_get hj]

theorem baPairs_ok {la : Lab} (h : VMul (d.view nleads) la) :
    kh.baPairs = .ok (pairs1 (d.view nleads)) :=
  o.baPairs_ok' (by have : (d.view nleads).ncharge + 1 ≤ d.statesdm.length := h.len; omega)

end CKH.Of

/-- The handler that is made for the object. -/
def CKH.made (d : DM) (nleads : Nat) (noCoh : Bool) (t t' : List Trip) : CKH :=
  { CKH.base d nleads noCoh with allBbp := t, allBa := t' }

section
variable {d : DM} {nleads : Nat} {la : Lab} {uni : Nat → Nat → Nat → Bool}
  (h : VRep (d.view nleads) la uni) (hk : d.kind = .dm)
  (hp : (pairs1 (d.view nleads)).length = d.ndm1)
include h hk hp

/-- The handler of an approach with coherences is made. -/
theorem build_ok
    (hx : ∀ c b bp, b ∈ (d.view nleads).row c → bp ∈ (d.view nleads).row c →
      la.inc c b bp = false → (d.view nleads).bool0 b bp c = .ok false) :
    CKH.build d nleads false = .ok (CKH.made d nleads false (elems (d.view nleads) la uni)
      (pairs1 (d.view nleads))) := by
  have e1 : (CKH.base d nleads false).bbpPairs = .ok (elems (d.view nleads) la uni) :=
    (CKH.of_base hk nleads false [] []).bbpPairs_ok h hx rfl (by simp [CKH.base, hk])
  have e2 : CKH.fillRows (CKH.base d nleads false).nelements (elems (d.view nleads) la uni)
      = .ok (elems (d.view nleads) la uni) := fillRows_ok (by rw [elems_length h]; rfl)
  have e3 : ({ CKH.base d nleads false with allBbp := elems (d.view nleads) la uni } : CKH).baPairs
      = .ok (pairs1 (d.view nleads)) :=
    (CKH.of_base hk nleads false (elems (d.view nleads) la uni) []).baPairs_ok h.toVMul
  have e4 : CKH.fillRows d.ndm1 (pairs1 (d.view nleads)) = .ok (pairs1 (d.view nleads)) :=
    fillRows_ok hp
  unfold CKH.build
  simp only [e1, py_bind_ok, e2, e3]
  exact congrArg (fun x : Py (List Trip) => x >>= fun t => pure
    ({ CKH.base d nleads false with allBbp := elems (d.view nleads) la uni, allBa := t } : CKH)) e4

/-- The handler of the Pauli approach is made. -/
theorem build_diag_ok :
    CKH.build d nleads true = .ok (CKH.made d nleads true (elemsD (d.view nleads) uni)
      (pairs1 (d.view nleads))) := by
  have e1 : (CKH.base d nleads true).bbpPairs = .ok (elemsD (d.view nleads) uni) :=
    (CKH.of_base hk nleads true [] []).bbpPairs_diag_ok h rfl (by simp [CKH.base, hk])
  have e2 : CKH.fillRows (CKH.base d nleads true).nelements (elemsD (d.view nleads) uni)
      = .ok (elemsD (d.view nleads) uni) := fillRows_ok (by rw [elemsD_length h]; rfl)
  have e3 : ({ CKH.base d nleads true with allBbp := elemsD (d.view nleads) uni } : CKH).baPairs
      = .ok (pairs1 (d.view nleads)) :=
    (CKH.of_base hk nleads true (elemsD (d.view nleads) uni) []).baPairs_ok h.toVMul
  have e4 : CKH.fillRows d.ndm1 (pairs1 (d.view nleads)) = .ok (pairs1 (d.view nleads)) :=
    fillRows_ok hp
  unfold CKH.build
  simp only [e1, py_bind_ok, e2, e3]
  exact congrArg (fun x : Py (List Trip) => x >>= fun t => pure
    ({ CKH.base d nleads true with allBbp := elemsD (d.view nleads) uni, allBa := t } : CKH)) e4

end

end Verif
