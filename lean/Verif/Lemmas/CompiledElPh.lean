import Verif.Lemmas.CompiledKern
import Verif.Lemmas.ElPhFct
import Verif.Lemmas.Params
import Verif.Model.CompiledElPh

/-! The compiled electron-phonon approaches: the table of `si_elph`, the arrays of factors and the
coupling terms. -/

namespace Verif

open Finset
open Complex (I)
open scoped ComplexConjugate

noncomputable section

/-! ### Lists -/

theorem prod2_range (l l' : List Nat) : prod2 l l' = (List.range l.length).flatMap fun i =>
    (List.range l'.length).map fun j => (l.getD i 0, l'.getD j 0) := by
  have er : ∀ l : List Nat, l = (List.range l.length).map fun i => l.getD i 0 := by
    intro l
    apply List.ext_getElem
    · simp
    · intro i h1 h2
      simp only [List.getElem_map, List.getElem_range]
      rw [getD_get h1]
  unfold prod2
  conv_lhs => rw [er l]
  rw [List.flatMap_map]
  congr 1
  funext i
  conv_lhs => rw [er l']
  rw [List.map_map]
  rfl

theorem zipIdx_inj {l : List Nat} (hn : l.Nodup) {p p' : Nat × Nat} (h : p ∈ l.zipIdx)
    (h' : p' ∈ l.zipIdx) : p.2 = p'.2 ↔ p.1 = p'.1 := by
  obtain ⟨a, i⟩ := p
  obtain ⟨a', i'⟩ := p'
  rw [List.mem_zipIdx_iff_getElem?] at h h'
  simp only at h h' ⊢
  obtain ⟨hi, h⟩ := List.getElem?_eq_some_iff.1 h
  obtain ⟨hi', h'⟩ := List.getElem?_eq_some_iff.1 h'
  rw [← h, ← h']
  exact (hn.getElem_inj_iff).symm

theorem perms2_prod2 {l : List Nat} (hn : l.Nodup) :
    perms2 l = (prod2 l l).flatMap fun p => if p.1 = p.2 then [] else [p] := by
  unfold perms2 prod2
  rw [List.flatMap_assoc]
  have e : l = l.zipIdx.map Prod.fst := by simp
  conv_rhs => rw [e]
  rw [List.flatMap_map, List.flatMap_congr]
  intro p hp
  rw [List.flatMap_map, List.flatMap_map, List.filterMap_eq_flatMap_toList, List.flatMap_congr]
  intro p' hp'
  simp only
  by_cases h : p.2 = p'.2
  · rw [if_pos h, if_pos ((zipIdx_inj hn hp hp').1 h)]; rfl
  · rw [if_neg h, if_neg fun h' => h ((zipIdx_inj hn hp hp').2 h')]; rfl

theorem foldlM_flat {α β σ : Type} (l : List α) (g : α → List β) (f : σ → β → Py σ) (s : σ) :
    (l.flatMap g).foldlM f s = l.foldlM (fun s a => (g a).foldlM f s) s := by
  induction l generalizing s with
  | nil => rfl
  | cons a l ih =>
    rw [List.flatMap_cons, List.foldlM_append, List.foldlM_cons]
    congr 1
    funext s
    exact ih s

theorem foldlM_keepP {α σ : Type} {P : σ → Prop} {l : List α} {f : σ → α → Py σ}
    (h : ∀ s s', ∀ x ∈ l, P s → f s x = .ok s' → P s') {s s' : σ} (hs : P s)
    (e : l.foldlM f s = .ok s') : P s' := by
  induction l generalizing s with
  | nil =>
    simp only [List.foldlM_nil, py_pure, Except.ok.injEq] at e
    rw [← e]; exact hs
  | cons a l ih =>
    rw [List.foldlM_cons] at e
    obtain ⟨t, h1, h2⟩ := bind_iff.1 e
    exact ih (fun s s' x hx => h s s' x (by simp [hx])) (h s t a (by simp) hs h1) h2

/-! ### The handler of `si_elph` -/

/-- The elements of `si_elph`, in the order of the loops. -/
def elElems (v : View) (el : Nat → Nat → Nat → Option Nat) : List Trip :=
  (List.range v.ncharge).flatMap fun c => (prod2 (v.row c) (v.row c)).flatMap fun p =>
    if (el c p.1 p.2).isSome then [(p.1, p.2, c)] else []

/-- What is needed of `si_elph` for the compiled handler. -/
structure CElReady (v : View) (de : DM) (nl : Nat) (la : Lab) (el : Nat → Nat → Nat → Option Nat) :
    Prop where
  ph : PhOk v (de.view nl) la el
  kind : de.kind = .dmc
  row : ∀ c, c < v.ncharge → (de.view nl).row c = v.row c
  len : v.ncharge ≤ de.statesdm.length
  pairs : (pairs1 (de.view nl)).length = de.ndm1
  surj : ∀ k, k < de.ndm0 → ∃ c b a, b ∈ v.row c ∧ a ∈ v.row c ∧ el c b a = some k

/-- The handler of `si_elph`. -/
def CKH.madeEl (v : View) (de : DM) (nl : Nat) (el : Nat → Nat → Nat → Option Nat) : CKH :=
  CKH.made de nl false (elElems v el) (pairs1 (de.view nl))

section
variable {v : View} {la : Lab} {el : Nat → Nat → Nat → Option Nat} (h : VOk v la)
include h

theorem elElems_mem {t : Trip} : t ∈ elElems v el ↔ t.1 ∈ v.row t.2.2 ∧ t.2.1 ∈ v.row t.2.2 ∧
    (el t.2.2 t.1 t.2.1).isSome = true := by
  obtain ⟨b, a, c⟩ := t
  simp only [elElems, List.mem_flatMap, List.mem_range]
  constructor
  · rintro ⟨c', _, p, hp, hm⟩
    split at hm
    · rename_i hi
      simp only [List.mem_singleton, Prod.mk.injEq] at hm
      obtain ⟨rfl, rfl, rfl⟩ := hm
      exact ⟨(prod2_mem hp).1, (prod2_mem hp).2, hi⟩
    · simp at hm
  · rintro ⟨hb, ha, hi⟩
    refine ⟨c, h.row_lt hb, (b, a), ?_, by simp [hi]⟩
    simp only [prod2, List.mem_flatMap, List.mem_map]
    exact ⟨b, hb, a, ha, rfl⟩

theorem prod2_nodup' {l : List Nat} (hn : l.Nodup) : (prod2 l l).Nodup := by
  unfold prod2
  rw [List.nodup_flatMap]
  refine ⟨fun a _ => hn.map fun x y e => by simpa using e, ?_⟩
  refine List.Pairwise.imp_of_mem ?_ hn
  intro a a' _ _ hne t ht ht'
  simp only [List.mem_map] at ht ht'
  obtain ⟨x, _, rfl⟩ := ht
  obtain ⟨y, _, e⟩ := ht'
  simp only [Prod.mk.injEq] at e
  exact hne e.1.symm

theorem elElems_nodup : (elElems v el).Nodup := by
  unfold elElems
  rw [List.nodup_flatMap]
  refine ⟨?_, ?_⟩
  · intro c _
    rw [flatMap_ite_eq _ (fun p : Nat × Nat => (el c p.1 p.2).isSome)]
    refine ((prod2_nodup' h (h.nodup c)).filter _).map ?_
    rintro ⟨x, y⟩ ⟨x', y'⟩ e
    simpa using e
  · refine List.Pairwise.imp_of_mem ?_ List.nodup_range
    intro c c' _ _ hne t ht ht'
    simp only [List.mem_flatMap] at ht ht'
    obtain ⟨p, _, hp⟩ := ht
    obtain ⟨p', _, hp'⟩ := ht'
    split at hp
    · split at hp'
      · simp only [List.mem_singleton] at hp hp'
        rw [hp] at hp'
        simp only [Prod.mk.injEq] at hp'
        exact hne hp'.2.2
      · simp at hp'
    · simp at hp

end

namespace CElReady

variable {v : View} {de : DM} {nl : Nat} {la : Lab} {el : Nat → Nat → Nat → Option Nat}
  (h : VOk v la) (r : CElReady v de nl la el)
include r

theorem of : (CKH.madeEl v de nl el).Of de nl :=
  CKH.of_base' (by rw [r.kind]; decide) nl false _ _

include h

theorem elems_length : (elElems v el).length = de.ndm0 := by
  have hp : ((elElems v el).map fun t => (el t.2.2 t.1 t.2.1).getD 0).Perm (List.range de.ndm0) := by
    rw [List.perm_ext_iff_of_nodup ((elElems_nodup h).map_on ?_) List.nodup_range]
    · intro k
      simp only [List.mem_map, List.mem_range]
      constructor
      · rintro ⟨t, ht, rfl⟩
        obtain ⟨a1, a2, a3⟩ := (elElems_mem h).1 ht
        obtain ⟨k, hk⟩ := Option.isSome_iff_exists.1 a3
        rw [hk]
        exact r.ph.lt _ _ _ k a1 a2 hk
      · intro hk
        obtain ⟨c, b, a, hb, ha, e⟩ := r.surj k hk
        exact ⟨(b, a, c), (elElems_mem h).2 ⟨hb, ha, by simp [e]⟩, by simp [e]⟩
    · intro x hx y hy e
      obtain ⟨a1, a2, a3⟩ := (elElems_mem h).1 hx
      obtain ⟨b1, b2, b3⟩ := (elElems_mem h).1 hy
      obtain ⟨k, hk⟩ := Option.isSome_iff_exists.1 a3
      obtain ⟨k', hk'⟩ := Option.isSome_iff_exists.1 b3
      rw [hk, hk'] at e
      simp only [Option.getD_some] at e
      subst e
      obtain ⟨e1, e2, e3⟩ := r.ph.inj _ _ _ _ _ _ k a1 a2 b1 b2 hk hk'
      exact Prod.ext e2 (Prod.ext e3 e1)
  simpa using hp.length_eq

/-- The handler of `si_elph` is made. -/
theorem build : CKH.build de nl false = .ok (CKH.madeEl v de nl el) := by
  have hk : de.kind ≠ .pauli := by rw [r.kind]; decide
  have o := CKH.of_base' hk nl false [] []
  have hnc : de.si.ncharge = v.ncharge := r.ph.ncharge
  have e1 : (CKH.base de nl false).bbpPairs = .ok (elElems v el) := by
    unfold CKH.bbpPairs elElems
    rw [show (CKH.base de nl false).noConj = false by simp [CKH.base, r.kind],
      show (CKH.base de nl false).noCoh = false from rfl,
      show (CKH.base de nl false).ncharge = v.ncharge from hnc]
    simp only [Bool.false_eq_true, if_false, false_and, Nat.sub_zero]
    apply collect_ok
    intro c hc
    have hc := List.mem_range.1 hc
    have hl := r.len
    rw [show (CKH.base de nl false).count = ({ CKH.base de nl false with allBbp := [], allBa := [] } : CKH).count from rfl,
      o.count_get (by omega), r.row c hc]
    simp only [py_bind_ok]
    rw [prod2_range, List.flatMap_assoc]
    apply collect_ok
    intro i hi
    have hi := List.mem_range.1 hi
    rw [List.flatMap_map, ← List.range_eq_range']
    apply collect_ok
    intro j hj
    have hj := List.mem_range.1 hj
    have s1 := o.stateAt_ok (c := c) (i := i) (by rw [r.row c hc]; exact hi)
    have s2 := o.stateAt_ok (c := c) (i := j) (by rw [r.row c hc]; exact hj)
    rw [show (CKH.base de nl false).stateAt (c : Int) i = _ from s1,
      show (CKH.base de nl false).stateAt (c : Int) j = _ from s2]
    simp only [py_bind_ok, r.row c hc]
    have mi := List.getElem_mem hi
    have mj := List.getElem_mem hj
    rw [show (CKH.base de nl false).bool0 (v.row c)[i] (v.row c)[j] (c : Int) = _ from
      o.bool0_eq _ _ c, r.ph.bool0 c _ _ mi mj, getD_get hi, getD_get hj]
    rfl
  have e2 : CKH.fillRows (CKH.base de nl false).nelements (elElems v el) = .ok (elElems v el) :=
    fillRows_ok (by rw [r.elems_length h]; rfl)
  have e3 : ({ CKH.base de nl false with allBbp := elElems v el } : CKH).baPairs
      = .ok (pairs1 (de.view nl)) :=
    (CKH.of_base' hk nl false (elElems v el) []).baPairs_ok' (by
      rw [show (de.view nl).ncharge = v.ncharge from hnc]; exact r.len)
  have e4 : CKH.fillRows de.ndm1 (pairs1 (de.view nl)) = .ok (pairs1 (de.view nl)) :=
    fillRows_ok r.pairs
  unfold CKH.build
  simp only [e1, py_bind_ok, e2, e3]
  exact congrArg (fun x : Py (List Trip) => x >>= fun t => pure
    ({ CKH.base de nl false with allBbp := elElems v el, allBa := t } : CKH)) e4

omit h in
theorem rd0_eq {β : Type} (w : Nat → Nat → β) (l : Nat) {k : Int} (hk : 0 ≤ k) :
    (CKH.madeEl v de nl el).rd0 w l k = (de.view nl).rd0 w l k := by
  unfold CKH.rd0 View.rd0
  rw [show (CKH.madeEl v de nl el).ndm0 = (de.view nl).ndm0 from rfl, cIdx_eq hk]

omit h in
theorem wr0_eq {β : Type} (w : Nat → Nat → β) (l : Nat) {k : Int} (hk : 0 ≤ k) (x : β) :
    (CKH.madeEl v de nl el).wr0 w l k x = (de.view nl).wr0 w l k x := by
  unfold CKH.wr0 View.wr0
  rw [show (CKH.madeEl v de nl el).ndm0 = (de.view nl).ndm0 from rfl, cIdx_eq hk]

/-- The loop over the table. -/
theorem table {σ : Type} (F : σ → Trip → Py σ) (s : σ) :
    (List.range (CKH.madeEl v de nl el).ndm0).foldlM
      (fun s (i : Nat) => cGet (CKH.madeEl v de nl el).allBbp (i : Int) >>= F s) s
      = (elElems v el).foldlM F s :=
  foldlM_range_get (elElems v el) F (r.elems_length h).symm s

/-! ### Factors -/

/-- Pauli. -/
theorem pauli_fct (nb : Nat) (E : Nat → ℝ) (B : PhBaths) :
    CPauliPh.genFct (CKH.madeEl v de nl el) nb E B = PauliPh.genFct (de.view nl) nb E B := by
  have o := r.of
  have ha : ∀ l b bp, CPauliPh.amp E B l b bp = PauliPh.amp E B l b bp := by
    intro l b bp
    unfold CPauliPh.amp PauliPh.amp
    congr 1
    rw [show (0.5 : ℂ) = ((0.5 : ℝ) : ℂ) by norm_num, Complex.re_ofReal_mul]
  unfold CPauliPh.genFct PauliPh.genFct
  rw [r.table h (fun fct p => if p.1 = p.2.1 then pure fct else do
        let bbp ← (CKH.madeEl v de nl el).ind0 p.1 p.2.1 (p.2.2 : Nat)
        (List.range nb).foldlM (fun fct l =>
          (CKH.madeEl v de nl el).wr0 fct l bbp (CPauliPh.amp E B l p.1 p.2.1)) fct),
    elElems, foldlM_flat, r.ph.ncharge]
  apply foldlM_congr_c
  intro s c hc
  rw [r.ph.states c (List.mem_range.1 hc)]
  simp only [py_bind_ok]
  rw [perms2_prod2 (h.nodup c), foldlM_flat, foldlM_flat]
  apply foldlM_congr_c
  rintro s ⟨b, a⟩ hp
  obtain ⟨hb, ha'⟩ := prod2_mem hp
  simp only at hb ha' ⊢
  by_cases e : b = a
  · subst e
    cases (el c b b).isSome <;> simp
  · rw [if_neg e]
    simp only [List.foldlM_cons, List.foldlM_nil]
    unfold PauliPh.fctStep
    simp only
    rw [r.ph.bool0 c b a hb ha', r.ph.ind0 c b a hb ha']
    simp only [py_bind_ok]
    cases hk : el c b a with
    | none => simp
    | some k =>
      simp only [Option.isSome_some, if_true, List.foldlM_cons, List.foldlM_nil, if_neg e]
      rw [o.ind0_eq, r.ph.ind0 c b a hb ha', hk]
      simp only [py_bind_ok]
      congr 1
      apply foldlM_congr_c
      intro s l _
      rw [r.wr0_eq _ _ (by omega), ha]

/-- Arrays with the same values at the labels, and zeros elsewhere. -/
theorem arr_ext {β : Type} [Zero β] {nb : Nat} {f : Nat → Nat → Nat → β} {w w' : Nat → Nat → β}
    (h1 : ∀ c b a l, b ∈ v.row c → a ∈ v.row c → l < nb → ∀ k, el c b a = some k → w l k = f l b a)
    (h2 : ∀ c b a l, b ∈ v.row c → a ∈ v.row c → l < nb → ∀ k, el c b a = some k → w' l k = f l b a)
    (z1 : ∀ l k, nb ≤ l ∨ de.ndm0 ≤ k → w l k = 0) (z2 : ∀ l k, nb ≤ l ∨ de.ndm0 ≤ k → w' l k = 0) :
    w = w' := by
  funext l k
  by_cases hl : l < nb
  · by_cases hk : k < de.ndm0
    · obtain ⟨c, b, a, hb, ha, e⟩ := r.surj k hk
      rw [h1 c b a l hb ha hl k e, h2 c b a l hb ha hl k e]
    · rw [z1 l k (Or.inr (by omega)), z2 l k (Or.inr (by omega))]
  · rw [z1 l k (Or.inl (by omega)), z2 l k (Or.inl (by omega))]

omit h r in
/-- Writes inside of the array leave the rest. -/
theorem wr0_keep {β : Type} [Zero β] {nb : Nat} {ls : List Nat} (hls : ∀ l ∈ ls, l < nb) {k : Int}
    {x : Nat → β} {w w' : Nat → Nat → β} (hw : ∀ l k, nb ≤ l ∨ de.ndm0 ≤ k → w l k = 0)
    (e : ls.foldlM (fun w l => (de.view nl).wr0 w l k (x l)) w = .ok w') :
    ∀ l k, nb ≤ l ∨ de.ndm0 ≤ k → w' l k = 0 := by
  refine foldlM_keepP (P := fun w => ∀ l k, nb ≤ l ∨ de.ndm0 ≤ k → w l k = 0) ?_ hw e
  intro s s' l hl hs e
  unfold View.wr0 at e
  obtain ⟨i, hi, e⟩ := bind_iff.1 e
  have hi' : i < de.ndm0 := pyIdx_ok_lt hi
  simp only [py_pure, Except.ok.injEq] at e
  subst e
  intro l' k' hk
  have := hls l hl
  simp only
  rw [if_neg (by omega)]
  exact hs l' k' hk

/-- 1vN and Redfield. -/
theorem vn1_fct (nb : Nat) (E : Nat → ℝ) (B : PhBaths) (quad : (ℝ → ℝ) → ℝ → ℝ → ℝ → ℝ)
    (itype : Int) :
    CVN1Ph.genFct (CKH.madeEl v de nl el) nb E B quad itype
      = VN1Ph.genFct (de.view nl) nb E B quad itype := by
  have o := r.of
  have hv : ∀ l b a, CVN1Ph.value E B quad itype l b a = VN1Ph.value E B quad itype l b a := by
    intro l b a
    unfold CVN1Ph.value VN1Ph.value VN1Ph.diagAmp
    rfl
  obtain ⟨w, g, hw⟩ := VN1Ph.genFct_ok h r.ph nb E B quad itype
  -- the compiled loop
  have hc : ∃ w', CVN1Ph.genFct (CKH.madeEl v de nl el) nb E B quad itype = .ok w' ∧
      (elElems v el).foldlM (fun w (p : Trip) =>
        (List.range nb).foldlM (fun w l => (de.view nl).wr0 w l
          ((el p.2.2 p.1 p.2.1).getD 0 : Nat) (VN1Ph.value E B quad itype l p.1 p.2.1)) w)
        (fun _ _ => (0, 0)) = .ok w' ∧
      ∀ i, i.1 < nb → PhAt v el (VN1Ph.value E B quad itype) w' i := by
    obtain ⟨w', a1, _, a3⟩ := foldlM_est (PhAt v el (VN1Ph.value E B quad itype))
      (fun (t : Trip) i => i.1 < nb ∧ i.2 = (t.2.2, t.1, t.2.1)) (xs := elElems v el)
      (step := fun w (p : Trip) =>
        (List.range nb).foldlM (fun w l => (de.view nl).wr0 w l
          ((el p.2.2 p.1 p.2.1).getD 0 : Nat) (VN1Ph.value E B quad itype l p.1 p.2.1)) w)
      (by
        rintro ⟨b, a, c⟩ ht s
        obtain ⟨hb, ha, hs⟩ := (elElems_mem h).1 ht
        obtain ⟨k, hk⟩ := Option.isSome_iff_exists.1 hs
        simp only at hb ha hk ⊢
        rw [hk]
        obtain ⟨w', e1, e2, e3⟩ := writes_ok r.ph (VN1Ph.value E B quad itype) hb ha hk
          (List.range nb) s
        refine ⟨w', e1, e2, ?_⟩
        rintro ⟨l, i⟩ ⟨hl, rfl⟩
        exact e3 l (List.mem_range.2 hl)) (fun _ _ => (0, 0))
    refine ⟨w', ?_, a1, ?_⟩
    · unfold CVN1Ph.genFct
      rw [r.table h (fun w p => do
        let bbp ← (CKH.madeEl v de nl el).ind0 p.1 p.2.1 (p.2.2 : Nat)
        (List.range nb).foldlM (fun w l =>
          (CKH.madeEl v de nl el).wr0 w l bbp (CVN1Ph.value E B quad itype l p.1 p.2.1)) w), ← a1]
      apply foldlM_congr_c
      rintro s ⟨b, a, c⟩ ht
      obtain ⟨hb, ha, hs⟩ := (elElems_mem h).1 ht
      obtain ⟨k, hk⟩ := Option.isSome_iff_exists.1 hs
      simp only at hb ha hk ⊢
      rw [o.ind0_eq, r.ph.ind0 c b a hb ha, hk]
      simp only [py_bind_ok, Option.getD_some]
      apply foldlM_congr_c
      intro s l _
      rw [r.wr0_eq _ _ (by omega), hv]
    · rintro ⟨l, c, b, a⟩ hl hb ha k hk
      exact a3 (b, a, c) ((elElems_mem h).2 ⟨hb, ha, by simp only at hk ⊢; rw [hk]; rfl⟩)
        (l, c, b, a) ⟨hl, rfl⟩ hb ha k hk
  obtain ⟨w', c1, c2, c3⟩ := hc
  rw [c1, g]
  congr 1
  refine r.arr_ext h (nb := nb) (f := VN1Ph.value E B quad itype)
    (fun c b a l hb ha hl k hk => c3 (l, c, b, a) hl hb ha k hk) hw ?_ ?_
  · refine foldlM_keepP (P := fun w : Nat → Nat → ℂ × ℂ => ∀ l k, nb ≤ l ∨ de.ndm0 ≤ k → w l k = 0) ?_
      (by intro l k _; rfl) c2
    intro s s' t _ hs e
    exact wr0_keep (fun l hl => List.mem_range.1 hl) hs e
  · have hstep : ∀ (c b a : Nat) (ls : List Nat) (x : Nat → ℂ × ℂ) (s s' : Nat → Nat → ℂ × ℂ),
        (∀ l ∈ ls, l < nb) → (∀ l k, nb ≤ l ∨ de.ndm0 ≤ k → s l k = 0) →
        VN1Ph.fctStep (de.view nl) c b a ls x s = .ok s' →
        ∀ l k, nb ≤ l ∨ de.ndm0 ≤ k → s' l k = 0 := by
      intro c b a ls x s s' hls hs e
      unfold VN1Ph.fctStep at e
      obtain ⟨i, _, e⟩ := bind_iff.1 e
      obtain ⟨u, _, e⟩ := bind_iff.1 e
      split at e
      · exact wr0_keep hls hs e
      · simp only [py_pure, Except.ok.injEq] at e
        rw [← e]; exact hs
    unfold VN1Ph.genFct at g
    obtain ⟨w1, g1, g2⟩ := bind_iff.1 g
    have z1 : ∀ l k, nb ≤ l ∨ de.ndm0 ≤ k → w1 l k = 0 := by
      refine foldlM_keepP (P := fun w : Nat → Nat → ℂ × ℂ => ∀ l k, nb ≤ l ∨ de.ndm0 ≤ k → w l k = 0) ?_
        (by intro l k _; rfl) g1
      intro s s' l hl hs e
      refine foldlM_keepP (P := fun w : Nat → Nat → ℂ × ℂ => ∀ l k, nb ≤ l ∨ de.ndm0 ≤ k → w l k = 0) ?_
        hs e
      intro s s' c _ hs e
      obtain ⟨bs, _, e⟩ := bind_iff.1 e
      refine foldlM_keepP (P := fun w : Nat → Nat → ℂ × ℂ => ∀ l k, nb ≤ l ∨ de.ndm0 ≤ k → w l k = 0) ?_
        hs e
      intro s s' b _ hs e
      refine hstep c b b [l] _ s s' ?_ hs e
      intro l' hl'
      simp only [List.mem_singleton] at hl'
      rw [hl']
      exact List.mem_range.1 hl
    refine foldlM_keepP (P := fun w : Nat → Nat → ℂ × ℂ => ∀ l k, nb ≤ l ∨ de.ndm0 ≤ k → w l k = 0) ?_
      z1 g2
    intro s s' c _ hs e
    obtain ⟨bs, _, e⟩ := bind_iff.1 e
    refine foldlM_keepP (P := fun w : Nat → Nat → ℂ × ℂ => ∀ l k, nb ≤ l ∨ de.ndm0 ≤ k → w l k = 0) ?_
      hs e
    intro s s' p _ hs e
    exact hstep c p.1 p.2 (List.range nb) _ s s' (fun l hl => List.mem_range.1 hl) hs e

end CElReady

end

end Verif
