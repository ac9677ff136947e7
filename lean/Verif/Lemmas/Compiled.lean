import Verif.Model.Compiled
import Verif.Lemmas.GenKern
import Verif.Lemmas.Congr

/-! The look-ups, lists of states and coupling terms of the compiled approaches are those of the
Python approaches. -/

namespace Verif

theorem cIdx_nat {len k : Nat} (h : k < len) : cIdx len (k : Int) = .ok k := by
  unfold cIdx
  rw [if_pos (by omega)]; simp

theorem cIdx_eq {len : Nat} {i : Int} (h : 0 ≤ i) : cIdx len i = pyIdx len i := by
  unfold cIdx pyIdx
  rw [if_pos h]
  simp [h]

theorem cGet_eq {α : Type} (l : List α) {i : Int} (h : 0 ≤ i) : cGet l i = pyGet l i := by
  unfold cGet pyGet
  rw [cIdx_eq h]
  cases pyIdx l.length i <;> rfl

theorem cGet_nat {α : Type} (l : List α) {k : Nat} (h : k < l.length) :
    cGet l (k : Int) = .ok l[k] := by
  rw [cGet_eq l (by omega), pyGet_nat l h]

theorem Vec.cget_eq (x : Vec) {i : Int} (h : 0 ≤ i) : x.cget i = x.get i := by
  unfold Vec.cget Vec.get
  rw [cIdx_eq h]

theorem Vec.cadd_eq (x : Vec) {i : Int} (h : 0 ≤ i) (w : ℝ) : x.cadd i w = x.add i w := by
  unfold Vec.cadd Vec.add
  rw [cIdx_eq h]

theorem Vec.cput_eq (x : Vec) {i : Int} (h : 0 ≤ i) (w : ℝ) : x.cput i w = x.put i w := by
  unfold Vec.cput Vec.put
  rw [cIdx_eq h]

theorem Mat.cadd_eq (m : Mat) {i j : Int} (hi : 0 ≤ i) (hj : 0 ≤ j) (w : ℝ) :
    m.cadd ⟨i, j, w⟩ = m.add i j w := by
  unfold Mat.cadd Mat.add
  simp only
  rw [cIdx_eq hi, cIdx_eq hj]

/-! ### Loops -/

theorem collect_nil {α β : Type} (f : α → Py (List β)) : collect [] f = .ok [] := rfl

theorem collect_acc {α β : Type} (l : List α) (f : α → Py (List β)) (acc : List β) :
    l.foldlM (fun acc x => do let r ← f x; pure (acc ++ r)) acc
      = (do let r ← collect l f; pure (acc ++ r) : Py (List β)) := by
  unfold collect
  induction l generalizing acc with
  | nil => simp
  | cons a l ih =>
    simp only [List.foldlM_cons, List.nil_append]
    cases f a with
    | error e => rfl
    | ok r =>
      simp only [py_bind_ok, py_pure] at ih ⊢
      rw [ih, ih r]
      cases l.foldlM (fun acc x => do let r ← f x; Except.ok (acc ++ r)) ([] : List β) with
      | error e => rfl
      | ok s => simp only [py_bind_ok, List.append_assoc]

theorem collect_cons {α β : Type} (a : α) (l : List α) (f : α → Py (List β)) :
    collect (a :: l) f = (do let x ← f a; let y ← collect l f; pure (x ++ y)) := by
  conv_lhs => unfold collect
  simp only [List.foldlM_cons, List.nil_append]
  cases f a with
  | error e => rfl
  | ok r =>
    simp only [py_bind_ok, py_pure]
    exact collect_acc l f r

theorem collect_append {α β : Type} (l l' : List α) (f : α → Py (List β)) :
    collect (l ++ l') f = (do let x ← collect l f; let y ← collect l' f; pure (x ++ y)) := by
  induction l with
  | nil =>
    rw [List.nil_append, collect_nil]
    simp only [py_bind_ok, List.nil_append]
    cases collect l' f <;> rfl
  | cons a l ih =>
    rw [List.cons_append, collect_cons, collect_cons, ih]
    cases f a with
    | error e => rfl
    | ok r =>
      cases collect l f with
      | error e => rfl
      | ok s =>
        cases collect l' f with
        | error e => rfl
        | ok t => simp only [py_bind_ok, py_pure, List.append_assoc]

theorem collect_onmap {α β γ : Type} (l : List α) (g : α → β) (f : β → Py (List γ)) :
    collect (l.map g) f = collect l fun a => f (g a) := by
  unfold collect
  rw [List.foldlM_map]

theorem collect_flatMap {α β γ : Type} (l : List α) (g : α → List β) (f : β → Py (List γ)) :
    collect (l.flatMap g) f = collect l fun a => collect (g a) f := by
  induction l with
  | nil => rfl
  | cons a l ih => rw [List.flatMap_cons, collect_append, collect_cons, ih]

theorem collect_prod2 {β : Type} (l l' : List Nat) (f : Nat × Nat → Py (List β)) :
    collect (prod2 l l') f = collect l fun a => collect l' fun b => f (a, b) := by
  unfold prod2
  rw [collect_flatMap]
  congr 1
  funext a
  rw [collect_onmap]

theorem foldlM_congr_c {α σ : Type} {l : List α} {f g : σ → α → Py σ}
    (h : ∀ s, ∀ x ∈ l, f s x = g s x) (s : σ) : l.foldlM f s = l.foldlM g s := by
  induction l generalizing s with
  | nil => rfl
  | cons a l ih =>
    rw [List.foldlM_cons, List.foldlM_cons, h s a (by simp)]
    cases g s a with
    | error e => rfl
    | ok t => exact ih (fun s x hx => h s x (by simp [hx])) t

/-! ### The handler of an indexing object -/

/-- The attributes of the handler are those of the indexing object. -/
structure CKH.Of (kh : CKH) (d : DM) (nleads : Nat) : Prop where
  kind : d.kind ≠ .pauli
  ncharge : kh.ncharge = d.si.ncharge
  nleads : kh.nleads = nleads
  npauli : kh.npauli = d.npauli
  ndm0 : kh.ndm0 = d.ndm0
  ndm1 : kh.ndm1 = d.ndm1
  lenlst : kh.lenlst = d.lenlst
  dictdm : kh.dictdm = d.dictdm
  shiftlst0 : kh.shiftlst0 = d.shiftlst0
  shiftlst1 : kh.shiftlst1 = d.shiftlst1
  mapdm0 : kh.mapdm0 = d.mp.map
  booldm0 : kh.booldm0 = d.mp.bool
  conjdm0 : kh.conjdm0 = d.mp.conj
  count : kh.count = d.statesdm.map List.length
  statesdm : kh.statesdm = d.statesdm.map fun l =>
    l ++ List.replicate (CKH.maxStates d.statesdm - l.length) 0

namespace CKH

theorem of_base' {d : DM} (hk : d.kind ≠ .pauli) (nleads : Nat) (noCoh : Bool) (t t' : List Trip) :
    Of { base d nleads noCoh with allBbp := t, allBa := t' } d nleads :=
  ⟨hk, rfl, rfl, rfl, rfl, rfl, rfl, rfl, rfl, rfl, rfl, rfl, rfl, rfl, rfl⟩

theorem of_base {d : DM} (hk : d.kind = .dm) (nleads : Nat) (noCoh : Bool) (t t' : List Trip) :
    Of { base d nleads noCoh with allBbp := t, allBa := t' } d nleads :=
  of_base' (by rw [hk]; decide) nleads noCoh t t'

variable {kh : CKH} {d : DM} {nleads : Nat}

namespace Of

variable (o : Of kh d nleads)
include o

theorem flat_eq (b bp c : Nat) : kh.flat b bp (c : Int) = d.rawInd0 b bp (c : Int) := by
  have hk := o.kind
  unfold flat DM.rawInd0
  rw [o.dictdm, o.shiftlst0, o.lenlst]
  rw [cGet_eq _ (by omega), cGet_eq _ (by omega), cGet_eq _ (by omega), cGet_eq _ (by omega)]
  cases hd : d.kind with
  | pauli => exact absurd hd hk
  | dm => rfl
  | dmc => rfl

theorem ind0_eq (b bp c : Nat) : kh.ind0 b bp (c : Int) = (d.view nleads).ind0 b bp (c : Int) := by
  show _ = d.getIndDm0 b bp c
  unfold ind0 DM.getIndDm0
  rw [o.flat_eq, o.mapdm0]
  congr 1
  funext k
  rw [cGet_eq _ (by omega)]

theorem bool0_eq (b bp c : Nat) :
    kh.bool0 b bp (c : Int) = (d.view nleads).bool0 b bp (c : Int) := by
  show _ = d.getBoolDm0 b bp c
  unfold bool0 DM.getBoolDm0
  rw [o.flat_eq, o.booldm0]
  congr 1
  funext k
  rw [cGet_eq _ (by omega)]

theorem conj0_eq (b bp c : Nat) :
    kh.conj0 b bp (c : Int) = (d.view nleads).conj0 b bp (c : Int) := by
  show _ = d.getConjDm0 b bp c
  unfold conj0 DM.getConjDm0
  rw [o.flat_eq, o.conjdm0]
  congr 1
  funext k
  rw [cGet_eq _ (by omega)]

theorem ind1_eq (b a c : Nat) : kh.ind1 b a (c : Int) = (d.view nleads).ind1 b a (c : Int) := by
  show _ = d.getIndDm1 b a c
  unfold ind1 DM.getIndDm1
  rw [o.lenlst, o.dictdm, o.shiftlst1]
  rw [cGet_eq _ (by omega), cGet_eq _ (by omega), cGet_eq _ (by omega), cGet_eq _ (by omega)]

theorem isIncluded_eq (b bp c : Nat) :
    kh.isIncluded b bp (c : Int) = (d.view nleads).isIncluded b bp (c : Int) := by
  unfold isIncluded View.isIncluded
  rw [o.ind0_eq]
  congr 1
  funext k
  by_cases e : k = -1 <;> simp [e]

theorem rd_eq {β : Type} (f : Nat → Nat → β) (l k : Nat) :
    kh.rd f l k = (d.view nleads).rd f l k := by
  unfold CKH.rd View.rd
  rw [o.ndm1]; rfl

theorem wr_eq {β : Type} (f : Nat → Nat → β) (l k : Nat) (x : β) :
    kh.wr f l k x = (d.view nleads).wr f l k x := by
  unfold CKH.wr View.wr
  rw [o.ndm1]; rfl

theorem imagPos_eq (k : Int) : kh.imagPos k = (d.view nleads).imagPos k := by
  unfold imagPos View.imagPos
  rw [o.ndm0, o.npauli]; rfl

theorem count_get {c : Nat} (hc : c < d.statesdm.length) :
    cGet kh.count (c : Int) = .ok ((d.view nleads).row c).length := by
  rw [o.count, cGet_nat _ (by simpa using hc)]
  simp [View.row, DM.view, hc]

theorem stateAt_ok {c i : Nat} (hi : i < ((d.view nleads).row c).length) :
    kh.stateAt (c : Int) i = .ok ((d.view nleads).row c)[i] := by
  have hc : c < d.statesdm.length := by
    by_contra hc
    simp only [View.row, DM.view] at hi
    rw [List.getElem?_eq_none (by omega)] at hi
    simp at hi
  have hr : (d.view nleads).row c = d.statesdm[c] := by
    simp [View.row, DM.view, hc]
  unfold stateAt
  rw [o.statesdm, cGet_nat _ (by simpa using hc)]
  simp only [py_bind_ok, List.getElem_map]
  rw [hr] at hi
  rw [cGet_nat _ (by simp; omega)]
  simp only [List.getElem_append_left hi]
  congr 1
  simp only [hr]

theorem read_ok (c : Nat) :
    kh.read (c : Int) ((d.view nleads).row c).length = .ok ((d.view nleads).row c) := by
  unfold read
  have key : ∀ n, n ≤ ((d.view nleads).row c).length →
      (List.range n).mapM (fun i => kh.stateAt (c : Int) i)
        = (.ok (((d.view nleads).row c).take n) : Py (List Nat)) := by
    intro n
    induction n with
    | zero => intro _; simp
    | succ n ih =>
      intro hn
      rw [List.range_succ, List.mapM_append, ih (by omega)]
      simp only [py_bind_ok, List.mapM_cons, List.mapM_nil]
      rw [o.stateAt_ok (by omega)]
      simp only [py_bind_ok, py_pure]
      rw [List.take_succ_eq_append_getElem (by omega)]
  rw [key _ le_rfl, List.take_length]

section
variable {la : Lab} (h : VMul (d.view nleads) la)
include h

theorem same_ok {c : Nat} (hc : c ≤ (d.view nleads).ncharge) :
    kh.same (c : Int) = .ok ((d.view nleads).row c) := by
  have hl : (d.view nleads).ncharge + 1 ≤ d.statesdm.length := h.len
  unfold same
  rw [o.count_get (by omega)]
  simp only [py_bind_ok]
  exact o.read_ok c

theorem same_eq {c : Nat} (hc : c ≤ (d.view nleads).ncharge) :
    kh.same (c : Int) = (d.view nleads).states (c : Int) := by
  rw [o.same_ok h hc, h.states hc]

theorem lower_eq {c : Nat} (hc : c ≤ (d.view nleads).ncharge) :
    kh.lower ((c : Int) - 1) = (d.view nleads).states ((c : Int) - 1) := by
  have hl : (d.view nleads).ncharge + 1 ≤ d.statesdm.length := h.len
  rw [h.states_pred hc]
  unfold lower View.low
  rcases c with _ | c
  · simp
  · rw [if_pos (by omega)]
    have e : (((c + 1 : Nat) : Int) - 1) = (c : Int) := by omega
    rw [e, o.count_get (by omega)]
    simp only [py_bind_ok]
    rw [o.read_ok c]
    simp

theorem upper_eq {c : Nat} (hc : c < (d.view nleads).ncharge) :
    kh.upper ((c : Int) + 1) = (d.view nleads).states ((c : Int) + 1) := by
  have hn : kh.ncharge = (d.view nleads).ncharge := o.ncharge
  unfold upper
  rw [if_pos (by omega)]
  exact o.same_eq h (c := c + 1) hc

/-! ### Coupling terms -/

/-- Whatever is done for the states of the lower charge is done at a charge which is not
negative. -/
theorem forLow {c : Nat} (hc : c < (d.view nleads).ncharge) {β : Type} {F G : Int → List Nat → Py β}
    (h0 : F (-1) [] = G (-1) [])
    (hs : ∀ q : Nat, c = q + 1 →
      F (q : Int) ((d.view nleads).row q) = G (q : Int) ((d.view nleads).row q)) :
    (kh.lower ((c : Int) - 1) >>= F ((c : Int) - 1))
      = ((d.view nleads).states ((c : Int) - 1) >>= G ((c : Int) - 1)) := by
  rw [o.lower_eq h (by omega), h.states_pred (by omega)]
  simp only [py_bind_ok]
  rcases c with _ | c
  · simpa [View.low] using h0
  · have e : (((c + 1 : Nat) : Int) - 1) = (c : Int) := by omega
    rw [e]
    simpa [View.low] using hs c rfl

theorem elemIf_eq {f g : Py ℂ} (e : f = g) (b bp a ap q : Nat) (bc : Int) :
    kh.elemIf f b bp bc a ap (q : Int) = (d.view nleads).elemIf g b bp bc a ap (q : Int) := by
  unfold CKH.elemIf View.elemIf
  rw [o.isIncluded_eq, e]

theorem blocks_eq {b bp c : Nat} (hc : c < (d.view nleads).ncharge)
    {fA gA : Nat → Nat → Py ℂ} {fL gL fR gR : Nat → Py ℂ} {fC gC : Nat → Nat → Py ℂ}
    (hA : 0 < c → ∀ a ap, fA a ap = gA a ap) (hL : ∀ x, fL x = gL x) (hR : ∀ x, fR x = gR x)
    (hC : ∀ a ap, fC a ap = gC a ap) :
    kh.blocks b bp (c : Int) fA fL fR fC = (d.view nleads).blocks b bp (c : Int) gA gL gR gC := by
  unfold CKH.blocks View.blocks
  refine o.forLow h hc
    (F := fun q As => do
      let r1 ← collect As fun a => collect As fun ap => kh.elemIf (fA a ap) b bp (c : Int) a ap q
      let Bs ← kh.same (c : Int)
      let r2 ← collect Bs fun bpp => do
        let x ← kh.elemIf (fL bpp) b bp (c : Int) bpp bp (c : Int)
        let y ← kh.elemIf (fR bpp) b bp (c : Int) b bpp (c : Int)
        pure (x ++ y)
      let Cs ← kh.upper ((c : Int) + 1)
      let r3 ← collect Cs fun x => collect Cs fun cp =>
        kh.elemIf (fC x cp) b bp (c : Int) x cp ((c : Int) + 1)
      pure (r1 ++ r2 ++ r3))
    (G := fun q As => do
      let r1 ← collect (prod2 As As) fun p =>
        (d.view nleads).elemIf (gA p.1 p.2) b bp (c : Int) p.1 p.2 q
      let Bs ← (d.view nleads).states (c : Int)
      let r2 ← collect Bs fun bpp => do
        let x ← (d.view nleads).elemIf (gL bpp) b bp (c : Int) bpp bp (c : Int)
        let y ← (d.view nleads).elemIf (gR bpp) b bp (c : Int) b bpp (c : Int)
        pure (x ++ y)
      let Cs ← (d.view nleads).states ((c : Int) + 1)
      let r3 ← collect (prod2 Cs Cs) fun p =>
        (d.view nleads).elemIf (gC p.1 p.2) b bp (c : Int) p.1 p.2 ((c : Int) + 1)
      pure (r1 ++ r2 ++ r3)) ?_ ?_
  all_goals
    have hup : ∀ x cp, kh.elemIf (fC x cp) b bp (c : Int) x cp ((c : Int) + 1)
        = (d.view nleads).elemIf (gC x cp) b bp (c : Int) x cp ((c : Int) + 1) := fun x cp =>
      o.elemIf_eq h (hC x cp) b bp x cp (c + 1) c
    have hl' : ∀ x, kh.elemIf (fL x) b bp (c : Int) x bp (c : Int)
        = (d.view nleads).elemIf (gL x) b bp (c : Int) x bp (c : Int) := fun x =>
      o.elemIf_eq h (hL x) b bp x bp c c
    have hr' : ∀ x, kh.elemIf (fR x) b bp (c : Int) b x (c : Int)
        = (d.view nleads).elemIf (gR x) b bp (c : Int) b x (c : Int) := fun x =>
      o.elemIf_eq h (hR x) b bp b x c c
    simp only [o.same_eq h (show c ≤ (d.view nleads).ncharge by omega), o.upper_eq h hc,
      collect_prod2, hup, hl', hr']
  · rfl
  · intro q hq
    have ha : ∀ a ap, kh.elemIf (fA a ap) b bp (c : Int) a ap (q : Int)
        = (d.view nleads).elemIf (gA a ap) b bp (c : Int) a ap (q : Int) := fun a ap =>
      o.elemIf_eq h (hA (by omega) a ap) b bp a ap q c
    simp only [ha]

/-- Pauli. -/
theorem pauli_coup (fct : Nat → Nat → ℝ × ℝ) (b bp : Nat) {c : Nat}
    (hc : c < (d.view nleads).ncharge) :
    CPauli.coup kh fct b bp (c : Int) = Pauli.coup (d.view nleads) fct b (c : Int) := by
  have hn : kh.nleads = (d.view nleads).nleads := o.nleads
  unfold CPauli.coup Pauli.coup
  rw [o.ind0_eq]
  congr 1
  funext bb
  refine o.forLow h hc
    (F := fun q As => do
      let r1 ← collect As fun a => do
        let aa ← kh.ind0 a a q
        let ba ← kh.ind1 b a q
        let s ← sumM (List.range kh.nleads) fun l => do
          let w ← kh.rd fct l ba
          pure (-w.2, w.1)
        pure [KCall.pauli s.1 s.2 bb aa]
      let Cs ← kh.upper ((c : Int) + 1)
      let r2 ← collect Cs fun x => do
        let cc ← kh.ind0 x x ((c : Int) + 1)
        let cb ← kh.ind1 x b (c : Int)
        let s ← sumM (List.range kh.nleads) fun l => do
          let w ← kh.rd fct l cb
          pure (-w.1, w.2)
        pure [KCall.pauli s.1 s.2 bb cc]
      pure (r1 ++ r2))
    (G := fun q As => do
      let r1 ← collect As fun a => do
        let aa ← (d.view nleads).ind0 a a q
        let ba ← (d.view nleads).ind1 b a q
        let s ← sumM (List.range (d.view nleads).nleads) fun l => do
          let w ← (d.view nleads).rd fct l ba
          pure (-w.2, w.1)
        pure [KCall.pauli s.1 s.2 bb aa]
      let Cs ← (d.view nleads).states ((c : Int) + 1)
      let r2 ← collect Cs fun x => do
        let cc ← (d.view nleads).ind0 x x ((c : Int) + 1)
        let cb ← (d.view nleads).ind1 x b (c : Int)
        let s ← sumM (List.range (d.view nleads).nleads) fun l => do
          let w ← (d.view nleads).rd fct l cb
          pure (-w.1, w.2)
        pure [KCall.pauli s.1 s.2 bb cc]
      pure (r1 ++ r2)) ?_ ?_
  all_goals
    have hup : ∀ x, kh.ind0 x x ((c : Int) + 1) = (d.view nleads).ind0 x x ((c : Int) + 1) :=
      fun x => o.ind0_eq x x (c + 1)
    simp only [o.upper_eq h hc, hn, o.rd_eq, hup, o.ind1_eq, collect_nil]
  intro q _
  simp only [o.ind0_eq, o.ind1_eq]

/-- A sum over the states of the lower charge and one over the states of the higher charge. -/
theorem twoSums {c : Nat} (hc : c < (d.view nleads).ncharge) {β : Type}
    {fA gA : Int → Nat → Py ℂ} {fC gC : Nat → Py ℂ} {K : ℂ → ℂ → Py β}
    (hA : ∀ (q : Nat) a, c = q + 1 → fA (q : Int) a = gA (q : Int) a) (hC : ∀ a, fC a = gC a) :
    (do let As ← kh.lower ((c : Int) - 1)
        let s1 ← sumM As (fA ((c : Int) - 1))
        let Cs ← kh.upper ((c : Int) + 1)
        let s2 ← sumM Cs fC
        K s1 s2 : Py β)
    = (do let As ← (d.view nleads).states ((c : Int) - 1)
          let s1 ← sumM As (gA ((c : Int) - 1))
          let Cs ← (d.view nleads).states ((c : Int) + 1)
          let s2 ← sumM Cs gC
          K s1 s2 : Py β) := by
  refine o.forLow h hc
    (F := fun q As => do
        let s1 ← sumM As (fA q)
        let Cs ← kh.upper ((c : Int) + 1)
        let s2 ← sumM Cs fC
        K s1 s2)
    (G := fun q As => do
        let s1 ← sumM As (gA q)
        let Cs ← (d.view nleads).states ((c : Int) + 1)
        let s2 ← sumM Cs gC
        K s1 s2) ?_ ?_
  all_goals
    rw [o.upper_eq h hc, show fC = gC from funext hC]
  · rfl
  · intro q hq
    rw [show fA (q : Int) = gA (q : Int) from funext fun a => hA q a hq]

/-- Lindblad. -/
theorem lindblad_coup (t : Nat → Nat → Nat → ℂ) (b bp : Nat) {c : Nat}
    (hc : c < (d.view nleads).ncharge) :
    CLindblad.coup kh t b bp (c : Int) = Lindblad.coup (d.view nleads) t b bp (c : Int) := by
  have hn : kh.nleads = (d.view nleads).nleads := o.nleads
  have hj : ∀ x y z w, CLindblad.jump kh t x y z w = Lindblad.jump (d.view nleads) t x y z w := by
    intro x y z w
    unfold CLindblad.jump Lindblad.jump
    rw [hn]
  have hd : ∀ x y, CLindblad.decay kh t (c : Int) x y
      = Lindblad.decay (d.view nleads) t (c : Int) x y := by
    intro x y
    unfold CLindblad.decay Lindblad.decay
    rw [hn]
    exact o.twoSums h hc (K := fun s1 s2 => pure (Complex.I * (s1 + s2)))
      (fA := fun _ a => sumM (List.range (d.view nleads).nleads) fun l =>
        pure (-(1 / 2) * (starRingEnd ℂ) (t l a x) * t l a y))
      (gA := fun _ a => sumM (List.range (d.view nleads).nleads) fun l =>
        pure (-(1 / 2) * (starRingEnd ℂ) (t l a x) * t l a y))
      (fun _ _ _ => rfl) (fun _ => rfl)
  unfold CLindblad.coup Lindblad.coup
  exact o.blocks_eq h hc (fun _ _ _ => hj _ _ _ _) (fun _ => hd _ _) (fun _ => hd _ _)
    (fun _ _ => hj _ _ _ _)

/-- 1vN. -/
theorem vn1_coup (T : Nat → Nat → Nat → ℂ) (f : Nat → Nat → Amp) (b bp : Nat) {c : Nat}
    (hc : c < (d.view nleads).ncharge) :
    CVN1.coup kh T f b bp (c : Int) = VN1.coup (d.view nleads) T f b bp (c : Int) := by
  have hn : kh.nleads = (d.view nleads).nleads := o.nleads
  unfold CVN1.coup VN1.coup
  apply o.blocks_eq h hc
  · intro h0 a ap
    obtain ⟨q, rfl⟩ : ∃ q, c = q + 1 := ⟨c - 1, by omega⟩
    unfold CVN1.fctA VN1.fctA
    have e : (((q + 1 : Nat) : Int) - 1) = (q : Int) := by omega
    rw [e, hn]
    simp only [o.ind1_eq, o.rd_eq]
  · intro x
    unfold CVN1.fctL VN1.fctL
    rw [hn]
    refine o.twoSums h hc (K := fun s1 s2 => pure (s1 + s2))
      (fA := fun q a => do
        let bpa ← kh.ind1 bp a q
        sumM (List.range (d.view nleads).nleads) fun l => do
          let w ← kh.rd f l bpa
          pure (T l b a * T l a x * (starRingEnd ℂ) w.cur1))
      (gA := fun q a => do
        let bpa ← (d.view nleads).ind1 bp a q
        sumM (List.range (d.view nleads).nleads) fun l => do
          let w ← (d.view nleads).rd f l bpa
          pure (T l b a * T l a x * (starRingEnd ℂ) w.cur1)) ?_ ?_
    · intro q a _; simp only [o.ind1_eq, o.rd_eq]
    · intro a; simp only [o.ind1_eq, o.rd_eq]
  · intro x
    unfold CVN1.fctR VN1.fctR
    rw [hn]
    refine o.twoSums h hc (K := fun s1 s2 => pure (s1 + s2))
      (fA := fun q a => do
        let bpa ← kh.ind1 b a q
        sumM (List.range (d.view nleads).nleads) fun l => do
          let w ← kh.rd f l bpa
          pure (-T l x a * T l a bp * w.cur1))
      (gA := fun q a => do
        let bpa ← (d.view nleads).ind1 b a q
        sumM (List.range (d.view nleads).nleads) fun l => do
          let w ← (d.view nleads).rd f l bpa
          pure (-T l x a * T l a bp * w.cur1)) ?_ ?_
    · intro q a _; simp only [o.ind1_eq, o.rd_eq]
    · intro a; simp only [o.ind1_eq, o.rd_eq]
  · intro a ap
    unfold CVN1.fctC VN1.fctC
    rw [hn]
    simp only [o.ind1_eq, o.rd_eq]

/-- Redfield. -/
theorem redfield_coup (T : Nat → Nat → Nat → ℂ) (f : Nat → Nat → Amp) (b bp : Nat) {c : Nat}
    (hc : c < (d.view nleads).ncharge) :
    CRedfield.coup kh T f b bp (c : Int) = Redfield.coup (d.view nleads) T f b bp (c : Int) := by
  have hn : kh.nleads = (d.view nleads).nleads := o.nleads
  unfold CRedfield.coup Redfield.coup
  apply o.blocks_eq h hc
  · intro h0 a ap
    obtain ⟨q, rfl⟩ : ∃ q, c = q + 1 := ⟨c - 1, by omega⟩
    unfold CRedfield.fctA Redfield.fctA
    have e : (((q + 1 : Nat) : Int) - 1) = (q : Int) := by omega
    rw [e, hn]
    simp only [o.ind1_eq, o.rd_eq]
  · intro x
    unfold CRedfield.fctL Redfield.fctL
    rw [hn]
    refine o.twoSums h hc (K := fun s1 s2 => pure (s1 + s2))
      (fA := fun q a => do
        let bpa ← kh.ind1 x a q
        sumM (List.range (d.view nleads).nleads) fun l => do
          let w ← kh.rd f l bpa
          pure (T l b a * T l a x * (starRingEnd ℂ) w.cur1))
      (gA := fun q a => do
        let bpa ← (d.view nleads).ind1 x a q
        sumM (List.range (d.view nleads).nleads) fun l => do
          let w ← (d.view nleads).rd f l bpa
          pure (T l b a * T l a x * (starRingEnd ℂ) w.cur1)) ?_ ?_
    · intro q a _; simp only [o.ind1_eq, o.rd_eq]
    · intro a; simp only [o.ind1_eq, o.rd_eq]
  · intro x
    unfold CRedfield.fctR Redfield.fctR
    rw [hn]
    refine o.twoSums h hc (K := fun s1 s2 => pure (s1 + s2))
      (fA := fun q a => do
        let bpa ← kh.ind1 x a q
        sumM (List.range (d.view nleads).nleads) fun l => do
          let w ← kh.rd f l bpa
          pure (-T l x a * T l a bp * w.cur1))
      (gA := fun q a => do
        let bpa ← (d.view nleads).ind1 x a q
        sumM (List.range (d.view nleads).nleads) fun l => do
          let w ← (d.view nleads).rd f l bpa
          pure (-T l x a * T l a bp * w.cur1)) ?_ ?_
    · intro q a _; simp only [o.ind1_eq, o.rd_eq]
    · intro a; simp only [o.ind1_eq, o.rd_eq]
  · intro a ap
    unfold CRedfield.fctC Redfield.fctC
    rw [hn]
    simp only [o.ind1_eq, o.rd_eq]

end

end Of

end CKH

end Verif
