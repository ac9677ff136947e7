import Verif.Lemmas.CompiledRun
import Verif.Lemmas.CompiledCur
import Verif.Lemmas.Coh
import Verif.Lemmas.Lindblad
import Verif.Lemmas.Pauli

/-! The parallel loop of the compiled `generate_kern` and the loops of the Python one. -/

namespace Verif

noncomputable section

theorem flatMap_ite_single {α β : Type} (q : Bool) (x : α) (g : α → List β) :
    (if q then [x] else []).flatMap g = if q then g x else [] := by
  cases q <;> simp

theorem elems_flatMap {v : View} {la : Lab} {uni : Nat → Nat → Nat → Bool}
    {β : Type} (g : Trip → List β) :
    (elems v la uni).flatMap g = (List.range v.ncharge).flatMap fun c =>
      (combsR2 (v.row c)).flatMap fun p =>
        if la.inc c p.1 p.2 && uni c p.1 p.2 then g (p.1, p.2, c) else [] := by
  unfold elems
  rw [List.flatMap_assoc]
  congr 1
  funext c
  rw [List.flatMap_assoc]
  congr 1
  funext p
  exact flatMap_ite_single _ _ _

theorem elemsD_flatMap {v : View} {uni : Nat → Nat → Nat → Bool} {β : Type} (g : Trip → List β) :
    (elemsD v uni).flatMap g = (List.range v.ncharge).flatMap fun c =>
      (v.row c).flatMap fun b => if uni c b b then g (b, b, c) else [] := by
  unfold elemsD
  rw [List.flatMap_assoc]
  congr 1
  funext c
  rw [List.flatMap_assoc]
  congr 1
  funext p
  exact flatMap_ite_single _ _ _

/-- The calls of the Python `generate_kern`, element by element. -/
theorem genKern_elems {v : View} {la : Lab} {uni : Nat → Nat → Nat → Bool} (h : VRep v la uni)
    (E : Nat → ℝ) (coup : Nat → Nat → Int → Py (List KCall)) (ks : Nat → Nat → Nat → List KCall)
    (hc : ∀ c b bp, b ∈ v.row c → bp ∈ v.row c → la.inc c b bp = true →
      coup b bp c = .ok (ks c b bp)) :
    v.genKern E coup = .ok ((elems v la uni).flatMap fun t =>
      .energy (E t.1 - E t.2.1) t.1 t.2.1 (t.2.2 : Int) :: ks t.2.2 t.1 t.2.1) := by
  rw [elems_flatMap]
  unfold View.genKern
  apply collect_ok
  intro c hcm
  rw [h.states (by have := List.mem_range.1 hcm; omega)]
  simp only [py_bind_ok]
  apply collect_ok
  rintro ⟨b, bp⟩ hp
  obtain ⟨hb, hbp⟩ := combsR2_mem hp
  simp only at hb hbp
  rw [h.inclUnique hb hbp]
  simp only [py_bind_ok]
  cases hi : la.inc c b bp with
  | false => simp
  | true =>
    cases hu : uni c b bp with
    | false => simp
    | true =>
      simp only [Bool.and_self, if_true]
      rw [hc c b bp hb hbp hi]
      rfl

theorem foldlM_some {α σ : Type} {l : List α} {f : σ → α → Py σ}
    (h : ∀ s, ∀ x ∈ l, ∃ s', f s x = .ok s') (s : σ) : ∃ s', l.foldlM f s = .ok s' := by
  induction l generalizing s with
  | nil => exact ⟨s, rfl⟩
  | cons a l ih =>
    obtain ⟨s', e⟩ := h s a (by simp)
    rw [List.foldlM_cons, e]
    exact ih (fun s x hx => h s x (by simp [hx])) s'

theorem phi0Norm_some {v : View} {la : Lab} (h : VMul v la) {φ : Vec} (hφ : v.npauli ≤ φ.size) :
    ∃ x, v.phi0Norm φ = .ok x := by
  apply foldlM_some
  intro s c hc
  rw [h.states (by have := List.mem_range.1 hc; omega)]
  simp only [py_bind_ok]
  apply foldlM_some
  intro s b hb
  have := h.lab_diag c b hb
  rw [h.ind0_inc hb hb (h.inc_diag c b hb)]
  simp only [py_bind_ok, Vec.get]
  rw [pyIdx_nat (by omega)]
  exact ⟨_, rfl⟩

/-- What is needed of an object for the compiled handler. -/
structure CReady (d : DM) (nleads : Nat) (la : Lab) (uni : Nat → Nat → Nat → Bool) : Prop where
  rep : VRep (d.view nleads) la uni
  kind : d.kind = .dm
  pairs : (pairs1 (d.view nleads)).length = d.ndm1
  excl : ∀ c b bp, b ∈ (d.view nleads).row c → bp ∈ (d.view nleads).row c →
    la.inc c b bp = false → (d.view nleads).bool0 b bp c = .ok false

namespace CReady

variable {d : DM} {nleads : Nat} {la : Lab} {uni : Nat → Nat → Nat → Bool}
  (r : CReady d nleads la uni)
include r

/-- The handler of an approach with coherences. -/
theorem build : CKH.build d nleads false = .ok (CKH.made d nleads false
    (elems (d.view nleads) la uni) (pairs1 (d.view nleads))) :=
  build_ok r.rep r.kind r.pairs r.excl

/-- The handler of the Pauli approach. -/
theorem buildD : CKH.build d nleads true = .ok (CKH.made d nleads true
    (elemsD (d.view nleads) uni) (pairs1 (d.view nleads))) :=
  build_diag_ok r.rep r.kind r.pairs

theorem of (noCoh : Bool) (t t' : List Trip) : (CKH.made d nleads noCoh t t').Of d nleads :=
  CKH.of_base r.kind nleads noCoh t t'

section coh
variable {E : Nat → ℝ} {ccoup pcoup : Nat → Nat → Int → Py (List KCall)}
  (hcc : ∀ b bp c, b ∈ (d.view nleads).row c → bp ∈ (d.view nleads).row c →
    ccoup b bp (c : Nat) = pcoup b bp (c : Nat))
  (hks : ∀ c b bp, b ∈ (d.view nleads).row c → bp ∈ (d.view nleads).row c →
    la.inc c b bp = true → ∃ ks, pcoup b bp (c : Nat) = .ok ks ∧
      ∀ k ∈ ks, KGood (d.view nleads) la k ∧ k.target = ((c : Int), b, bp))
include hcc hks

/-- The calls for one element. -/
theorem calls : ∃ calls : Trip → List KCall,
    (d.view nleads).genKern E pcoup = .ok ((elems (d.view nleads) la uni).flatMap calls) ∧
    ∀ t ∈ elems (d.view nleads) la uni,
      (ccoup t.1 t.2.1 (t.2.2 : Nat) >>= fun r => .ok
        (KCall.energy (E t.1 - E t.2.1) t.1 t.2.1 (t.2.2 : Nat) :: r)) = .ok (calls t) ∧
      ∀ k ∈ calls t, KGood (d.view nleads) la k ∧ k.target = ((t.2.2 : Int), t.1, t.2.1) := by
  classical
  have h := r.rep
  have key : ∃ ks : Nat → Nat → Nat → List KCall, ∀ c b bp, b ∈ (d.view nleads).row c →
      bp ∈ (d.view nleads).row c → la.inc c b bp = true → pcoup b bp (c : Nat) = .ok (ks c b bp) ∧
      ∀ k ∈ ks c b bp, KGood (d.view nleads) la k ∧ k.target = ((c : Int), b, bp) := by
    refine ⟨fun c b bp => okOr (pcoup b bp (c : Nat)), ?_⟩
    intro c b bp hb hbp hi
    obtain ⟨ks, a1, a2⟩ := hks c b bp hb hbp hi
    simp only
    rw [a1]
    exact ⟨rfl, a2⟩
  obtain ⟨ks, hk⟩ := key
  refine ⟨fun t => .energy (E t.1 - E t.2.1) t.1 t.2.1 (t.2.2 : Int) :: ks t.2.2 t.1 t.2.1,
    genKern_elems h E pcoup ks (fun c b bp hb hbp hi => (hk c b bp hb hbp hi).1), ?_⟩
  rintro ⟨b, bp, c⟩ ht
  obtain ⟨hb, hbp, hi, hu⟩ := (elems_mem h).1 ht
  simp only at hb hbp hi hu
  obtain ⟨a1, a2⟩ := hk c b bp hb hbp hi
  refine ⟨?_, ?_⟩
  · simp only
    rw [hcc b bp c hb hbp, a1]
    rfl
  · intro k hm
    simp only at hm ⊢
    rcases List.mem_cons.1 hm with rfl | hm
    · exact ⟨⟨by omega, by simpa using hb, by simpa using hbp, by simpa using hi,
        by simpa using h.uni_can c b bp hb hbp hi hu⟩, rfl⟩
    · exact a2 k hm

/-- With coherences the loop computes the kernel. -/
theorem kern (symq : Bool) : ∃ m,
    (d.view nleads).assemble d.ndm0r symq ((d.view nleads).genKern E pcoup) = .ok m ∧
    (CKH.made d nleads false (elems (d.view nleads) la uni) (pairs1 (d.view nleads))).Computes
      E ccoup m := by
  have h := r.rep
  obtain ⟨calls, g, hc⟩ := r.calls (E := E) hcc hks
  have o := r.of false (elems (d.view nleads) la uni) (pairs1 (d.view nleads))
  obtain ⟨m, a1, a2⟩ := loop_ok h (E := E) (coup := ccoup) (calls := calls) (n := d.ndm0r)
    (kh := CKH.made d nleads false (elems (d.view nleads) la uni) (pairs1 (d.view nleads)))
    (elems_nodup h) (fun t ht => ht) ((elems_length h).symm)
    (by
      intro i hi
      obtain ⟨b1, b2⟩ := hc _ (List.getElem_mem hi)
      obtain ⟨ws, c1, c2, c3⟩ := writes_list
        (kh := CKH.made d nleads false (elems (d.view nleads) la uni) (pairs1 (d.view nleads)))
        (v := d.view nleads)
        (P := fun w => w.In d.ndm0r ∧ rowsOf (d.view nleads) la (elems (d.view nleads) la uni)[i] w.row)
        (fun k hk => o.writes_ok h.toVMul (b2 k hk).1 (b2 k hk).2)
      refine ⟨ws, ?_, c2, c3⟩
      unfold CKH.iterWrites CKH.iteration
      rw [cGet_nat _ hi]
      simp only [py_bind_ok, py_pure]
      erw [b1]
      exact c1)
    (rows := if symq then d.ndm0r else d.ndm0r + 1) (by split <;> omega)
  refine ⟨m, ?_, a2⟩
  unfold View.assemble
  rw [g]
  exact a1

/-- The same when no matrix is stored. -/
theorem vec {normRow : Int} (hn : 0 ≤ normRow) {φ : Vec} (hφ : d.ndm0r ≤ φ.size) : ∃ norm y,
    (CKH.made d nleads false (elems (d.view nleads) la uni) (pairs1 (d.view nleads))).phi0Norm φ
      = .ok norm ∧ y.size = d.ndm0r ∧
    (CKH.made d nleads false (elems (d.view nleads) la uni) (pairs1 (d.view nleads))).ComputesFree
      E ccoup φ y ∧
    (d.view nleads).genVec d.ndm0r normRow ((d.view nleads).genKern E pcoup) φ
      = y.cput normRow (norm - 1) := by
  have h := r.rep
  obtain ⟨calls, g, hc⟩ := r.calls (E := E) hcc hks
  have o := r.of false (elems (d.view nleads) la uni) (pairs1 (d.view nleads))
  obtain ⟨y, a1, a2, a3⟩ := loopFree_ok h (E := E) (coup := ccoup) (calls := calls) (n := d.ndm0r)
    (kh := CKH.made d nleads false (elems (d.view nleads) la uni) (pairs1 (d.view nleads)))
    (elems_nodup h) (fun t ht => ht) ((elems_length h).symm) (φ := φ)
    (by
      intro i hi
      obtain ⟨b1, b2⟩ := hc _ (List.getElem_mem hi)
      obtain ⟨ws, c1, c2, c3⟩ := writesFree_list (φ := φ)
        (kh := CKH.made d nleads false (elems (d.view nleads) la uni) (pairs1 (d.view nleads)))
        (v := d.view nleads)
        (P := fun w => w.In d.ndm0r ∧ rowsOf (d.view nleads) la (elems (d.view nleads) la uni)[i] w.pos)
        (fun k hk => o.writesFree_ok h.toVMul hφ (b2 k hk).1 (b2 k hk).2)
      refine ⟨ws, ?_, c2, c3⟩
      unfold CKH.iterWritesFree CKH.iteration
      rw [cGet_nat _ hi]
      simp only [py_bind_ok, py_pure]
      erw [b1]
      exact c1)
  obtain ⟨norm, hnorm⟩ := phi0Norm_some h.toVMul (φ := φ)
    (by have := h.np_le; have := h.ndm0r; show d.npauli ≤ _; simp only [DM.view] at *; omega)
  refine ⟨norm, y, ?_, a2, a3, ?_⟩
  · rw [o.phi0Norm_eq h.toVMul, hnorm]
  · unfold View.genVec
    rw [hnorm, g]
    simp only [py_bind_ok]
    rw [show (d.view nleads).runFree φ (Vec.zeros d.ndm0r)
      ((elems (d.view nleads) la uni).flatMap calls) = .ok y from a1, Vec.cput_eq _ hn]
    rfl

end coh

/-! ### Without coherences -/

/-- The calls of the Pauli approach for one element: the form of their targets. -/
theorem pauli_calls (fct : Nat → Nat → ℝ × ℝ) {c b : Nat} (hb : b ∈ (d.view nleads).row c) :
    ∀ k ∈ Pauli.group (d.view nleads) la fct c b, ∃ (fm fp : ℝ) (y : Nat), y < d.npauli ∧
      la.lab c b b < d.npauli ∧ k = .pauli fm fp (la.lab c b b : Nat) (y : Nat) := by
  have h := r.rep
  intro k hk
  have hlb : la.lab c b b < d.npauli := h.lab_diag c b hb
  simp only [Pauli.group, List.mem_append, List.mem_map] at hk
  rcases hk with ⟨a, ha, rfl⟩ | ⟨x, hx, rfl⟩
  · obtain ⟨_, ha', _⟩ := h.low_mem ha
    exact ⟨_, _, _, h.lab_diag (c - 1) a ha', hlb, rfl⟩
  · exact ⟨_, _, _, h.lab_diag (c + 1) x hx, hlb, rfl⟩

section diag
variable {E : Nat → ℝ} {g : Nat → Nat → List KCall} {ccoup : Nat → Nat → Int → Py (List KCall)}
  {pcalls : Py (List KCall)}
  (hg : ∀ c b, b ∈ (d.view nleads).row c → ∀ k ∈ g c b, ∃ (fm fp : ℝ) (y : Nat), y < d.npauli ∧
      la.lab c b b < d.npauli ∧ k = .pauli fm fp (la.lab c b b : Nat) (y : Nat))
  (hcc : ∀ c b, b ∈ (d.view nleads).row c → ccoup b b (c : Nat) = .ok (g c b))
  (hpc : pcalls = .ok ((List.range (d.view nleads).ncharge).flatMap fun c =>
    ((d.view nleads).row c).flatMap fun b => if uni c b b then g c b else []))
include hg hcc hpc

/-- Without coherences the loop computes the kernel. -/
theorem diag_kern (symq : Bool) : ∃ m,
    (d.view nleads).assemble d.npauli symq pcalls = .ok m ∧
    (CKH.made d nleads true (elemsD (d.view nleads) uni) (pairs1 (d.view nleads))).Computes
      E ccoup m := by
  have h := r.rep
  have o := r.of true (elemsD (d.view nleads) uni) (pairs1 (d.view nleads))
  obtain ⟨kh, hkh⟩ : ∃ kh, kh = CKH.made d nleads true (elemsD (d.view nleads) uni)
    (pairs1 (d.view nleads)) := ⟨_, rfl⟩
  have hall : kh.allBbp = elemsD (d.view nleads) uni := by rw [hkh]; rfl
  have hne : kh.nelements = d.npauli := by rw [hkh]; rfl
  rw [← hkh] at o ⊢
  obtain ⟨m, a1, a2⟩ := loop_ok h (E := E) (coup := ccoup)
    (calls := fun t => g t.2.2 t.1) (n := d.npauli) (kh := kh)
    (by rw [hall]; exact elemsD_nodup h) (fun t ht => elemsD_sub h (by rwa [hall] at ht))
    (by rw [hne, hall, elemsD_length h]; rfl)
    (by
      intro i hi
      have hm := List.getElem_mem hi
      obtain ⟨t, ht⟩ : ∃ t, t = kh.allBbp[i] := ⟨_, rfl⟩
      rw [← ht] at hm ⊢
      obtain ⟨b, bp, c⟩ := t
      rw [hall] at hm
      obtain ⟨hb, hbp, hu⟩ := (elemsD_mem h).1 hm
      simp only at hb hbp hu
      subst hbp
      obtain ⟨ws, c1, c2, c3⟩ := writes_list (kh := kh) (v := d.view nleads)
        (ks := g c bp)
        (P := fun w => w.In d.npauli ∧ rowsOf (d.view nleads) la (bp, bp, c) w.row)
        (fun k hk => by
          obtain ⟨fm, fp, y, hy, hl, rfl⟩ := hg c bp hb k hk
          obtain ⟨e1, e2, e3⟩ := o.writes_pauli (fm := fm) (fp := fp) hl hy
          exact ⟨_, e1, e2, fun w hw => ⟨(e3 w hw).1, Or.inl (e3 w hw).2⟩⟩)
      refine ⟨ws, ?_, c2, c3⟩
      unfold CKH.iterWrites CKH.iteration
      rw [cGet_nat _ hi, ← ht]
      simp only [py_bind_ok, py_pure]
      rw [hcc c bp hb]
      simp only [py_bind_ok]
      rw [collect_cons, c1]
      simp [CKH.writes])
    (rows := if symq then d.npauli else d.npauli + 1) (by split <;> omega)
  refine ⟨m, ?_, a2⟩
  unfold View.assemble
  rw [hpc, ← elemsD_flatMap (uni := uni) (fun t => g t.2.2 t.1), ← hall]
  exact a1

/-- The same when no matrix is stored. -/
theorem diag_vec {normRow : Int} (hn : 0 ≤ normRow)
    {φ : Vec} (hφ : d.npauli ≤ φ.size) : ∃ norm y,
    (CKH.made d nleads true (elemsD (d.view nleads) uni) (pairs1 (d.view nleads))).phi0Norm φ
      = .ok norm ∧ y.size = d.npauli ∧
    (CKH.made d nleads true (elemsD (d.view nleads) uni) (pairs1 (d.view nleads))).ComputesFree
      E ccoup φ y ∧
    (d.view nleads).genVec d.npauli normRow pcalls φ = y.cput normRow (norm - 1) := by
  have h := r.rep
  have o := r.of true (elemsD (d.view nleads) uni) (pairs1 (d.view nleads))
  obtain ⟨kh, hkh⟩ : ∃ kh, kh = CKH.made d nleads true (elemsD (d.view nleads) uni)
    (pairs1 (d.view nleads)) := ⟨_, rfl⟩
  have hall : kh.allBbp = elemsD (d.view nleads) uni := by rw [hkh]; rfl
  have hne : kh.nelements = d.npauli := by rw [hkh]; rfl
  rw [← hkh] at o ⊢
  obtain ⟨y, a1, a2, a3⟩ := loopFree_ok h (E := E) (coup := ccoup)
    (calls := fun t => g t.2.2 t.1) (n := d.npauli) (kh := kh)
    (by rw [hall]; exact elemsD_nodup h) (fun t ht => elemsD_sub h (by rwa [hall] at ht))
    (by rw [hne, hall, elemsD_length h]; rfl) (φ := φ)
    (by
      intro i hi
      have hm := List.getElem_mem hi
      obtain ⟨t, ht⟩ : ∃ t, t = kh.allBbp[i] := ⟨_, rfl⟩
      rw [← ht] at hm ⊢
      obtain ⟨b, bp, c⟩ := t
      rw [hall] at hm
      obtain ⟨hb, hbp, hu⟩ := (elemsD_mem h).1 hm
      simp only at hb hbp hu
      subst hbp
      obtain ⟨ws, c1, c2, c3⟩ := writesFree_list (kh := kh) (v := d.view nleads) (φ := φ)
        (ks := g c bp)
        (P := fun w => w.In d.npauli ∧ rowsOf (d.view nleads) la (bp, bp, c) w.pos)
        (fun k hk => by
          obtain ⟨fm, fp, y, hy, hl, rfl⟩ := hg c bp hb k hk
          obtain ⟨e1, e2, e3⟩ := o.writesFree_pauli hφ (fm := fm) (fp := fp) hl hy
          exact ⟨_, e1, e2, fun w hw => ⟨(e3 w hw).1, Or.inl (e3 w hw).2⟩⟩)
      refine ⟨ws, ?_, c2, c3⟩
      unfold CKH.iterWritesFree CKH.iteration
      rw [cGet_nat _ hi, ← ht]
      simp only [py_bind_ok, py_pure]
      rw [hcc c bp hb]
      simp only [py_bind_ok]
      rw [collect_cons, c1]
      simp [CKH.writesFree])
  obtain ⟨norm, hnorm⟩ := phi0Norm_some h.toVMul (φ := φ) hφ
  refine ⟨norm, y, ?_, a2, a3, ?_⟩
  · rw [o.phi0Norm_eq h.toVMul, hnorm]
  · unfold View.genVec
    rw [hnorm, hpc, ← elemsD_flatMap (uni := uni) (fun t => g t.2.2 t.1), ← hall]
    simp only [py_bind_ok]
    rw [a1, Vec.cput_eq _ hn]
    rfl

end diag

/-- The Pauli approach. -/
theorem pauli_coup_ok (fct : Nat → Nat → ℝ × ℝ) {c b : Nat} (hb : b ∈ (d.view nleads).row c) :
    CPauli.coup (CKH.made d nleads true (elemsD (d.view nleads) uni) (pairs1 (d.view nleads))) fct
      b b (c : Nat) = .ok (Pauli.group (d.view nleads) la fct c b) := by
  have h := r.rep
  rw [(r.of true _ _).pauli_coup h.toVMul fct b b (h.row_lt hb), Pauli.VMul.coup_ok h.toVMul fct hb]

theorem pauli_kern (E : Nat → ℝ) (fct : Nat → Nat → ℝ × ℝ) (symq : Bool) : ∃ m,
    Pauli.kernel (d.view nleads) symq fct = .ok m ∧
    (CKH.made d nleads true (elemsD (d.view nleads) uni) (pairs1 (d.view nleads))).Computes
      E (CPauli.coup (CKH.made d nleads true (elemsD (d.view nleads) uni) (pairs1 (d.view nleads))) fct)
      m :=
  r.diag_kern (fun c b hb => r.pauli_calls fct hb) (fun c b hb => r.pauli_coup_ok fct hb)
    (Pauli.VRep.genKern_ok r.rep fct) symq

theorem pauli_vec (E : Nat → ℝ) (fct : Nat → Nat → ℝ × ℝ) {normRow : Int} (hn : 0 ≤ normRow)
    {φ : Vec} (hφ : d.npauli ≤ φ.size) : ∃ norm y,
    (CKH.made d nleads true (elemsD (d.view nleads) uni) (pairs1 (d.view nleads))).phi0Norm φ
      = .ok norm ∧ y.size = d.npauli ∧
    (CKH.made d nleads true (elemsD (d.view nleads) uni) (pairs1 (d.view nleads))).ComputesFree
      E (CPauli.coup (CKH.made d nleads true (elemsD (d.view nleads) uni) (pairs1 (d.view nleads))) fct)
      φ y ∧
    (d.view nleads).genVec d.npauli normRow (Pauli.genKern (d.view nleads) fct) φ
      = y.cput normRow (norm - 1) :=
  r.diag_vec (fun c b hb => r.pauli_calls fct hb) (fun c b hb => r.pauli_coup_ok fct hb)
    (Pauli.VRep.genKern_ok r.rep fct) hn hφ

end CReady

end

end Verif
