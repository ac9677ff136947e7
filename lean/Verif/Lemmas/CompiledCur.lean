import Verif.Lemmas.CompiledTab

/-! The factors and the currents of the compiled approaches. -/

namespace Verif

namespace CKH.Of

variable {kh : CKH} {d : DM} {nleads : Nat} (o : CKH.Of kh d nleads)
  {la : Lab} (h : VMul (d.view nleads) la)
  (hba : kh.allBa = pairs1 (d.view nleads)) (hp : (pairs1 (d.view nleads)).length = d.ndm1)
include o h

theorem states_pair {q : Nat} (hq : q < (d.view nleads).ncharge - 1) :
    (d.view nleads).states ((q : Int) + 1) = .ok ((d.view nleads).row (q + 1)) ∧
    (d.view nleads).states (q : Int) = .ok ((d.view nleads).row q) :=
  ⟨h.states_succ (by omega), h.states (by omega)⟩

include hba hp

/-- A loop over `all_ba`. -/
theorem fold_ba {σ : Type} (F : σ → Nat → Nat → Nat → Py σ) (s : σ) :
    (List.range kh.ndm1).foldlM
        (fun s (i : Nat) => cGet kh.allBa (i : Int) >>= fun p => F s p.1 p.2.1 p.2.2) s
      = (List.range ((d.view nleads).ncharge - 1)).foldlM (fun s (q : Nat) => do
          let Cs ← (d.view nleads).states ((q : Int) + 1)
          let Bs ← (d.view nleads).states (q : Int)
          (prod2 Cs Bs).foldlM (fun s p => F s p.1 p.2 q) s) s := by
  rw [foldlM_range_get kh.allBa (fun s p => F s p.1 p.2.1 p.2.2) (by rw [o.ndm1, hba, hp]), hba]
  unfold pairs1
  rw [foldlM_flatMap_py]
  apply foldlM_congr_c
  intro s q hq
  obtain ⟨e1, e2⟩ := o.states_pair h (List.mem_range.1 hq)
  rw [e1, e2, List.foldlM_map]
  rfl

theorem collect_ba {β : Type} (F : Nat → Nat → Nat → Py (List β)) :
    collect (List.range kh.ndm1)
        (fun (i : Nat) => cGet kh.allBa (i : Int) >>= fun p => F p.1 p.2.1 p.2.2)
      = collect (List.range ((d.view nleads).ncharge - 1)) (fun (q : Nat) => do
          let Cs ← (d.view nleads).states ((q : Int) + 1)
          let Bs ← (d.view nleads).states (q : Int)
          collect (prod2 Cs Bs) fun p => F p.1 p.2 q) := by
  rw [collect_range_get kh.allBa (fun p => F p.1 p.2.1 p.2.2) (by rw [o.ndm1, hba, hp]), hba]
  unfold pairs1
  rw [collect_flatMap]
  apply collect_congr
  intro q hq
  obtain ⟨e1, e2⟩ := o.states_pair h (List.mem_range.1 hq)
  rw [e1, e2, collect_onmap]
  rfl

theorem fillFct_eq {β : Type} (z : β) (f : Nat → Nat → Nat → β) :
    kh.fillFct z f = (d.view nleads).fillFct z f := by
  have hn : kh.nleads = (d.view nleads).nleads := o.nleads
  unfold CKH.fillFct View.fillFct
  rw [hn]
  simp only [o.wr_eq]
  have := o.fold_ba h hba hp (F := fun fct c b q => do
    let cb ← kh.ind1 c b (q : Int)
    (List.range (d.view nleads).nleads).foldlM
      (fun fct l => (d.view nleads).wr fct l cb (f l c b)) fct) (fun _ _ => z)
  rw [this]
  simp only [o.ind1_eq]

theorem pauli_fct (E : Nat → ℝ) (L : Leads) :
    CPauli.genFct kh E L = Pauli.genFct (d.view nleads) E L := o.fillFct_eq h hba hp _ _

theorem vn1_fct (lib : NumLib) (E : Nat → ℝ) (L : Leads) :
    kh.genFct1vN lib E L = Verif.genFct1vN (d.view nleads) lib E L := o.fillFct_eq h hba hp _ _

theorem lindblad_fct (E : Nat → ℝ) (L : Leads) :
    CLindblad.genFct kh E L = Lindblad.genFct (d.view nleads) E L := by
  have hn : kh.nleads = (d.view nleads).nleads := o.nleads
  unfold CLindblad.genFct Lindblad.genFct
  rw [hn]
  exact o.fold_ba h hba hp (F := fun t b a _ =>
    (List.range (d.view nleads).nleads).foldlM
        (fun t l =>
          let r := funcPauli (E b - E a) (L.mu l) (L.T l) (L.Dm l) (L.Dp l) L.itype
          let t := CLindblad.wr3 t l b a (Real.sqrt r.1 * L.Tba l b a)
          pure (CLindblad.wr3 t l a b (Real.sqrt r.2 * L.Tba l a b))) t) (fun _ _ _ => 0)

omit hba hp

/-! ### Elements of the density matrix -/

theorem phi0Element_eq (φ : Vec) {b bp c : Nat} (hb : b ∈ (d.view nleads).row c)
    (hbp : bp ∈ (d.view nleads).row c) :
    kh.phi0Element φ b bp (c : Int) = (d.view nleads).phi0Element φ b bp (c : Int) := by
  unfold CKH.phi0Element View.phi0Element
  rw [o.ind0_eq, h.ind0 c b bp hb hbp]
  simp only [py_bind_ok]
  cases hi : la.inc c b bp with
  | false => simp
  | true =>
    simp only [if_true]
    rw [if_neg (by omega), if_neg (by omega), Vec.cget_eq _ (by omega), o.imagPos_eq]
    congr 1
    funext re
    congr 1
    unfold CKH.phi0Imag View.phi0Imag
    rw [o.ndm0, show (d.view nleads).ndm0 = d.ndm0 from rfl]
    split
    · rename_i hge
      rw [o.conj0_eq, Vec.cget_eq _ (by omega)]
    · rfl

theorem phi0Norm_eq (φ : Vec) : kh.phi0Norm φ = (d.view nleads).phi0Norm φ := by
  have hnc : kh.ncharge = (d.view nleads).ncharge := o.ncharge
  unfold CKH.phi0Norm View.phi0Norm
  rw [hnc]
  apply foldlM_congr_c
  intro s c hc
  have hc := List.mem_range.1 hc
  rw [o.same_ok h (by omega), h.states (by omega)]
  simp only [py_bind_ok]
  apply foldlM_congr_c
  intro s b hb
  rw [o.ind0_eq, h.ind0_inc hb hb (h.inc_diag c b hb)]
  simp only [py_bind_ok]
  rw [Vec.cget_eq _ (by omega)]

theorem genNormVec_eq (x : Vec) : kh.genNormVec x = (d.view nleads).genNormVec x := by
  have hnc : kh.ncharge = (d.view nleads).ncharge := o.ncharge
  unfold CKH.genNormVec View.genNormVec
  rw [hnc]
  apply foldlM_congr_c
  intro s c hc
  have hc := List.mem_range.1 hc
  rw [o.same_ok h (by omega), h.states (by omega)]
  simp only [py_bind_ok]
  apply foldlM_congr_c
  intro s b hb
  rw [o.ind0_eq, h.ind0_inc hb hb (h.inc_diag c b hb)]
  simp only [py_bind_ok]
  rw [Vec.cadd_eq _ (by omega)]

/-! ### Currents -/

theorem lindblad_cur (E : Nat → ℝ) (t : Nat → Nat → Nat → ℂ) (φ : Vec) :
    CLindblad.genCurrent kh E t φ = Lindblad.genCurrent (d.view nleads) E t φ := by
  have hnc : kh.ncharge = (d.view nleads).ncharge := o.ncharge
  have hn : kh.nleads = (d.view nleads).nleads := o.nleads
  unfold CLindblad.genCurrent Lindblad.genCurrent
  rw [hnc, hn]
  apply collect_congr
  intro c hc
  have hc := List.mem_range.1 hc
  rw [o.lower_eq h (by omega), o.same_eq h (by omega), o.upper_eq h hc, h.states_pred (by omega),
    h.states (by omega), h.states_succ hc]
  simp only [py_bind_ok, collect_prod2]
  apply collect_congr
  intro b hb
  apply collect_congr
  intro bp hbp
  rw [o.isIncluded_eq, o.phi0Element_eq h φ hb hbp]
  unfold CLindblad.curTerm Lindblad.curTerm
  simp only [h.states_pred (show c ≤ (d.view nleads).ncharge by omega), h.states_succ hc, py_bind_ok]

include hba hp

theorem pauli_cur (E : Nat → ℝ) (fct : Nat → Nat → ℝ × ℝ) (φ : Vec) :
    CPauli.genCurrent kh E fct φ = Pauli.genCurrent (d.view nleads) E fct φ := by
  have hn : kh.nleads = (d.view nleads).nleads := o.nleads
  unfold CPauli.genCurrent
  rw [o.collect_ba h hba hp (F := fun c b q => do
    let bb ← kh.ind0 b b (q : Int)
    let cc ← kh.ind0 c c ((q : Int) + 1)
    let cb ← kh.ind1 c b (q : Int)
    collect (List.range kh.nleads) fun l => do
      let pb ← φ.cget bb
      let w ← kh.rd fct l cb
      let pc ← φ.cget cc
      let fct1 := pb * w.1
      let fct2 := -pc * w.2
      pure [CEv.mk l (fct1 + fct2) (-((E b - E c) * (fct1 + fct2)))])]
  unfold Pauli.genCurrent
  apply collect_congr
  intro q hq
  obtain ⟨e1, e2⟩ := o.states_pair h (List.mem_range.1 hq)
  rw [e1, e2]
  simp only [py_bind_ok, collect_prod2]
  apply collect_congr
  intro c hc
  have i1 : (d.view nleads).ind0 c c ((q : Int) + 1) = .ok (la.lab (q + 1) c c : Int) :=
    h.ind0_inc (c := q + 1) hc hc (h.inc_diag (q + 1) c hc)
  have i2 : kh.ind0 c c ((q : Int) + 1) = .ok (la.lab (q + 1) c c : Int) := by
    rw [← i1]; exact o.ind0_eq c c (q + 1)
  rw [i1, i2]
  simp only [py_bind_ok]
  apply collect_congr
  intro b hb
  rw [o.ind0_eq, h.ind0_inc hb hb (h.inc_diag q b hb), o.ind1_eq, h.ind1 q c b hc hb, hn]
  simp only [py_bind_ok]
  apply collect_congr
  intro l _
  rw [o.rd_eq, Vec.cget_eq _ (by omega), Vec.cget_eq _ (by omega)]
  unfold View.rd
  rw [if_pos (h.ix1_lt q c b hc hb)]
  simp only [py_pure, py_bind_ok, neg_mul]

theorem vn1_cur (T : Nat → Nat → Nat → ℂ) (f : Nat → Nat → Amp) (φ : Vec) :
    CVN1.genCurrent kh T f φ = VN1.genCurrent (d.view nleads) T f φ := by
  have hn : kh.nleads = (d.view nleads).nleads := o.nleads
  unfold CVN1.genCurrent
  rw [o.collect_ba h hba hp (F := fun c b q => do
    let Bs ← kh.same (q : Int)
    let Cs ← kh.upper ((q : Int) + 1)
    let cb ← kh.ind1 c b (q : Int)
    collect (List.range kh.nleads) fun l => do
      let w ← kh.rd f l cb
      let x ← CVN1.curB kh T φ w Bs c b (q : Int) l
      let y ← CVN1.curC kh T φ w Cs c b ((q : Int) + 1) l
      pure [CEv1.mk ⟨l, -2 * (x.2.1 + y.2.1).im, -2 * (x.2.2 + y.2.2).im⟩ cb (x.1 + y.1)])]
  unfold VN1.genCurrent
  apply collect_congr
  intro q hq
  have hq' := List.mem_range.1 hq
  obtain ⟨e1, e2⟩ := o.states_pair h hq'
  rw [e1, e2]
  simp only [py_bind_ok]
  apply collect_congr
  intro p hpm
  obtain ⟨hc, hb⟩ := prod2_mem hpm
  rw [o.same_eq h (by omega), o.upper_eq h (by omega), e1, e2, o.ind1_eq, hn]
  simp only [py_bind_ok]
  congr 1
  funext cb
  apply collect_congr
  intro l _
  rw [o.rd_eq]
  congr 1
  funext w
  have hB : CVN1.curB kh T φ w ((d.view nleads).row q) p.1 p.2 (q : Int) l
      = VN1.curB (d.view nleads) T φ w p.1 p.2 (q : Int) l := by
    unfold CVN1.curB VN1.curB
    rw [e2]
    simp only [py_bind_ok]
    apply sumM_congr
    intro bp hbp
    rw [o.isIncluded_eq, o.phi0Element_eq h φ hbp hb]
  have hC : CVN1.curC kh T φ w ((d.view nleads).row (q + 1)) p.1 p.2 ((q : Int) + 1) l
      = VN1.curC (d.view nleads) T φ w p.1 p.2 ((q : Int) + 1) l := by
    unfold CVN1.curC VN1.curC
    rw [e1]
    simp only [py_bind_ok]
    apply sumM_congr
    intro cp hcp
    have a1 := o.isIncluded_eq p.1 cp (q + 1)
    have a2 := o.phi0Element_eq h φ hc hcp
    push_cast at a1 a2
    rw [a1, a2]
  rw [hB, hC]

theorem redfield_cur (T : Nat → Nat → Nat → ℂ) (f : Nat → Nat → Amp) (φ : Vec) :
    CRedfield.genCurrent kh T f φ = Redfield.genCurrent (d.view nleads) T f φ := by
  have hn : kh.nleads = (d.view nleads).nleads := o.nleads
  unfold CRedfield.genCurrent
  rw [o.collect_ba h hba hp (F := fun c b q => do
    let Bs ← kh.same (q : Int)
    let Cs ← kh.upper ((q : Int) + 1)
    let cb ← kh.ind1 c b (q : Int)
    collect (List.range kh.nleads) fun l => do
      let x ← CRedfield.curB kh T f φ Bs c b (q : Int) l
      let y ← CRedfield.curC kh T f φ Cs c b (q : Int) ((q : Int) + 1) l
      pure [CEv1.mk ⟨l, -2 * (x.2.1 + y.2.1).im, -2 * (x.2.2 + y.2.2).im⟩ cb (x.1 + y.1)])]
  unfold Redfield.genCurrent
  apply collect_congr
  intro q hq
  have hq' := List.mem_range.1 hq
  obtain ⟨e1, e2⟩ := o.states_pair h hq'
  rw [e1, e2]
  simp only [py_bind_ok]
  apply collect_congr
  intro p hpm
  obtain ⟨hc, hb⟩ := prod2_mem hpm
  rw [o.same_eq h (by omega), o.upper_eq h (by omega), e1, e2, o.ind1_eq, hn]
  simp only [py_bind_ok]
  congr 1
  funext cb
  apply collect_congr
  intro l _
  have hB : CRedfield.curB kh T f φ ((d.view nleads).row q) p.1 p.2 (q : Int) l
      = Redfield.curB (d.view nleads) T f φ p.1 p.2 (q : Int) l := by
    unfold CRedfield.curB Redfield.curB
    rw [e2]
    simp only [py_bind_ok]
    apply sumM_congr
    intro bp hbp
    rw [o.isIncluded_eq, o.phi0Element_eq h φ hbp hb]
    simp only [o.ind1_eq, o.rd_eq]
  have hC : CRedfield.curC kh T f φ ((d.view nleads).row (q + 1)) p.1 p.2 (q : Int) ((q : Int) + 1) l
      = Redfield.curC (d.view nleads) T f φ p.1 p.2 (q : Int) ((q : Int) + 1) l := by
    unfold CRedfield.curC Redfield.curC
    rw [e1]
    simp only [py_bind_ok]
    apply sumM_congr
    intro cp hcp
    have a1 := o.isIncluded_eq p.1 cp (q + 1)
    have a2 := o.phi0Element_eq h φ hc hcp
    push_cast at a1 a2
    rw [a1, a2]
    simp only [o.ind1_eq, o.rd_eq]
  rw [hB, hC]

end CKH.Of

end Verif
