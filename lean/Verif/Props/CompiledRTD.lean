import Verif.Lemmas.CompiledRTDEnd
import Verif.Props.Compiled
import Verif.Props.RTD

/-! C98: the compiled RTD approach against the Python one. -/

namespace Verif

open Finset

noncomputable section

namespace CRTD

open RTD (In St genKern fresh AllCoherences vecOf Currents)

/-- Objects after any history, without 'ssq' indexing. -/
theorem ready {n : Nat} {indexing : String} {d : DM} {S : List (List Nat)}
    (h : Reach .dm n indexing d S) (hix : d.si.indexing ≠ .ssq) (hS : S.length = n + 1) (nl : Nat) :
    VOk (d.view nl) d.labOf ∧ CReady d nl d.labOf d.labOf.can := by
  have hv : VOk (d.view nl) d.labOf := view_ok h hix hS
  obtain ⟨hi, hk, _⟩ := h.inv
  have L := (hi.lab hix).dm hk
  refine ⟨hv, hv.rep, hk, pairs1_len nl hi.sizes hi.shape.ncharge hi.sdm, ?_⟩
  have hlt : ∀ {c b}, b ∈ rowOf S c → c < n + 1 := by
    intro c b hb
    by_contra hc
    rw [rowOf, List.getElem?_eq_none (by omega)] at hb
    simp at hb
  intro c b bp hb hbp hinc
  rw [row_of_sdm nl hi.sdm] at hb hbp
  by_cases e : b = bp
  · subst e
    obtain ⟨a, _⟩ := L.diag c b (hlt hb) hb
    simp [DM.labOf, a, okD] at hinc
  · cases hin : inclOf d.si.indexing (szOf n d.si) b bp with
    | true =>
      obtain ⟨k, x, _, _, a, _⟩ := L.off c b bp (hlt hb) hb hbp e hin
      simp [DM.labOf, a, okD] at hinc
    | false => exact (L.excl c b bp (hlt hb) hb hbp e hin).2.1

/-- **C98** (kernel). Let the thresholds of the two versions make the same decisions. The constructor of the
handler stays within its arrays and `generate_fct` and `generate_LN` give the numbers of the Python methods.
Python's `generate_kern` ends without an error; every distribution of the iterations of the first parallel
loop over threads with a copy of `Wdd` can be executed, and however the updates of the threads follow each
other in time, every update is within the arrays and the kernel, the matrices `Wdd`, `WE1`, `WE2` and the flag
`ImGamma` are those of the Python version. -/
theorem c98_kern {n nl : Nat} {indexing : String} {d : DM} {S : List (List Nat)}
    (h : Reach .dm n indexing d S) (hix : d.si.indexing ≠ .ssq) (hS : S.length = n + 1) (off symq : Bool)
    (hsz : off = true → d.si.indexing ≠ .sz) (fct : Nat → Nat → ℝ × ℝ) {s : In} (hv : s.v = d.view nl)
    {poles : s.lib.Poles} (cm : Comparable s poles) {copies : Nat} (hpos : 0 < copies) :
    ∃ kh st, CKH.build d nl true = .ok kh ∧
      (∀ E L, CPauli.genFct kh E L = Pauli.genFct s.v E L) ∧
      (∃ LN, genLN kh = .ok LN ∧ RTD.genLN s.v = .ok LN ∧ LN.length = d.npauli) ∧
      genKern s fct off (fresh s.v symq) = .ok st ∧
      (∀ sched : Nat → List Nat, ((List.range copies).flatMap sched).Perm (List.range d.npauli) →
        (∀ t, copies ≤ t → sched t = []) → ∃ X : Exec kh s poles fct off copies, X.sched = sched) ∧
      (SetsImGamma kh s fct off ↔ st.acc.im = true) ∧
      ∀ X : Exec kh s poles fct off copies, X.Inside ∧
        (∀ i < d.npauli, ∀ j < d.npauli, X.kern i j = st.kern.val i j) ∧
        ∀ l < nl, ∀ i j, X.wdd l i j = (st.acc.mats.ten .Wdd).val l i j ∧
          X.x3 (.WE1, l, i, j) = (st.acc.mats.ten .WE1).val l i j ∧
          X.x3 (.WE2, l, i, j) = (st.acc.mats.ten .WE2).val l i j := by
  obtain ⟨hv', r⟩ := ready h hix hS nl
  have hall : off = true → AllCoherences (d.view nl) d.labOf :=
    fun ho => RTD.all_coherences h hix (hsz ho) hS
  obtain ⟨v, E, nmany, L, tl, nsingle, lib, ps⟩ := s
  simp only at hv
  subst hv
  have o := r.of true (elemsD (d.view nl) d.labOf.can) (pairs1 (d.view nl))
  have k := Link.of o hv'
  obtain ⟨st, hst⟩ := RTD.genKern_some (s := ⟨d.view nl, E, nmany, L, tl, nsingle, lib, ps⟩) hv'
    (cm.poles.imp (fun e => by rw [e]; rfl) id) fct off symq hall
  obtain ⟨S'⟩ := RTD.genKern_steps hst
  refine ⟨_, st, r.buildD, fun E L => o.pauli_fct r.rep.toVMul rfl r.pairs E L, ?_, hst, ?_,
    im_eq k hv' cm rfl hall S', ?_⟩
  · refine ⟨(elemsD (d.view nl) d.labOf.can).flatMap fun τ => [2 * (τ.2.2 : ℝ)], ?_, ?_, ?_⟩
    · have hl : (elemsD (d.view nl) d.labOf.can).length = d.npauli := elemsD_length hv'.rep
      have hT := tr_list (s := ⟨d.view nl, E, nmany, L, tl, nsingle, lib, ps⟩) hv'
      unfold genLN
      have := collect_ok (l := List.range d.npauli) (f := fun i : Nat => do
          let τ ← cGet (elemsD (d.view nl) d.labOf.can) i
          pure [2 * (τ.2.2 : ℝ)]) (g := fun i => [2 * ((tr (d.view nl) d.labOf i).2.2 : ℝ)]) (by
        intro i hi
        have hi := List.mem_range.1 hi
        obtain ⟨hi', e⟩ := tr_get (s := ⟨d.view nl, E, nmany, L, tl, nsingle, lib, ps⟩) hv' hi
        rw [cGet_nat _ hi', ← e]
        rfl)
      refine this.trans ?_
      rw [hT, List.flatMap_map]
      rfl
    · rw [elemsD_flatMap]
      unfold RTD.genLN
      rw [collect_ok (g := fun c => (d.view nl).row c |>.flatMap fun b =>
        if d.labOf.can c b b then [2 * (c : ℝ)] else [])]
      intro c hc
      rw [hv'.states (List.mem_range.1 hc).le]
      simp only [py_bind_ok]
      refine collect_ok fun a ha => ?_
      rw [hv'.bool0 c a a ha ha (hv'.inc_diag _ _ ha)]
      rfl
    · have hl : (elemsD (d.view nl) d.labOf.can).length = d.npauli := elemsD_length hv'.rep
      rw [List.length_flatMap]
      simp [hl]
  · intro sched part idle
    exact exec_exists k hv' cm rfl hall S' part idle
  · intro X
    exact ⟨inside k hv' cm rfl hall (fine hv' S') X hpos,
      fun i hi j hj => kern_eq k hv' cm rfl hall S' X hpos hi hj,
      fun l hl i j => ⟨wdd_eq k hv' cm rfl hall S' X hpos hl i j, rest_eq k hv' cm rfl hall S' X hpos l i j⟩⟩

/-- **C98** (currents). If no state has been removed, the currents of any execution are those of the Python
version; the energy and heat currents are `nan` in both versions if the flag `ImGamma` is set. -/
theorem c98_current {n nl : Nat} {indexing : String} {d : DM} {S : List (List Nat)}
    (h : Reach .dm n indexing d S) (hix : d.si.indexing ≠ .ssq) (hS : S.length = n + 1) {off symq : Bool}
    (hsz : off = true → d.si.indexing ≠ .sz) {fct : Nat → Nat → ℝ × ℝ} {s : In} (hv : s.v = d.view nl)
    {poles : s.lib.Poles} (cm : Comparable s poles) {copies : Nat} (hpos : 0 < copies)
    {kh : CKH} (hk : CKH.build d nl true = .ok kh) {st : St} (hst : genKern s fct off (fresh s.v symq) = .ok st)
    (hn : s.nmany = d.npauli) {LN : List ℝ} (hLN : genLN kh = .ok LN) {φ : Vec} (hφ : φ.size = d.npauli)
    (X : Exec kh s poles fct off copies) :
    ∃ cur : Currents, RTD.genCurrent s (vecOf LN) st.acc φ = .ok cur ∧
      ∀ l < nl, cur.current l = X.current (vecOf LN) φ l ∧
        cur.energy l = (if st.acc.im then none else some (X.energy φ l)) ∧
        cur.heat l = if st.acc.im then none else some (X.heat (vecOf LN) φ l) := by
  obtain ⟨kh', st', e1, _, ⟨LN', g1, g2, g3⟩, e2, _, _, e3⟩ := c98_kern (copies := copies) h hix hS off symq hsz fct hv cm hpos
  rw [hk] at e1
  simp only [Except.ok.injEq] at e1
  subst e1
  rw [hst] at e2
  simp only [Except.ok.injEq] at e2
  subst e2
  rw [hLN] at g1
  simp only [Except.ok.injEq] at g1
  subst g1
  obtain ⟨_, _, e5⟩ := e3 X
  obtain ⟨S'⟩ := RTD.genKern_steps hst
  have hp : s.v.npauli = d.npauli := by rw [hv]; rfl
  have hl' : s.v.nleads = nl := by rw [hv]; rfl
  have hkp : kh.npauli = d.npauli := by
    obtain ⟨hv', r⟩ := ready h hix hS nl
    have := r.buildD
    rw [hk] at this
    simp only [Except.ok.injEq] at this
    rw [this]
    exact (r.of true _ _).npauli
  obtain ⟨cur, hc⟩ := RTD.genCurrent_some (LN := vecOf LN) (φ := φ) S'.sh (by rw [hp]; exact g3) (hn.trans hp.symm)
    (hφ.trans hp.symm)
  refine ⟨cur, hc, ?_⟩
  obtain ⟨w, hw, rfl⟩ := RTD.genCurrent_inv hc
  intro l hl
  obtain ⟨_, _, _, c1, c2⟩ := RTD.leadCurrent_inv S'.sh (hw l (by rw [hl']; exact hl))
  have a1 : (w l).1 = X.current (vecOf LN) φ l := by
    rw [c1, Exec.current, hp, hkp]
    simp only [(e5 l hl _ _).1]
  have a2 : (w l).2 = X.energy φ l := by
    rw [c2, Exec.energy, hp, hkp]
    simp only [(e5 l hl _ _).1, (e5 l hl _ _).2.1, (e5 l hl _ _).2.2]
    ring
  refine ⟨a1, ?_, ?_⟩
  · simp only [a2]
  · simp only [a1, a2, Exec.heat]

/-- The Python version of `integralX` compares temperatures with the tolerance 1e-10, the compiled one with
1e-5: for temperatures between the two tolerances they evaluate different expressions. -/
theorem c98_tolerance_false : ∃ (lib : RTD.Lib) (poles : lib.Poles) (T1 T2 : ℝ) (x : ℂ),
    RTD.integralX lib (some poles) 1 1 1 1 1 T1 T2 0 0 2 false = .ok x ∧
      integralX lib poles 1 1 1 1 1 T1 T2 0 0 2 false ≠ x := by
  refine ⟨RTD.lib0, (), 1, 1 + 1e-6, -Complex.I * ((-1 : ℝ) : ℂ), ?_, ?_⟩
  · have hn : ¬ |(1 + 1e-6 : ℝ) - 1| < 1e-10 := by
      rw [add_sub_cancel_left, abs_of_pos (by norm_num)]; norm_num
    unfold RTD.integralX
    rw [if_neg (fun hh => hn hh.1)]
    rfl
  · have hn : |(1 + 1e-6 : ℝ) - 1| < 1e-5 := by
      rw [add_sub_cancel_left, abs_of_pos (by norm_num)]; norm_num
    unfold integralX
    rw [if_pos ⟨hn, rfl⟩]
    intro e
    have := congrArg Complex.im e
    rw [Complex.ofReal_im] at this
    simp at this

/-- The hypotheses of the theorems hold with off-diagonal corrections, leads of different temperature, complex
amplitudes and three copies of `Wdd`, of which the threads 0 and 2 take part. -/
example : ∃ (d : DM) (S : List (List Nat)) (s : In) (poles : s.lib.Poles) (sched : Nat → List Nat),
    Reach .dm 2 "charge" d S ∧ d.si.indexing ≠ .ssq ∧ d.si.indexing ≠ .sz ∧ S.length = 3 ∧ s.v = d.view 2 ∧
    Comparable s poles ∧ s.L.T 0 ≠ s.L.T 1 ∧ (s.L.Tba 0 0 1).im ≠ 0 ∧ s.nmany = d.npauli ∧
    ((List.range 3).flatMap sched).Perm (List.range d.npauli) ∧ ∀ t, 3 ≤ t → sched t = [] := by
  obtain ⟨si, d, h1, h2, k4, k5, k2⟩ : ∃ si d, SI.init 2 "charge" = .ok si ∧ DM.init .dm 2 "charge" = .ok d ∧
      si.chargelst.length = 3 ∧ d.si.indexing = .charge ∧ d.npauli = 4 := by
    have key : (SI.init 2 "charge" >>= fun si => DM.init .dm 2 "charge" >>= fun d =>
        .ok (si.chargelst.length, decide (d.si.indexing = .charge), d.npauli)) = .ok (3, true, 4) := by decide +kernel
    rcases h1 : SI.init 2 "charge" with e | si
    · rw [h1] at key
      exact absurd (show (Except.error e : Py (Nat × Bool × Nat)) = .ok _ from key) (by simp)
    · rcases h2 : DM.init .dm 2 "charge" with e | d
      · rw [h1, h2] at key
        exact absurd (show (Except.error e : Py (Nat × Bool × Nat)) = .ok _ from key) (by simp)
      · rw [h1, h2] at key
        simp only [py_bind_ok, Except.ok.injEq, Prod.mk.injEq, decide_eq_true_iff] at key
        exact ⟨si, d, rfl, rfl, key⟩
  refine ⟨d, _, RTD.in0 (d.view 2), (), fun t => if t = 0 then [3, 1] else if t = 2 then [0, 2] else [],
    Reach.init h1 h2, by rw [k5]; decide, by rw [k5]; decide, k4, rfl, ?_, by simp [RTD.in0], by simp [RTD.in0],
    k2.symm, ?_, ?_⟩
  · have c2 : (RTD.in0 (d.view 2)).cut2 < 1 := by
      have : (RTD.in0 (d.view 2)).maxT = 2 := by
        have e : (d.view 2).nleads = 2 := rfl
        simp only [In.maxT, RTD.in0, e]
        norm_num [List.range_succ]
      rw [In.cut2, this]
      norm_num
    refine ⟨show 0 < 2 by decide, fun l _ => by simp only [RTD.in0]; positivity, ?_, ?_, Or.inl rfl⟩
    · intro l hl l' hl'
      have hl : l < 2 := hl
      have hl' : l' < 2 := hl'
      simp only [RTD.in0]
      interval_cases l <;> interval_cases l' <;> norm_num
    · have hA : ∀ l a b, ‖(RTD.in0 (d.view 2)).L.Tba l a b‖ = 0 ∨ ‖(RTD.in0 (d.view 2)).L.Tba l a b‖ = 1 := by
        intro l a b
        simp only [RTD.in0]
        split
        · simp
        · split <;> simp
      intro l _ l' _ a b a' b'
      rcases hA l a b with e | e <;> rcases hA l' a' b' with e' | e' <;> rw [e, e']
      · simp
      · simp
      · simp
      · right; simpa using c2
  · rw [k2]; decide
  · intro t ht
    simp only
    rw [if_neg (by omega), if_neg (by omega)]

end CRTD

end

end Verif
