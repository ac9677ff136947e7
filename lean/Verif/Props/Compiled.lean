import Verif.Lemmas.CompiledKern
import Verif.Spec.Compiled
import Verif.Props.MultipletKern
import Verif.Props.RemoveCoh
import Mathlib.Tactic.NormNum

/-! C96: the compiled first order approaches compute what the Python ones compute. -/

namespace Verif

noncomputable section

/-! ### Objects -/

theorem row_of_sdm {d : DM} {S : List (List Nat)} (nleads : Nat) (hsdm : d.statesdm = S ++ [[]])
    (c : Nat) : (d.view nleads).row c = rowOf S c := by
  simp only [View.row, DM.view, hsdm, rowOf]
  rcases Nat.lt_trichotomy c S.length with hc | hc | hc
  · rw [List.getElem?_append_left hc]
  · subst hc; simp
  · rw [List.getElem?_eq_none (by simp; omega), List.getElem?_eq_none (by omega)]

theorem prod2_len (l l' : List Nat) : (prod2 l l').length = l.length * l'.length := by
  induction l with
  | nil => simp [prod2]
  | cons a l ih =>
    unfold prod2 at *
    rw [List.flatMap_cons, List.length_append, ih, List.length_map, List.length_cons]
    ring

/-- There are `ndm1` pairs of neighbouring states. -/
theorem pairs1_len {m : Nat} {d : DM} {S : List (List Nat)} (nleads : Nat) (hz : Sizes m S d)
    (hnc : d.si.ncharge = m) (hsdm : d.statesdm = S ++ [[]]) :
    (pairs1 (d.view nleads)).length = d.ndm1 := by
  rw [hz.ndm1, hz.ndm1_, pre, pairs1, List.length_flatMap]
  have e : (d.view nleads).ncharge = m := hnc
  rw [e]
  congr 1
  apply List.map_congr_left
  intro q _
  rw [List.length_map, prod2_len, row_of_sdm nleads hsdm, row_of_sdm nleads hsdm, rowLen, rowLen,
    Nat.mul_comm]

/-- Objects after any history: with 'ssq' indexing the considered states have to be complete
multiplets. -/
theorem compiled_ready {n : Nat} {indexing : String} {d : DM} {S : List (List Nat)}
    (h : Reach .dm n indexing d S) (hc : d.si.indexing = .ssq → Complete n d.si S)
    (hS : ∀ c, n + 1 ≤ c → S[c]?.getD [] = []) (nleads : Nat) :
    ∃ la uni, CReady d nleads la uni := by
  obtain ⟨hi, hk, _⟩ := h.inv
  have hp := pairs1_len nleads hi.sizes hi.shape.ncharge hi.sdm
  have hlt : ∀ {c b}, b ∈ rowOf S c → c < n + 1 := by
    intro c b hb
    by_contra hc
    rw [rowOf, hS c (by omega)] at hb
    simp at hb
  by_cases hix : d.si.indexing = .ssq
  · have L := h.labS hix (hc hix)
    have M : VRep (d.view nleads) d.labOf d.uniOf := (view_ssq h hix (hc hix) hS).toVRep
    refine ⟨_, _, M, hk, hp, ?_⟩
    intro c b bp hb hbp hinc
    rw [row_of_sdm nleads hi.sdm] at hb hbp
    by_cases e : b = bp
    · subst e
      obtain ⟨k, _, a, _⟩ := L.diag c b (hlt hb) hb
      simp [DM.labOf, a, okD] at hinc
    · by_cases hin : d.si.spinZ b = d.si.spinZ bp ∧ d.si.spinS b = d.si.spinS bp
      · obtain ⟨k, x, _, _, a, _⟩ := L.off c b bp (hlt hb) hb hbp e hin.1 hin.2
        simp [DM.labOf, a, okD] at hinc
      · exact (L.excl c b bp (hlt hb) hb hbp e hin).2.1
  · have L := (hi.lab hix).dm hk
    refine ⟨_, _, (view_ok' h hix hS).rep, hk, hp, ?_⟩
    intro c b bp hb hbp hinc
    rw [row_of_sdm nleads hi.sdm] at hb hbp
    by_cases e : b = bp
    · subst e
      obtain ⟨a, _⟩ := L.diag c b (hlt hb) hb
      simp [DM.labOf, a, okD] at hinc
    · cases hin : inclOf d.si.indexing (szOf n d.si) b bp with
      | true =>
        obtain ⟨k, x, _, _, a, _⟩ := L.off c b bp (hlt hb) hb hbp e hin
        simp [DM.labOf, a, okD] at hinc
      | false => exact (L.excl c b bp (hlt hb) hb hbp e hin).2.1

/-! ### The theorems -/

/-- **C96** (Pauli). The constructor of the handler of the compiled approach stays within its
arrays. `generate_fct`, `generate_norm_vec` and `generate_current` give the numbers of the Python
methods, and the parallel loop of `generate_kern` computes the Python kernel, or without a matrix
the Python vector, whatever the order in which the iterations are executed. -/
theorem c96_pauli {n : Nat} {indexing : String} {d : DM} {S : List (List Nat)}
    (h : Reach .dm n indexing d S) (hc : d.si.indexing = .ssq → Complete n d.si S)
    (hS : ∀ c, n + 1 ≤ c → S[c]?.getD [] = []) (nleads : Nat) :
    ∃ kh, CKH.build d nleads true = .ok kh ∧
      (∀ E L, CPauli.genFct kh E L = Pauli.genFct (d.view nleads) E L) ∧
      (∀ x, kh.genNormVec x = (d.view nleads).genNormVec x) ∧
      (∀ E fct symq, ∃ m, Pauli.kernel (d.view nleads) symq fct = .ok m ∧
        kh.Computes E (CPauli.coup kh fct) m) ∧
      (∀ E fct φ, CPauli.genCurrent kh E fct φ = Pauli.genCurrent (d.view nleads) E fct φ) ∧
      ∀ E fct φ normRow, d.npauli ≤ φ.size → 0 ≤ normRow → ∃ norm y,
        kh.phi0Norm φ = .ok norm ∧ y.size = d.npauli ∧
        kh.ComputesFree E (CPauli.coup kh fct) φ y ∧
        (d.view nleads).genVec d.npauli normRow (Pauli.genKern (d.view nleads) fct) φ
          = y.cput normRow (norm - 1) := by
  obtain ⟨la, uni, r⟩ := compiled_ready h hc hS nleads
  have o := r.of true (elemsD (d.view nleads) uni) (pairs1 (d.view nleads))
  have hm := r.rep.toVMul
  exact ⟨_, r.buildD, fun E L => o.pauli_fct hm rfl r.pairs E L, fun x => o.genNormVec_eq hm x,
    fun E fct symq => r.pauli_kern E fct symq, fun E fct φ => o.pauli_cur hm rfl r.pairs E fct φ,
    fun E fct φ normRow h1 h2 => r.pauli_vec E fct h2 h1⟩

/-- **C96** (Lindblad). -/
theorem c96_lindblad {n : Nat} {indexing : String} {d : DM} {S : List (List Nat)}
    (h : Reach .dm n indexing d S) (hc : d.si.indexing = .ssq → Complete n d.si S)
    (hS : ∀ c, n + 1 ≤ c → S[c]?.getD [] = []) (nleads : Nat) :
    ∃ kh, CKH.build d nleads false = .ok kh ∧
      (∀ E L, CLindblad.genFct kh E L = Lindblad.genFct (d.view nleads) E L) ∧
      (∀ x, kh.genNormVec x = (d.view nleads).genNormVec x) ∧
      (∀ E t symq, ∃ m, Lindblad.kernel (d.view nleads) symq E t = .ok m ∧
        kh.Computes E (CLindblad.coup kh t) m) ∧
      (∀ E t φ, CLindblad.genCurrent kh E t φ = Lindblad.genCurrent (d.view nleads) E t φ) ∧
      ∀ E t φ normRow, d.ndm0r ≤ φ.size → 0 ≤ normRow → ∃ norm y,
        kh.phi0Norm φ = .ok norm ∧ y.size = d.ndm0r ∧
        kh.ComputesFree E (CLindblad.coup kh t) φ y ∧
        (d.view nleads).genVec d.ndm0r normRow
          ((d.view nleads).genKern E (Lindblad.coup (d.view nleads) t)) φ
          = y.cput normRow (norm - 1) := by
  obtain ⟨la, uni, r⟩ := compiled_ready h hc hS nleads
  have o := r.of false (elems (d.view nleads) la uni) (pairs1 (d.view nleads))
  have hm := r.rep.toVMul
  have hks : ∀ t c b bp, b ∈ (d.view nleads).row c → bp ∈ (d.view nleads).row c →
      la.inc c b bp = true → ∃ ks, Lindblad.coup (d.view nleads) t b bp (c : Nat) = .ok ks ∧
      ∀ k ∈ ks, KGood (d.view nleads) la k ∧ k.target = ((c : Int), b, bp) := by
    intro t c b bp hb hbp hi
    obtain ⟨ks, a1, a2, _⟩ := Lindblad.VMul.coup_ok hm t hb hbp hi
    exact ⟨ks, a1, a2⟩
  exact ⟨_, r.build, fun E L => o.lindblad_fct hm rfl r.pairs E L, fun x => o.genNormVec_eq hm x,
    fun E t symq => r.kern (fun b bp c hb _ => o.lindblad_coup hm t b bp (hm.row_lt hb)) (hks t) symq,
    fun E t φ => o.lindblad_cur hm E t φ,
    fun E t φ normRow h1 h2 => r.vec (fun b bp c hb _ => o.lindblad_coup hm t b bp (hm.row_lt hb)) (hks t) h2 h1⟩

/-- **C96** (1vN). -/
theorem c96_vn1 {n : Nat} {indexing : String} {d : DM} {S : List (List Nat)}
    (h : Reach .dm n indexing d S) (hc : d.si.indexing = .ssq → Complete n d.si S)
    (hS : ∀ c, n + 1 ≤ c → S[c]?.getD [] = []) (nleads : Nat) :
    ∃ kh, CKH.build d nleads false = .ok kh ∧
      (∀ lib E L, kh.genFct1vN lib E L = genFct1vN (d.view nleads) lib E L) ∧
      (∀ x, kh.genNormVec x = (d.view nleads).genNormVec x) ∧
      (∀ E T f symq, ∃ m, VN1.kernel (d.view nleads) symq E T f = .ok m ∧
        kh.Computes E (CVN1.coup kh T f) m) ∧
      (∀ T f φ, CVN1.genCurrent kh T f φ = VN1.genCurrent (d.view nleads) T f φ) ∧
      ∀ E T f φ normRow, d.ndm0r ≤ φ.size → 0 ≤ normRow → ∃ norm y,
        kh.phi0Norm φ = .ok norm ∧ y.size = d.ndm0r ∧
        kh.ComputesFree E (CVN1.coup kh T f) φ y ∧
        (d.view nleads).genVec d.ndm0r normRow
          ((d.view nleads).genKern E (VN1.coup (d.view nleads) T f)) φ
          = y.cput normRow (norm - 1) := by
  obtain ⟨la, uni, r⟩ := compiled_ready h hc hS nleads
  have o := r.of false (elems (d.view nleads) la uni) (pairs1 (d.view nleads))
  have hm := r.rep.toVMul
  have hks : ∀ T f c b bp, b ∈ (d.view nleads).row c → bp ∈ (d.view nleads).row c →
      la.inc c b bp = true → ∃ ks, VN1.coup (d.view nleads) T f b bp (c : Nat) = .ok ks ∧
      ∀ k ∈ ks, KGood (d.view nleads) la k ∧ k.target = ((c : Int), b, bp) := by
    intro T f c b bp hb hbp hi
    obtain ⟨ks, a1, a2, _⟩ := VN1.VMul.coup_ok hm T f hb hbp hi
    exact ⟨ks, a1, a2⟩
  exact ⟨_, r.build, fun lib E L => o.vn1_fct hm rfl r.pairs lib E L, fun x => o.genNormVec_eq hm x,
    fun E T f symq => r.kern (fun b bp c hb _ => o.vn1_coup hm T f b bp (hm.row_lt hb)) (hks T f) symq,
    fun T f φ => o.vn1_cur hm rfl r.pairs T f φ,
    fun E T f φ normRow h1 h2 => r.vec (fun b bp c hb _ => o.vn1_coup hm T f b bp (hm.row_lt hb)) (hks T f) h2 h1⟩

/-- **C96** (Redfield). -/
theorem c96_redfield {n : Nat} {indexing : String} {d : DM} {S : List (List Nat)}
    (h : Reach .dm n indexing d S) (hc : d.si.indexing = .ssq → Complete n d.si S)
    (hS : ∀ c, n + 1 ≤ c → S[c]?.getD [] = []) (nleads : Nat) :
    ∃ kh, CKH.build d nleads false = .ok kh ∧
      (∀ lib E L, kh.genFct1vN lib E L = genFct1vN (d.view nleads) lib E L) ∧
      (∀ x, kh.genNormVec x = (d.view nleads).genNormVec x) ∧
      (∀ E T f symq, ∃ m, Redfield.kernel (d.view nleads) symq E T f = .ok m ∧
        kh.Computes E (CRedfield.coup kh T f) m) ∧
      (∀ T f φ, CRedfield.genCurrent kh T f φ = Redfield.genCurrent (d.view nleads) T f φ) ∧
      ∀ E T f φ normRow, d.ndm0r ≤ φ.size → 0 ≤ normRow → ∃ norm y,
        kh.phi0Norm φ = .ok norm ∧ y.size = d.ndm0r ∧
        kh.ComputesFree E (CRedfield.coup kh T f) φ y ∧
        (d.view nleads).genVec d.ndm0r normRow
          ((d.view nleads).genKern E (Redfield.coup (d.view nleads) T f)) φ
          = y.cput normRow (norm - 1) := by
  obtain ⟨la, uni, r⟩ := compiled_ready h hc hS nleads
  have o := r.of false (elems (d.view nleads) la uni) (pairs1 (d.view nleads))
  have hm := r.rep.toVMul
  have hks : ∀ T f c b bp, b ∈ (d.view nleads).row c → bp ∈ (d.view nleads).row c →
      la.inc c b bp = true → ∃ ks, Redfield.coup (d.view nleads) T f b bp (c : Nat) = .ok ks ∧
      ∀ k ∈ ks, KGood (d.view nleads) la k ∧ k.target = ((c : Int), b, bp) := by
    intro T f c b bp hb hbp hi
    obtain ⟨ks, a1, a2, _⟩ := Redfield.VMul.coup_ok hm T f hb hbp hi
    exact ⟨ks, a1, a2⟩
  exact ⟨_, r.build, fun lib E L => o.vn1_fct hm rfl r.pairs lib E L, fun x => o.genNormVec_eq hm x,
    fun E T f symq => r.kern (fun b bp c hb _ => o.redfield_coup hm T f b bp (hm.row_lt hb)) (hks T f) symq,
    fun T f φ => o.redfield_cur hm rfl r.pairs T f φ,
    fun E T f φ normRow h1 h2 =>
      r.vec (fun b bp c hb _ => o.redfield_coup hm T f b bp (hm.row_lt hb)) (hks T f) h2 h1⟩

/-- An object that meets the hypotheses: two single particle states, 'charge' indexing, one
coherence. -/
theorem compiled_example : ∃ d S, Reach .dm 2 "charge" d S ∧
    (d.si.indexing = .ssq → Complete 2 d.si S) ∧ (∀ c, 2 + 1 ≤ c → S[c]?.getD [] = []) ∧
    d.npauli = 4 ∧ d.ndm0r = 6 ∧ DM.init .dm 2 "charge" = .ok d := by
  have key : (SI.init 2 "charge" >>= fun si => DM.init .dm 2 "charge" >>= fun d =>
      .ok (d.npauli, d.ndm0r, si.chargelst.length, decide (d.si.indexing = .ssq))) =
      .ok (4, 6, 3, false) := by decide +kernel
  obtain ⟨si, h1, h⟩ := bind_iff.1 key
  obtain ⟨d, h2, h⟩ := bind_iff.1 h
  simp only [Except.ok.injEq, Prod.mk.injEq, decide_eq_false_iff_not] at h
  obtain ⟨k1, k2, k3, k4⟩ := h
  refine ⟨d, _, Reach.init h1 h2, fun e => absurd e k4, ?_, k1, k2, h2⟩
  intro c hc
  rw [List.getElem?_eq_none (by omega)]; rfl

example : ∃ d, ∃ kh, CKH.build d 2 false = .ok kh ∧ d.ndm0r = 6 ∧
    ∀ E T f, ∃ m, VN1.kernel (d.view 2) true E T f = .ok m ∧ kh.Computes E (CVN1.coup kh T f) m := by
  obtain ⟨d, S, h, hc, hS, _, k, _⟩ := compiled_example
  obtain ⟨kh, b, _, _, a, _⟩ := c96_vn1 h hc hS 2
  exact ⟨d, kh, b, k, fun E T f => a E T f true⟩

/-! ### Where they differ -/

/-- Is it an index error? -/
def isIndexError {α : Type} : Py α → Bool
  | .error .index => true
  | _ => false

/-- `remove_coherences` sets labels of removed coherences to -1 but leaves `booldm0`. The
constructor of the compiled handler counts `ndm0` elements without the removed ones, but fills the
table `all_bbp` with all elements for which `booldm0` is true, and writes beyond its end. (The
Python class skips the elements with the label -1; the object still labels a density matrix.)
Three single particle states, state 2 far away in energy. -/
theorem c96_removed_coherences_false : ∃ d d', DM.init .dm 3 "charge" = .ok d ∧
    d.removeCoherences farE 1 = .ok d' ∧ VOk (d'.view 2) d'.labOf ∧
    CKH.build d' 2 false = .error .index := by
  have key : (SI.init 3 "charge" >>= fun si => DM.init .dm 3 "charge" >>= fun d =>
      d.removeCohBy (fun b bp => decide (b = 2 ↔ bp = 2)) >>= fun d' =>
      .ok (isIndexError (CKH.build d' 2 false), si.chargelst, decide (d.si.indexing = .ssq))) =
      .ok (true, [[0], [1, 2, 3], [4, 5, 6], [7]], false) := by decide +kernel
  obtain ⟨si, h1, h⟩ := bind_iff.1 key
  obtain ⟨d, h2, h⟩ := bind_iff.1 h
  obtain ⟨d', h3, h⟩ := bind_iff.1 h
  simp only [Except.ok.injEq, Prod.mk.injEq, decide_eq_false_iff_not] at h
  obtain ⟨k1, k2, k3⟩ := h
  have e : d.removeCoherences farE 1 = .ok d' := by
    unfold DM.removeCoherences; rw [farE_keep]; exact h3
  have R := Reach.init h1 h2
  rw [k2] at R
  obtain ⟨d'', e', V⟩ := c35_view_ok (nleads := 2) R k3
    (fun c hc => by rw [List.getElem?_eq_none (by simp; omega)]; rfl) farE (dE := 1) (by norm_num)
    ⟨0, 0, by omega, by simp⟩
  rw [e] at e'
  simp only [Except.ok.injEq] at e'
  subst e'
  refine ⟨d, d', h2, e, V, ?_⟩
  cases hb : CKH.build d' 2 false with
  | ok x => rw [hb] at k1; simp [isIndexError] at k1
  | error x => rw [hb] at k1; cases x <;> simp [isIndexError] at k1 ⊢

/-- With a negative `norm_row` numpy counts from the end; the compiled `generate_vec` writes
outside of the array. -/
theorem c96_negative_row_false : ∃ d kh, DM.init .dm 2 "charge" = .ok d ∧
    CKH.build d 2 true = .ok kh ∧ ∀ fct φ, φ.size = 4 →
      (∃ x, (d.view 2).genVec 4 (-1) (Pauli.genKern (d.view 2) fct) φ = .ok x) ∧
      ∀ y w, Vec.cput y (-1) w = .error .index := by
  obtain ⟨d, S, h, hc, hS, k, _, hd⟩ := compiled_example
  obtain ⟨kh, hb, _, _, _, _, hv⟩ := c96_pauli h hc hS 2
  refine ⟨d, kh, hd, hb, fun fct φ hφ => ⟨?_, fun y w => rfl⟩⟩
  obtain ⟨norm, y, _, hy, _, e⟩ := hv (fun _ => 0) fct φ 0 (by omega) (by omega)
  rw [k] at hy e
  have e2 : y.cput 0 (norm - 1) = .ok ⟨y.size, fun j => if j = 0 then norm - 1 else y.val j⟩ := by
    unfold Vec.cput
    rw [show cIdx y.size 0 = .ok 0 from cIdx_nat (k := 0) (by omega)]
    rfl
  rw [e2] at e
  unfold View.genVec at e ⊢
  obtain ⟨no, g1, e⟩ := bind_iff.1 e
  obtain ⟨cs, g2, e⟩ := bind_iff.1 e
  obtain ⟨x, g3, e⟩ := bind_iff.1 e
  rw [g1, g2]
  simp only [py_bind_ok]
  rw [g3]
  simp only [py_bind_ok]
  unfold Vec.put at e ⊢
  obtain ⟨i, g4, e⟩ := bind_iff.1 e
  simp only [py_pure, Except.ok.injEq, Vec.mk.injEq] at e
  rw [e.1, hy]
  exact ⟨_, rfl⟩

/-- The loop is only correct because different iterations update different rows: two iterations
which update the same cell may lose one of the updates. -/
theorem c96_lost_update : ∃ x, PEnd (fun i => if i < 2 then [((0 : Nat), (1 : ℝ))] else []) x ∧
    x 0 = 1 := by
  obtain ⟨prog, hp⟩ : ∃ prog : Nat → List (Nat × ℝ), prog = fun i => if i < 2 then [(0, 1)] else [] :=
    ⟨_, rfl⟩
  rw [← hp]
  have p0 : prog 0 = [(0, 1)] := by rw [hp]; rfl
  have p1 : prog 1 = [(0, 1)] := by rw [hp]; rfl
  have p2 : ∀ i, 2 ≤ i → prog i = [] := by
    intro i hi
    rw [hp]
    simp only
    rw [if_neg (by omega)]
  have r : Relation.ReflTransGen PStep (PState.start prog) _ :=
    Relation.ReflTransGen.tail (Relation.ReflTransGen.tail (Relation.ReflTransGen.tail
      (Relation.ReflTransGen.tail Relation.ReflTransGen.refl
      (PStep.load _ 0 0 1 [] p0 rfl)) (PStep.load _ 1 0 1 [] p1 rfl))
      (PStep.store _ 0 0 1 [] 0 p0 rfl)) (PStep.store _ 1 0 1 [] 0 p1 rfl)
  refine ⟨_, ⟨_, r, ?_, rfl⟩, ?_⟩
  · intro i
    rcases i with _ | _ | i
    · rfl
    · rfl
    · exact p2 _ (by omega)
  · simp

end

end Verif
