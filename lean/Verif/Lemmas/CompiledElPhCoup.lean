import Verif.Lemmas.CompiledElPh

/-! The coupling terms of the compiled electron-phonon approaches are those of the Python ones,
except for Lindblad. -/

namespace Verif

open Finset
open Complex (I)
open scoped ComplexConjugate

noncomputable section

variable {d de : DM} {nl nl' : Nat} {la : Lab} {el : Nat → Nat → Nat → Option Nat} {kh : CKH}

/-! ### Loops -/

namespace CKH.Of

variable (o : kh.Of d nl) (h : VMul (d.view nl) la)
include o h

theorem pairs_eq {b bp c : Nat} (hc : c ≤ (d.view nl).ncharge) {f g : Nat → Nat → Py (Option ℂ)}
    (e : ∀ a ap, a ∈ (d.view nl).row c → ap ∈ (d.view nl).row c → f a ap = g a ap) :
    kh.pairs b bp (c : Int) f = (d.view nl).pairs b bp (c : Int) g := by
  unfold CKH.pairs View.pairs
  rw [o.same_ok h hc, h.states hc]
  simp only [py_bind_ok]
  rw [collect_prod2]
  apply collect_congr
  intro a ha
  apply collect_congr
  intro ap hap
  unfold CKH.elemSkip View.elemSkip
  rw [o.isIncluded_eq, e a ap ha hap]
  rfl

theorem sides_eq {b bp c : Nat} (hc : c ≤ (d.view nl).ncharge) {fL gL fR gR : Nat → Py ℂ}
    (eL : ∀ x, x ∈ (d.view nl).row c → fL x = gL x) (eR : ∀ x, x ∈ (d.view nl).row c → fR x = gR x) :
    kh.sides b bp (c : Int) fL fR = (d.view nl).sides b bp (c : Int) gL gR := by
  unfold CKH.sides View.sides
  rw [o.same_ok h hc, h.states hc]
  simp only [py_bind_ok]
  apply collect_congr
  intro x hx
  rw [o.elemIf_eq h (eL x hx), o.elemIf_eq h (eR x hx)]

theorem ph_blocks_eq {b bp c : Nat} (hc : c ≤ (d.view nl).ncharge)
    {fA gA fC gC : Nat → Nat → Py (Option ℂ)} {fL gL fR gR : Nat → Py ℂ}
    (eA : ∀ a ap, a ∈ (d.view nl).row c → ap ∈ (d.view nl).row c → fA a ap = gA a ap)
    (eL : ∀ x, x ∈ (d.view nl).row c → fL x = gL x) (eR : ∀ x, x ∈ (d.view nl).row c → fR x = gR x)
    (eC : ∀ a ap, a ∈ (d.view nl).row c → ap ∈ (d.view nl).row c → fC a ap = gC a ap) :
    CCohPh.blocks kh b bp (c : Int) fA fL fR fC
      = CohPh.blocks (d.view nl) b bp (c : Int) gA gL gR gC := by
  unfold CCohPh.blocks CohPh.blocks
  rw [o.pairs_eq h hc eA, o.sides_eq h hc eL eR, o.pairs_eq h hc eC]

end CKH.Of

namespace CElReady

variable (r : CElReady (d.view nl) de nl' la el)
include r

/-- The look-up of a label. -/
theorem ind0_eq {c b a : Nat} (hb : b ∈ (d.view nl).row c) (ha : a ∈ (d.view nl).row c) :
    ∃ i : Int, (i = -1 ∨ 0 ≤ i) ∧ (CKH.madeEl (d.view nl) de nl' el).ind0 b a (c : Int) = .ok i ∧
      (de.view nl').ind0 b a (c : Int) = .ok i := by
  have e := r.ph.ind0 c b a hb ha
  refine ⟨_, ?_, (r.of.ind0_eq b a c).trans e, e⟩
  cases el c b a with
  | none => exact Or.inl rfl
  | some k => exact Or.inr (by simp)

theorem pairA_eq (nb : Nat) (V : TMat) (w : Nat → Nat → ℂ × ℂ) (b bp a ap : Nat) {i j : Int}
    (hi : i = -1 ∨ 0 ≤ i) (hj : j = -1 ∨ 0 ≤ j) :
    CCohPh.pairA (CKH.madeEl (d.view nl) de nl' el) nb V w b bp a ap i j
      = CohPh.pairA (de.view nl') nb V w b bp a ap i j := by
  unfold CCohPh.pairA CohPh.pairA
  by_cases e : i = -1 ∨ j = -1
  · rw [if_pos e, if_pos e]
  · rw [if_neg e, if_neg e]
    simp only [r.rd0_eq w _ (show 0 ≤ i by omega), r.rd0_eq w _ (show 0 ≤ j by omega)]
    rfl

theorem pairC_eq (nb : Nat) (V : TMat) (w : Nat → Nat → ℂ × ℂ) (b bp a ap : Nat) {i j : Int}
    (hi : i = -1 ∨ 0 ≤ i) (hj : j = -1 ∨ 0 ≤ j) :
    CCohPh.pairC (CKH.madeEl (d.view nl) de nl' el) nb V w b bp a ap i j
      = CohPh.pairC (de.view nl') nb V w b bp a ap i j := by
  unfold CCohPh.pairC CohPh.pairC
  by_cases e : i = -1 ∨ j = -1
  · rw [if_pos e, if_pos e]
  · rw [if_neg e, if_neg e]
    simp only [r.rd0_eq w _ (show 0 ≤ i by omega), r.rd0_eq w _ (show 0 ≤ j by omega)]
    rfl

theorem skip_eq (nb : Nat) (w : Nat → Nat → ℂ × ℂ) {c b a : Nat} (hb : b ∈ (d.view nl).row c)
    (ha : a ∈ (d.view nl).row c) (g : Nat → ℂ × ℂ → ℂ) :
    ((CKH.madeEl (d.view nl) de nl' el).ind0 b a (c : Int) >>= fun i =>
      CCohPh.skipSum (CKH.madeEl (d.view nl) de nl' el) nb w i g)
      = ((de.view nl').ind0 b a (c : Int) >>= fun i => CohPh.skipSum (de.view nl') nb w i g) := by
  obtain ⟨i, hi, e1, e2⟩ := r.ind0_eq hb ha
  rw [e1, e2]
  simp only [py_bind_ok]
  unfold CCohPh.skipSum CohPh.skipSum
  by_cases e : i = -1
  · rw [if_pos e, if_pos e]
  · rw [if_neg e, if_neg e]
    simp only [r.rd0_eq w _ (show 0 ≤ i by omega)]

variable (o : kh.Of d nl) (h : VMul (d.view nl) la)
include o h

theorem fctL_eq (nb : Nat) (V : TMat) (w : Nat → Nat → ℂ × ℂ) (b : Nat) {c s : Nat}
    (hs : s ∈ (d.view nl).row c) (x : Nat) :
    CCohPh.fctL kh (CKH.madeEl (d.view nl) de nl' el) nb V w b (c : Int) x s
      = CohPh.fctL (d.view nl) (de.view nl') nb V w b (c : Int) x s := by
  have hc := h.row_lt hs
  unfold CCohPh.fctL CohPh.fctL
  rw [o.same_ok h (by omega), h.states (by omega)]
  simp only [py_bind_ok]
  rw [sumM_congr fun a ha => r.skip_eq nb w hs ha (fun l y => CCohPh.gam V l b a x a * conj y.2),
    sumM_congr fun a ha => r.skip_eq nb w ha hs (fun l y => CCohPh.gam V l b a x a * y.1)]
  rfl

theorem fctR_eq (nb : Nat) (V : TMat) (w : Nat → Nat → ℂ × ℂ) (bp : Nat) {c s : Nat}
    (hs : s ∈ (d.view nl).row c) (x : Nat) :
    CCohPh.fctR kh (CKH.madeEl (d.view nl) de nl' el) nb V w bp (c : Int) x s
      = CohPh.fctR (d.view nl) (de.view nl') nb V w bp (c : Int) x s := by
  have hc := h.row_lt hs
  unfold CCohPh.fctR CohPh.fctR
  rw [o.same_ok h (by omega), h.states (by omega)]
  simp only [py_bind_ok]
  rw [sumM_congr fun a ha => r.skip_eq nb w hs ha (fun l y => -CCohPh.gam' V l a x bp * y.2),
    sumM_congr fun a ha => r.skip_eq nb w ha hs (fun l y => -CCohPh.gam' V l a x bp * conj y.1)]
  rfl

/-- 1vN. -/
theorem vn1_coup (nb : Nat) (T : TMat) (f : Nat → Nat → Amp) (V : TMat) (w : Nat → Nat → ℂ × ℂ)
    {b bp c : Nat} (hb : b ∈ (d.view nl).row c) (hbp : bp ∈ (d.view nl).row c) :
    CVN1Ph.coup kh (CKH.madeEl (d.view nl) de nl' el) nb T f V w b bp (c : Nat)
      = VN1Ph.coup (d.view nl) (de.view nl') nb T f V w b bp (c : Nat) := by
  have hc := h.row_lt hb
  unfold CVN1Ph.coup VN1Ph.coup CVN1Ph.extra VN1Ph.extra
  rw [o.vn1_coup h T f b bp hc, o.ph_blocks_eq h (by omega)]
  · intro a ap ha hap
    obtain ⟨i, hi, e1, e2⟩ := r.ind0_eq hbp ha
    obtain ⟨j, hj, e3, e4⟩ := r.ind0_eq hb hap
    rw [e1, e2, e3, e4]
    exact r.pairA_eq nb V w b bp a ap hi hj
  · intro x hx
    exact r.fctL_eq o h nb V w b hbp x
  · intro x hx
    exact r.fctR_eq o h nb V w bp hb x
  · intro a ap ha hap
    obtain ⟨i, hi, e1, e2⟩ := r.ind0_eq ha hbp
    obtain ⟨j, hj, e3, e4⟩ := r.ind0_eq hap hb
    rw [e1, e2, e3, e4]
    exact r.pairC_eq nb V w b bp a ap hi hj

/-- Redfield. -/
theorem redfield_coup (nb : Nat) (T : TMat) (f : Nat → Nat → Amp) (V : TMat)
    (w : Nat → Nat → ℂ × ℂ) {b bp c : Nat} (hb : b ∈ (d.view nl).row c)
    (hbp : bp ∈ (d.view nl).row c) :
    CRedfieldPh.coup kh (CKH.madeEl (d.view nl) de nl' el) nb T f V w b bp (c : Nat)
      = RedfieldPh.coup (d.view nl) (de.view nl') nb T f V w b bp (c : Nat) := by
  have hc := h.row_lt hb
  unfold CRedfieldPh.coup RedfieldPh.coup CRedfieldPh.extra RedfieldPh.extra
  rw [o.redfield_coup h T f b bp hc, o.ph_blocks_eq h (by omega)]
  · intro a ap ha hap
    obtain ⟨i, hi, e1, e2⟩ := r.ind0_eq hbp hap
    obtain ⟨j, hj, e3, e4⟩ := r.ind0_eq hb ha
    rw [e1, e2, e3, e4]
    exact r.pairA_eq nb V w b bp a ap hi hj
  · intro x hx
    exact r.fctL_eq o h nb V w b hx x
  · intro x hx
    exact r.fctR_eq o h nb V w bp hx x
  · intro a ap ha hap
    obtain ⟨i, hi, e1, e2⟩ := r.ind0_eq hap hbp
    obtain ⟨j, hj, e3, e4⟩ := r.ind0_eq ha hb
    rw [e1, e2, e3, e4]
    exact r.pairC_eq nb V w b bp a ap hi hj

omit h in
/-- Pauli. -/
theorem pauli_extra (h : VOk (d.view nl) la) (nb : Nat) (fp : Nat → Nat → ℝ) {b c : Nat}
    (hb : b ∈ (d.view nl).row c) :
    CPauliPh.extra kh (CKH.madeEl (d.view nl) de nl' el) nb fp b (c : Nat)
      = .ok (PauliPh.group (d.view nl) la el nb fp c b) := by
  have hc := h.row_lt hb
  rw [← PauliPh.extra_ok h r.ph nb fp hb]
  unfold CPauliPh.extra PauliPh.extra
  rw [o.ind0_eq, o.same_ok h.toVMul (by omega), h.states (by omega)]
  congr 1
  funext bb
  simp only [py_bind_ok]
  apply collect_congr
  intro a ha
  unfold CPauliPh.coupStep PauliPh.coupStep
  have hs := r.ph.symm c a b ha hb
  rw [o.ind0_eq, ind0_diag h ha, r.of.ind0_eq, r.of.ind0_eq, r.ph.ind0 c a b ha hb, r.ph.ind0 c b a hb ha]
  simp only [py_bind_ok]
  rw [if_neg (by omega)]
  cases hk : el c b a with
  | none =>
    rw [hk] at hs
    cases hk' : el c a b with
    | none => simp
    | some k => rw [hk'] at hs; simp at hs
  | some k =>
    rw [hk] at hs
    cases hk' : el c a b with
    | none => rw [hk'] at hs; simp at hs
    | some k' =>
      simp only
      rw [if_neg (by omega), if_neg (by omega)]
      simp only [r.rd0_eq fp _ (show (0 : Int) ≤ (k : Int) by omega),
        r.rd0_eq fp _ (show (0 : Int) ≤ (k' : Int) by omega)]

end CElReady

/-! ### Kernels -/

namespace CReady

variable (q : CReady d nl la la.can) (r : CElReady (d.view nl) de nl' la el)
  (h : VOk (d.view nl) la)
include q r h

theorem pauliPh_calls (nb : Nat) (fe : Nat → Nat → ℝ × ℝ) (fp : Nat → Nat → ℝ) {c b : Nat}
    (hb : b ∈ (d.view nl).row c) :
    ∀ k ∈ Pauli.group (d.view nl) la fe c b ++ PauliPh.group (d.view nl) la el nb fp c b,
      ∃ (fm fp : ℝ) (y : Nat), y < d.npauli ∧
      la.lab c b b < d.npauli ∧ k = .pauli fm fp (la.lab c b b : Nat) (y : Nat) := by
  intro k hk
  rcases List.mem_append.1 hk with hk | hk
  · exact q.pauli_calls fe hb k hk
  · simp only [PauliPh.group, List.mem_flatMap] at hk
    obtain ⟨a, ha, hk⟩ := hk
    split at hk
    · simp only [List.mem_singleton] at hk
      exact ⟨_, _, _, h.lab_diag c a ha, h.lab_diag c b hb, hk⟩
    · simp at hk

theorem pauliPh_coup (nb : Nat) (fe : Nat → Nat → ℝ × ℝ) (fp : Nat → Nat → ℝ) {c b : Nat}
    (hb : b ∈ (d.view nl).row c) :
    CPauliPh.coup (CKH.made d nl true (elemsD (d.view nl) la.can) (pairs1 (d.view nl)))
      (CKH.madeEl (d.view nl) de nl' el) nb fe fp b b (c : Nat)
      = .ok (Pauli.group (d.view nl) la fe c b ++ PauliPh.group (d.view nl) la el nb fp c b) := by
  unfold CPauliPh.coup
  rw [q.pauli_coup_ok fe hb, r.pauli_extra (q.of true _ _) h nb fp hb]
  rfl

theorem pauliPh_gen (nb : Nat) (fe : Nat → Nat → ℝ × ℝ) (fp : Nat → Nat → ℝ) :
    PauliPh.genKern (d.view nl) (de.view nl') nb fe fp
      = .ok ((List.range (d.view nl).ncharge).flatMap fun c => ((d.view nl).row c).flatMap fun b =>
        if la.can c b b then
          Pauli.group (d.view nl) la fe c b ++ PauliPh.group (d.view nl) la el nb fp c b else []) := by
  rw [PauliPh.genKern_ok h r.ph nb fe fp]
  congr 1
  apply List.flatMap_congr
  intro c _
  apply List.flatMap_congr
  intro b hb
  rw [h.can_diag c b hb]; rfl

end CReady

/-! ### Lindblad -/

namespace CLindbladPh

/-- The coupling terms in terms of the indexing object. -/
def pcoup (v : View) (nb : Nat) (te : TMat) (t : Nat → Nat → Nat → ℂ × ℂ) (b bp : Nat)
    (bcharge : Int) : Py (List KCall) := do
  let r ← Lindblad.coup v te b bp bcharge
  let r1 ← v.pairs b bp bcharge fun a ap => jump nb t b bp a ap
  let r2 ← v.sides b bp bcharge (fun bpp => LindbladPh.decay v nb t bcharge b bpp)
    (fun bpp => LindbladPh.decay v nb t bcharge bpp bp)
  pure (r ++ (r1 ++ r2))

theorem coup_eq (o : kh.Of d nl) (h : VMul (d.view nl) la) (nb : Nat) (te : TMat)
    (t : Nat → Nat → Nat → ℂ × ℂ) (b bp : Nat) {c : Nat} (hc : c < (d.view nl).ncharge) :
    coup kh nb te t b bp (c : Nat) = pcoup (d.view nl) nb te t b bp (c : Nat) := by
  have hd : ∀ x y, decay kh nb t (c : Int) x y = LindbladPh.decay (d.view nl) nb t (c : Int) x y := by
    intro x y
    unfold decay LindbladPh.decay
    rw [o.same_eq h (by omega)]
  unfold coup pcoup extra
  rw [o.lindblad_coup h te b bp hc, o.pairs_eq h (by omega) (fun a ap _ _ => rfl),
    o.sides_eq h (by omega) (fun x _ => hd b x) (fun x _ => hd x bp)]
  simp only [bind_assoc, pure_bind]

/-- `jump` as a sum. -/
def J (nb : Nat) (t : Nat → Nat → Nat → ℂ × ℂ) (b bp a : Nat) : ℂ :=
  I * ∑ l ∈ range nb, ((t l b a).1 * conj (t l bp a).1 + (t l b a).2 * conj (t l bp a).2)

/-- The phonon part of the right-hand side of the equation of motion (times `i`). -/
def S (v : View) (nb : Nat) (t : Nat → Nat → Nat → ℂ × ℂ) (ρ : Nat → Nat → Nat → ℂ)
    (c b bp : Nat) : ℂ :=
  (∑ a ∈ v.R c, ∑ ap ∈ v.R c, J nb t b bp a * ρ c a ap) +
  ∑ y ∈ v.R c, (LindbladPh.K v nb t c b y * ρ c y bp + LindbladPh.K v nb t c y bp * ρ c b y)

/-- Without coherences the mistake does not matter. -/
theorem S_pop (v : View) (nb : Nat) (t : Nat → Nat → Nat → ℂ × ℂ) {ρ : Nat → Nat → Nat → ℂ}
    {c : Nat} (hρ : ∀ a ap, a ∈ v.R c → ap ∈ v.R c → a ≠ ap → ρ c a ap = 0) (b bp : Nat) :
    S v nb t ρ c b bp = LindbladPh.S v nb t ρ c b bp := by
  unfold S LindbladPh.S
  congr 1
  refine sum_congr rfl fun a ha => sum_congr rfl fun ap hap => ?_
  by_cases e : a = ap
  · subst e; rfl
  · rw [hρ a ap ha hap e, mul_zero, mul_zero]

theorem pcoup_ok {v : View} (h : VOk v la) (nb : Nat) (te : TMat) (t : Nat → Nat → Nat → ℂ × ℂ)
    {c b bp : Nat} (hb : b ∈ v.row c) (hbp : bp ∈ v.row c) (hi : la.inc c b bp = true) :
    ∃ ks, pcoup v nb te t b bp (c : Nat) = .ok ks ∧
      (∀ k ∈ ks, KGood v la k ∧ k.target = ((c : Int), b, bp)) ∧
      ∀ φ, (ks.map fun k => k.term v la φ).sum
        = Lindblad.S v te (dens v la φ) c b bp + S v nb t (dens v la φ) c b bp := by
  have hcl := h.row_lt hb
  obtain ⟨k1, g1, p1, s1⟩ := Lindblad.coup_ok h te hb hbp hi
  have hd : ∀ x y, LindbladPh.decay v nb t c x y = .ok (LindbladPh.K v nb t c x y) := by
    intro x y
    unfold LindbladPh.decay
    rw [h.states (by omega)]
    simp only [py_bind_ok]
    simp only [sumM_range']
    rw [sumM_toFinset (h.nodup c) (fun a _ => rfl)]
    rfl
  obtain ⟨k2, g2, p2, s2⟩ := pairs_ok h hb hbp hi (f := fun a ap => jump nb t b bp a ap)
    (g := fun a _ => J nb t b bp a) (fun a ap _ _ _ => ⟨some (J nb t b bp a), by
      unfold jump
      rw [sumM_range']
      rfl, rfl⟩)
  obtain ⟨k3, g3, p3, s3⟩ := sides_ok h hb hbp hi (fL := fun y => LindbladPh.decay v nb t c b y)
    (fR := fun y => LindbladPh.decay v nb t c y bp) (fun y _ => hd b y) (fun y _ => hd y bp)
  refine ⟨k1 ++ (k2 ++ k3), ?_, ?_, ?_⟩
  · unfold pcoup
    rw [g1, g2, g3]
    rfl
  · intro k hk
    simp only [List.mem_append] at hk
    rcases hk with hk | hk | hk
    · exact p1 k hk
    · exact p2 k hk
    · exact p3 k hk
  · intro φ
    rw [List.map_append, List.sum_append, List.map_append, List.sum_append, s1, s2, s3]
    rfl

/-! The jump matrices. -/

theorem writes_eq (E : Nat → ℝ) (B : PhBaths) (b bp nb : Nat) (t : Nat → Nat → Nat → ℂ × ℂ) :
    (List.range nb).foldl (fun t l =>
        if b = bp then
          let x : ℂ := Real.sqrt (0.5 * B.rate 0 l) * B.V l b b
          wr t l b b (x, conj x)
        else
          wr t l b bp (Real.sqrt (0.5 * B.rate (E b - E bp) l) * B.V l b bp,
            Real.sqrt (0.5 * B.rate (E b - E bp) l) * conj (B.V l bp b))) t
      = fun l x y => if l < nb ∧ x = b ∧ y = bp then LindbladPh.jumpAmp E B l x y else t l x y := by
  induction nb with
  | zero => funext l x y; simp
  | succ nb ih =>
    rw [List.range_succ, List.foldl_append, ih]
    funext l x y
    simp only [List.foldl_cons, List.foldl_nil]
    have e : ∀ s, (if b = bp then
          wr s nb b b (Real.sqrt (0.5 * B.rate 0 nb) * B.V nb b b,
            conj (Real.sqrt (0.5 * B.rate 0 nb) * B.V nb b b))
        else
          wr s nb b bp (Real.sqrt (0.5 * B.rate (E b - E bp) nb) * B.V nb b bp,
            Real.sqrt (0.5 * B.rate (E b - E bp) nb) * conj (B.V nb bp b)))
        = wr s nb b bp (LindbladPh.jumpAmp E B nb b bp) := by
      intro s
      unfold LindbladPh.jumpAmp
      split
      · rename_i e; subst e; rfl
      · rfl
    rw [e]
    unfold wr
    by_cases h1 : l = nb ∧ x = b ∧ y = bp
    · obtain ⟨rfl, rfl, rfl⟩ := h1
      simp
    · rw [if_neg h1]
      simp only
      by_cases h2 : l < nb ∧ x = b ∧ y = bp
      · rw [if_pos h2, if_pos ⟨by omega, h2.2⟩]
      · rw [if_neg h2, if_neg (by omega)]

theorem genFct_ok {v : View} (h : VOk v la) (r : CElReady v de nl' la el) (nb : Nat) (E : Nat → ℝ)
    (B : PhBaths) : ∃ t, genFct (CKH.madeEl v de nl' el) nb E B = .ok t ∧
      ∀ l c b a, l < nb → b ∈ v.row c → a ∈ v.row c →
        t l b a = if (el c b a).isSome then LindbladPh.jumpAmp E B l b a else 0 := by
  classical
  have key : ∀ (L : List Trip) (t : Nat → Nat → Nat → ℂ × ℂ), L.foldlM (fun t (p : Trip) =>
      (pure ((List.range nb).foldl (fun t l =>
        if p.1 = p.2.1 then
          let x : ℂ := Real.sqrt (0.5 * B.rate 0 l) * B.V l p.1 p.1
          wr t l p.1 p.1 (x, conj x)
        else
          wr t l p.1 p.2.1 (Real.sqrt (0.5 * B.rate (E p.1 - E p.2.1) l) * B.V l p.1 p.2.1,
            Real.sqrt (0.5 * B.rate (E p.1 - E p.2.1) l) * conj (B.V l p.2.1 p.1))) t) :
        Py (Nat → Nat → Nat → ℂ × ℂ))) t
      = .ok fun l x y => if l < nb ∧ ∃ c, (x, y, c) ∈ L then LindbladPh.jumpAmp E B l x y
        else t l x y := by
    intro L
    induction L with
    | nil => intro t; simp
    | cons p L ih =>
      intro t
      rw [List.foldlM_cons, writes_eq, py_pure, py_bind_ok, ih]
      congr 1
      funext l x y
      obtain ⟨b, a, c⟩ := p
      simp only [List.mem_cons, Prod.mk.injEq]
      by_cases h1 : l < nb ∧ ∃ c, (x, y, c) ∈ L
      · obtain ⟨hl, c', hc'⟩ := h1
        rw [if_pos ⟨hl, c', hc'⟩, if_pos ⟨hl, c', Or.inr hc'⟩]
      · rw [if_neg h1]
        by_cases h2 : l < nb ∧ x = b ∧ y = a
        · rw [if_pos h2, if_pos ⟨h2.1, c, Or.inl ⟨h2.2.1, h2.2.2, rfl⟩⟩]
        · rw [if_neg h2, if_neg]
          rintro ⟨hl, c', hc' | hc'⟩
          · exact h2 ⟨hl, hc'.1, hc'.2.1⟩
          · exact h1 ⟨hl, c', hc'⟩
  refine ⟨fun l x y => if l < nb ∧ ∃ c, (x, y, c) ∈ elElems v el then LindbladPh.jumpAmp E B l x y
    else (0, 0), ?_, ?_⟩
  · unfold genFct
    rw [r.table h (fun t p => (pure ((List.range nb).foldl (fun t l =>
        if p.1 = p.2.1 then
          let x : ℂ := Real.sqrt (0.5 * B.rate 0 l) * B.V l p.1 p.1
          wr t l p.1 p.1 (x, conj x)
        else
          wr t l p.1 p.2.1 (Real.sqrt (0.5 * B.rate (E p.1 - E p.2.1) l) * B.V l p.1 p.2.1,
            Real.sqrt (0.5 * B.rate (E p.1 - E p.2.1) l) * conj (B.V l p.2.1 p.1))) t) :
        Py (Nat → Nat → Nat → ℂ × ℂ)))]
    exact key _ _
  · intro l c b a hl hb ha
    simp only
    cases hk : (el c b a).isSome with
    | true => rw [if_pos ⟨hl, c, (elElems_mem h).2 ⟨hb, ha, hk⟩⟩]; simp
    | false =>
      rw [if_neg]
      · simp
      · rintro ⟨_, c', hc'⟩
        obtain ⟨m1, _, m3⟩ := (elElems_mem h).1 hc'
        have := h.disj c c' b hb m1
        subst this
        simp only at m3
        rw [hk] at m3
        simp at m3

end CLindbladPh

end

end Verif
