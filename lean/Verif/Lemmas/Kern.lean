import Verif.Lemmas.DMLabel
import Verif.Spec.Labels
import Mathlib.Algebra.BigOperators.Group.Finset.Basic
import Mathlib.Algebra.BigOperators.Ring.Finset
import Mathlib.Tactic.Ring
import Mathlib.Tactic.LinearCombination

/-! Effect of the calls on the two kernel handlers. -/

namespace Verif

open Finset

noncomputable section

/-! ### Matrices -/

/-- `m @ φ`. -/
def Mat.app (m : Mat) (φ : Nat → ℝ) (r : Nat) : ℝ := ∑ j ∈ range m.cols, m.val r j * φ j

/-- `m'` is `m` plus the linear map `δ`. -/
structure Adds (m m' : Mat) (δ : (Nat → ℝ) → Nat → ℝ) : Prop where
  rows : m'.rows = m.rows
  cols : m'.cols = m.cols
  app : ∀ φ r, m'.app φ r = m.app φ r + δ φ r

theorem Adds.refl (m : Mat) : Adds m m (fun _ _ => 0) := ⟨rfl, rfl, by simp⟩

theorem Adds.trans {m m' m'' : Mat} {δ δ'} (h : Adds m m' δ) (h' : Adds m' m'' δ') :
    Adds m m'' (fun φ r => δ φ r + δ' φ r) :=
  ⟨by rw [h'.rows, h.rows], by rw [h'.cols, h.cols], by
    intro φ r; rw [h'.app, h.app, add_assoc]⟩

theorem Adds.congr {m m' : Mat} {δ δ'} (h : Adds m m' δ) (e : ∀ φ r, δ φ r = δ' φ r) :
    Adds m m' δ' := ⟨h.rows, h.cols, by intro φ r; rw [h.app, e]⟩

theorem Mat.add_ok (m : Mat) {r c : Nat} (hr : r < m.rows) (hc : c < m.cols) (x : ℝ) :
    ∃ m', m.add r c x = .ok m' ∧ Adds m m' (fun φ r' => if r' = r then x * φ c else 0) := by
  unfold Mat.add
  rw [pyIdx_nat hr, pyIdx_nat hc]
  refine ⟨_, rfl, rfl, rfl, ?_⟩
  intro φ r'
  simp only [Mat.app]
  by_cases h : r' = r
  · simp only [h, true_and, if_true]
    have : ∀ j, (if j = c then m.val r j + x else m.val r j) * φ j
        = m.val r j * φ j + (if j = c then x * φ j else 0) := by
      intro j; split
      · ring
      · ring
    simp only [this]
    rw [sum_add_distrib, sum_ite_eq' (range m.cols) c]
    simp [hc]
  · simp [h]

/-! ### The considered states -/

section
variable {v : View} {la : Lab} (h : VMul v la)

namespace VMul

include h

theorem row_lt {c b : Nat} (hb : b ∈ v.row c) : c < v.ncharge := by
  by_contra hc
  rw [h.last c (by omega)] at hb
  simp at hb

theorem row_ge {c : Nat} (hc : v.ncharge ≤ c) : v.row c = [] := by
  rcases hr : v.row c with _ | ⟨b, l⟩
  · rfl
  · have := h.row_lt (c := c) (b := b) (by rw [hr]; simp)
    omega

theorem states {c : Nat} (hc : c ≤ v.ncharge) : v.states (c : Int) = .ok (v.row c) := by
  have hl := h.len
  unfold View.states
  rw [pyGet_nat _ (by omega)]
  simp [View.row, show c < v.statesdm.length by omega]

theorem states_succ {c : Nat} (hc : c < v.ncharge) :
    v.states ((c : Int) + 1) = .ok (v.row (c + 1)) := h.states (c := c + 1) hc

theorem states_neg : v.states (-1) = .ok [] := by
  have hl := h.len
  unfold View.states pyGet
  have : pyIdx v.statesdm.length (-1) = .ok (v.statesdm.length - 1) := by
    have := pyIdx_neg (len := v.statesdm.length) (k := 1) (by omega) (by omega)
    simpa using this
  rw [this]
  have h2 := h.last (v.statesdm.length - 1) (by omega)
  simp only [View.row] at h2
  simp only
  rw [List.getElem?_eq_getElem (by omega)] at h2 ⊢
  simpa using h2

end VMul

/-- The considered states of one charge less. -/
def View.low (v : View) (c : Nat) : List Nat := if c = 0 then [] else v.row (c - 1)

namespace VMul

include h

theorem states_pred {c : Nat} (hc : c ≤ v.ncharge) :
    v.states ((c : Int) - 1) = .ok (v.low c) := by
  unfold View.low
  rcases c with _ | c
  · simpa using h.states_neg
  · simpa using h.states (c := c) (by omega)

theorem low_mem {c a : Nat} (ha : a ∈ v.low c) : 0 < c ∧ a ∈ v.row (c - 1) ∧
    ((c : Int) - 1) = ((c - 1 : Nat) : Int) := by
  unfold View.low at ha
  rcases c with _ | c
  · simp at ha
  · exact ⟨by omega, by simpa using ha, by simp⟩

theorem low_nodup (c : Nat) : (v.low c).Nodup := by
  unfold View.low
  split
  · simp
  · exact h.nodup _

/-! ### Labels and positions -/

theorem lab_lt {c b bp : Nat} (hb : b ∈ v.row c) (hbp : bp ∈ v.row c)
    (hi : la.inc c b bp = true) : la.lab c b bp < v.ndm0 := by
  by_cases e : b = bp
  · subst e; have := h.lab_diag c b hb; have := h.np_le; omega
  · exact (h.lab_off c b bp hb hbp e hi).2

theorem imagPos_diag {c b : Nat} (hb : b ∈ v.row c) :
    v.imagPos (la.lab c b b : Int) < v.ndm0 := by
  have := h.lab_diag c b hb
  unfold View.imagPos
  omega

theorem imagPos_off {c b bp : Nat} (hb : b ∈ v.row c) (hbp : bp ∈ v.row c) (hne : b ≠ bp)
    (hi : la.inc c b bp = true) :
    v.imagPos (la.lab c b bp : Int) = (v.imag (la.lab c b bp) : Int) ∧
    v.ndm0 ≤ v.imag (la.lab c b bp) ∧ v.imag (la.lab c b bp) < v.ndm0r := by
  obtain ⟨h1, h2⟩ := h.lab_off c b bp hb hbp hne hi
  have := h.ndm0r
  have := h.np_le
  unfold View.imagPos View.imag
  omega

theorem lab_lt_r {c b bp : Nat} (hb : b ∈ v.row c) (hbp : bp ∈ v.row c)
    (hi : la.inc c b bp = true) : la.lab c b bp < v.ndm0r := by
  have := h.lab_lt hb hbp hi
  have := h.ndm0r
  omega

theorem ind0_inc {c b bp : Nat} (hb : b ∈ v.row c) (hbp : bp ∈ v.row c)
    (hi : la.inc c b bp = true) : v.ind0 b bp (c : Int) = .ok (la.lab c b bp : Int) := by
  rw [h.ind0 c b bp hb hbp, if_pos hi]

theorem isIncluded {c b bp : Nat} (hb : b ∈ v.row c) (hbp : bp ∈ v.row c) :
    v.isIncluded b bp (c : Int) = .ok (la.inc c b bp) := by
  unfold View.isIncluded
  rw [h.ind0 c b bp hb hbp]
  simp only [py_bind_ok, py_pure]
  cases la.inc c b bp <;> simp

theorem phi0Element {c a ap : Nat} (ha : a ∈ v.row c) (hap : ap ∈ v.row c) (φ : Vec)
    (hs : v.ndm0r ≤ φ.size) :
    v.phi0Element φ a ap (c : Int) = .ok (dens v la φ.val c a ap) := by
  unfold View.phi0Element dens
  rw [h.ind0 c a ap ha hap]
  simp only [py_bind_ok]
  by_cases hi : la.inc c a ap = true
  · have hl := h.lab_lt_r ha hap hi
    rw [if_pos hi, if_neg (by omega), if_pos hi]
    have hg : φ.get (la.lab c a ap : Int) = .ok (φ.val (la.lab c a ap)) := by
      unfold Vec.get; rw [pyIdx_nat (by omega)]; rfl
    rw [hg]
    simp only [py_bind_ok]
    unfold View.phi0Imag
    by_cases e : a = ap
    · subst e
      have := h.imagPos_diag ha
      rw [if_neg (by omega)]
      simp
    · obtain ⟨e1, e2, e3⟩ := h.imagPos_off ha hap e hi
      rw [if_pos (by omega), h.conj0 c a ap ha hap hi, e1]
      have hg : φ.get (v.imag (la.lab c a ap) : Int) = .ok (φ.val (v.imag (la.lab c a ap))) := by
        unfold Vec.get; rw [pyIdx_nat (by omega)]; rfl
      simp [hg, e]
  · rw [if_neg hi, if_pos rfl, if_neg hi]; rfl

theorem dens_herm (φ : Nat → ℝ) {c a ap : Nat} (ha : a ∈ v.row c) (hap : ap ∈ v.row c) :
    dens v la φ c ap a = (starRingEnd ℂ) (dens v la φ c a ap) := by
  unfold dens
  rw [← h.inc_symm c a ap ha hap]
  by_cases hi : la.inc c a ap = true
  · rw [if_pos hi, if_pos hi, ← h.lab_symm c a ap ha hap hi]
    by_cases e : a = ap
    · subst e; simp [Complex.ext_iff]
    · rw [h.can_off c a ap ha hap e hi]
      rw [if_neg e, if_neg (Ne.symm e)]
      cases la.can c a ap <;> simp [Complex.ext_iff]
  · simp [hi]

end VMul

theorem VOk.inclUnique (h : VOk v la) {c b bp : Nat} (hb : b ∈ v.row c) (hbp : bp ∈ v.row c) :
    v.inclUnique b bp (c : Int) = .ok (la.inc c b bp && la.can c b bp) := by
  unfold View.inclUnique
  rw [h.isIncluded hb hbp]
  simp only [py_bind_ok]
  cases hi : la.inc c b bp with
  | false => simp
  | true => simp [View.isUnique, h.bool0 c b bp hb hbp hi]

theorem VRep.inclUnique {uni : Nat → Nat → Nat → Bool} (h : VRep v la uni) {c b bp : Nat} (hb : b ∈ v.row c) (hbp : bp ∈ v.row c) :
    v.inclUnique b bp (c : Int) = .ok (la.inc c b bp && uni c b bp) := by
  unfold View.inclUnique
  rw [h.isIncluded hb hbp]
  simp only [py_bind_ok]
  cases hi : la.inc c b bp with
  | false => simp
  | true => simp [View.isUnique, h.bool0 c b bp hb hbp hi]

/-! ### One call -/

/-- Considered states and included elements. -/
def KGood (v : View) (la : Lab) : KCall → Prop
  | .energy _ b bp c => 0 ≤ c ∧ b ∈ v.row c.toNat ∧ bp ∈ v.row c.toNat ∧
      la.inc c.toNat b bp = true ∧ la.can c.toNat b bp = true
  | .elem _ b bp c a ap c' => 0 ≤ c ∧ b ∈ v.row c.toNat ∧ bp ∈ v.row c.toNat ∧
      la.inc c.toNat b bp = true ∧ 0 ≤ c' ∧ a ∈ v.row c'.toNat ∧ ap ∈ v.row c'.toNat ∧
      la.inc c'.toNat a ap = true
  | .pauli _ _ _ _ => False

/-- The element of the density matrix a call contributes to. -/
def KCall.target : KCall → Int × Nat × Nat
  | .energy _ b bp c => (c, b, bp)
  | .elem _ b bp c _ _ _ => (c, b, bp)
  | .pauli _ _ _ _ => (0, 0, 0)

/-- The term of the equation of motion (times `i`) that a call adds. -/
def KCall.term (v : View) (la : Lab) (φ : Nat → ℝ) : KCall → ℂ
  | .energy e b bp c => e * dens v la φ c.toNat b bp
  | .elem f _ _ _ a ap c' => f * dens v la φ c'.toNat a ap
  | .pauli _ _ _ _ => 0

/-- Contribution of the term `z` to the row `r` of the equations, for the element `b, bp` of
charge `c`; `s` is the sign convention of the imaginary rows. -/
def put (v : View) (la : Lab) (s : ℝ) (c b bp : Nat) (z : ℂ) (r : Nat) : ℝ :=
  if r = la.lab c b bp then z.im
  else if b ≠ bp ∧ r = v.imag (la.lab c b bp) then s * -z.re else 0

/-- Contribution of a call to row `r`. -/
def KCall.contrib (v : View) (la : Lab) (s : ℝ) (φ : Nat → ℝ) (k : KCall) (r : Nat) : ℝ :=
  put v la s k.target.1.toNat k.target.2.1 k.target.2.2 (k.term v la φ) r

theorem contrib_energy (v : View) (la : Lab) (s : ℝ) (φ : Nat → ℝ) (e : ℝ) (b bp q r : Nat) :
    (KCall.energy e b bp (q : Int)).contrib v la s φ r
      = put v la s q b bp (e * dens v la φ q b bp) r := rfl

theorem contrib_elem (v : View) (la : Lab) (s : ℝ) (φ : Nat → ℝ) (f : ℂ)
    (b bp q a ap q' r : Nat) :
    (KCall.elem f b bp (q : Int) a ap (q' : Int)).contrib v la s φ r
      = put v la s q b bp (f * dens v la φ q' a ap) r := rfl

namespace VMul

include h

theorem callKern_ok {k : KCall} (hk : KGood v la k) {m : Mat} (hr : v.ndm0r ≤ m.rows)
    (hc : m.cols = v.ndm0r) :
    ∃ m', v.callKern m k = .ok m' ∧ Adds m m' (fun φ r => k.contrib v la 1 φ r) := by
  cases k with
  | pauli => exact absurd hk (by simp [KGood])
  | energy e b bp c =>
    obtain ⟨h0, hb, hbp, hi, hcan⟩ := hk
    obtain ⟨q, rfl⟩ := Int.eq_ofNat_of_zero_le h0
    simp only [Int.toNat_natCast] at hb hbp hi hcan
    simp only [View.callKern]
    rw [h.ind0_inc hb hbp hi]
    simp only [py_bind_ok]
    unfold View.putEnergy
    have hl := h.lab_lt_r hb hbp hi
    have hl0 := h.lab_lt hb hbp hi
    by_cases e1 : b = bp
    · subst e1
      have := h.imagPos_diag hb
      rw [if_neg (by omega)]
      refine ⟨_, rfl, (Adds.refl m).congr ?_⟩
      intro φ r
      simp [contrib_energy, put, dens, hi]
    · obtain ⟨e2, e3, e4⟩ := h.imagPos_off hb hbp e1 hi
      rw [if_pos (by omega), e2]
      obtain ⟨m1, g1, a1⟩ := m.add_ok (r := la.lab q b bp) (c := v.imag (la.lab q b bp))
        (by omega) (by omega) e
      obtain ⟨m2, g2, a2⟩ := m1.add_ok (r := v.imag (la.lab q b bp)) (c := la.lab q b bp)
        (by rw [a1.rows]; omega) (by rw [a1.cols]; omega) (-e)
      rw [g1]
      simp only [py_bind_ok]
      refine ⟨m2, g2, (a1.trans a2).congr ?_⟩
      intro φ r
      simp only [contrib_energy, put, dens, hi, e1,
        hcan, if_true, if_false]
      by_cases c1 : r = la.lab q b bp
      · rw [if_pos c1, if_pos c1, if_neg (by omega)]; simp
      · rw [if_neg c1, if_neg c1]
        by_cases c2 : r = v.imag (la.lab q b bp)
        · simp [c2, e1]
        · simp [c2]
  | elem f b bp c a ap c' =>
    obtain ⟨h0, hb, hbp, hi, h0', ha, hap, hi'⟩ := hk
    obtain ⟨q, rfl⟩ := Int.eq_ofNat_of_zero_le h0
    obtain ⟨q', rfl⟩ := Int.eq_ofNat_of_zero_le h0'
    simp only [Int.toNat_natCast] at hb hbp hi ha hap hi'
    simp only [View.callKern]
    rw [h.ind0_inc hb hbp hi, h.ind0_inc ha hap hi', h.conj0 q' a ap ha hap hi']
    simp only [py_bind_ok]
    have hl := h.lab_lt_r hb hbp hi
    have hl0 := h.lab_lt hb hbp hi
    have hla := h.lab_lt_r ha hap hi'
    set r0 := la.lab q b bp with hr0
    set c0 := la.lab q' a ap with hc0
    obtain ⟨m1, g1, a1⟩ := m.add_ok (r := r0) (c := c0) (by omega) (by omega) f.im
    rw [g1]
    simp only [py_bind_ok]
    set sg : ℝ := if la.can q' a ap then 1 else -1 with hsg
    -- the column of the imaginary part
    have s2 : ∃ m2, v.putImagCol m1 f sg (r0 : Int) (v.imagPos r0) (v.imagPos c0) = .ok m2 ∧
        Adds m1 m2 (fun φ r => if a = ap then 0 else
          if r = r0 then f.re * sg * φ (v.imag c0)
          else if b ≠ bp ∧ r = v.imag r0 then f.im * sg * φ (v.imag c0) else 0) := by
      unfold View.putImagCol
      by_cases ea : a = ap
      · subst ea
        have := h.imagPos_diag ha
        rw [← hc0] at this
        rw [if_neg (by omega)]
        exact ⟨m1, rfl, (Adds.refl m1).congr (by simp)⟩
      · obtain ⟨e2, e3, e4⟩ := h.imagPos_off ha hap ea hi'
        rw [← hc0] at e2 e3 e4
        rw [if_pos (by omega), e2]
        obtain ⟨m2, g2, a2⟩ := m1.add_ok (r := r0) (c := v.imag c0)
          (by rw [a1.rows]; omega) (by rw [a1.cols]; omega) (f.re * sg)
        rw [g2]
        simp only [py_bind_ok]
        unfold View.addImagRow
        by_cases eb : b = bp
        · subst eb
          have := h.imagPos_diag hb
          rw [← hr0] at this
          rw [if_neg (by omega)]
          refine ⟨m2, rfl, a2.congr ?_⟩
          intro φ r; simp [ea]
        · obtain ⟨f2, f3, f4⟩ := h.imagPos_off hb hbp eb hi
          rw [← hr0] at f2 f3 f4
          rw [if_pos (by omega), f2]
          obtain ⟨m3, g3, a3⟩ := m2.add_ok (r := v.imag r0) (c := v.imag c0)
            (by rw [a2.rows, a1.rows]; omega) (by rw [a2.cols, a1.cols]; omega) (f.im * sg)
          refine ⟨m3, g3, (a2.trans a3).congr ?_⟩
          intro φ r
          simp only [ea, if_false, eb, ne_eq, not_false_eq_true, true_and]
          by_cases k1 : r = r0
          · rw [if_pos k1, if_pos k1, if_neg (by omega)]; simp
          · simp [k1]
    obtain ⟨m2, g2, a2⟩ := s2
    rw [g2]
    simp only [py_bind_ok]
    -- the row of the imaginary part
    have s3 : ∃ m3, v.addImagRow m2 (v.imagPos r0) (c0 : Int) (-f.re) = .ok m3 ∧
        Adds m2 m3 (fun φ r => if b ≠ bp ∧ r = v.imag r0 then -f.re * φ c0 else 0) := by
      unfold View.addImagRow
      by_cases eb : b = bp
      · subst eb
        have := h.imagPos_diag hb
        rw [← hr0] at this
        rw [if_neg (by omega)]
        exact ⟨m2, rfl, (Adds.refl m2).congr (by simp)⟩
      · obtain ⟨f2, f3, f4⟩ := h.imagPos_off hb hbp eb hi
        rw [← hr0] at f2 f3 f4
        rw [if_pos (by omega), f2]
        obtain ⟨m3, g3, a3⟩ := m2.add_ok (r := v.imag r0) (c := c0)
          (by rw [a2.rows, a1.rows]; omega) (by rw [a2.cols, a1.cols]; omega) (-f.re)
        exact ⟨m3, g3, a3.congr (by simp [eb])⟩
    obtain ⟨m3, g3, a3⟩ := s3
    refine ⟨m3, g3, ((a1.trans a2).trans a3).congr ?_⟩
    intro φ r
    simp only [contrib_elem, put, dens, hi', if_true, ← hr0, ← hc0]
    have hdisj : b ≠ bp → r = v.imag r0 → r ≠ r0 := by
      intro eb e
      have := (h.imagPos_off hb hbp eb hi).2.1
      rw [← hr0] at this
      omega
    by_cases k1 : r = r0
    · have : ¬ (b ≠ bp ∧ r = v.imag r0) := fun hh => hdisj hh.1 hh.2 k1
      rw [if_pos k1, if_pos k1, if_pos k1, if_neg this]
      by_cases ea : a = ap
      · simp [ea]
      · simp only [ea, if_false, Complex.mul_im]
        rw [hsg]
        by_cases hcn : la.can q' a ap = true
        · simp [hcn]; ring
        · simp only [hcn, Bool.false_eq_true, if_false]; ring
    · rw [if_neg k1, if_neg k1, if_neg k1]
      by_cases k2 : b ≠ bp ∧ r = v.imag r0
      · rw [if_pos k2, if_pos k2, if_pos k2, Complex.mul_re]
        by_cases ea : a = ap
        · simp [ea]
        · simp only [ea, if_false]
          rw [hsg]
          by_cases hcn : la.can q' a ap = true
          · simp [hcn]; ring
          · simp only [hcn, Bool.false_eq_true, if_false]; ring
      · rw [if_neg k2, if_neg k2, if_neg k2]
        split <;> simp

/-- Effect of a list of calls on the kernel. -/
theorem runKern_ok (ks : List KCall) (hk : ∀ k ∈ ks, KGood v la k) {m : Mat}
    (hr : v.ndm0r ≤ m.rows) (hc : m.cols = v.ndm0r) :
    ∃ m', v.runKern m ks = .ok m' ∧
      Adds m m' (fun φ r => (ks.map fun k => k.contrib v la 1 φ r).sum) := by
  induction ks generalizing m with
  | nil => exact ⟨m, rfl, (Adds.refl m).congr (by simp)⟩
  | cons k ks ih =>
    obtain ⟨m1, g1, a1⟩ := callKern_ok h (hk k (by simp)) hr hc
    obtain ⟨m2, g2, a2⟩ := ih (fun k hk' => hk k (by simp [hk'])) (m := m1)
      (by rw [a1.rows]; exact hr) (by rw [a1.cols]; exact hc)
    refine ⟨m2, ?_, (a1.trans a2).congr (by simp)⟩
    unfold View.runKern at *
    rw [List.foldlM_cons, g1]
    exact g2

omit h in
theorem _root_.Verif.Vec.add_ok (x : Vec) {r : Nat} (hr : r < x.size) (z : ℝ) :
    ∃ x', x.add r z = .ok x' ∧ x'.size = x.size ∧
      ∀ r', x'.val r' = x.val r' + if r' = r then z else 0 := by
  unfold Vec.add
  rw [pyIdx_nat hr]
  refine ⟨_, rfl, rfl, ?_⟩
  intro r'
  simp only
  split <;> simp

theorem callFree_ok {k : KCall} (hk : KGood v la k) {φ x : Vec} (hφ : v.ndm0r ≤ φ.size)
    (hx : v.ndm0r ≤ x.size) :
    ∃ x', v.callFree φ x k = .ok x' ∧ x'.size = x.size ∧
      ∀ r, x'.val r = x.val r + k.contrib v la (-1) φ.val r := by
  cases k with
  | pauli => exact absurd hk (by simp [KGood])
  | energy e b bp c =>
    obtain ⟨h0, hb, hbp, hi, hcan⟩ := hk
    obtain ⟨q, rfl⟩ := Int.eq_ofNat_of_zero_le h0
    simp only [Int.toNat_natCast] at hb hbp hi hcan
    simp only [View.callFree]
    have hl := h.lab_lt_r hb hbp hi
    have hl0 := h.lab_lt hb hbp hi
    by_cases e1 : b = bp
    · subst e1
      simp only [if_true]
      refine ⟨x, rfl, rfl, ?_⟩
      intro r
      simp [contrib_energy, put, dens, hi]
    · obtain ⟨e2, e3, e4⟩ := h.imagPos_off hb hbp e1 hi
      simp only [e1, if_false]
      rw [h.ind0_inc hb hbp hi, h.phi0Element hb hbp φ hφ]
      simp only [py_bind_ok, e2]
      set d : ℂ := -Complex.I * e * dens v la φ.val q b bp with hd
      obtain ⟨x1, g1, s1, a1⟩ := x.add_ok (r := la.lab q b bp) (by omega) d.re
      obtain ⟨x2, g2, s2, a2⟩ := x1.add_ok (r := v.imag (la.lab q b bp)) (by omega) (-d.im)
      rw [g1]
      simp only [py_bind_ok]
      refine ⟨x2, g2, by rw [s2, s1], ?_⟩
      intro r
      rw [a2, a1]
      simp only [contrib_energy, contrib_elem, put, e1, ne_eq,
        not_false_eq_true, true_and]
      by_cases c1 : r = la.lab q b bp
      · rw [if_pos c1, if_pos c1, if_neg (by omega), hd]; simp
      · rw [if_neg c1, if_neg c1, hd]; simp
  | elem f b bp c a ap c' =>
    obtain ⟨h0, hb, hbp, hi, h0', ha, hap, hi'⟩ := hk
    obtain ⟨q, rfl⟩ := Int.eq_ofNat_of_zero_le h0
    obtain ⟨q', rfl⟩ := Int.eq_ofNat_of_zero_le h0'
    simp only [Int.toNat_natCast] at hb hbp hi ha hap hi'
    simp only [View.callFree]
    have hl := h.lab_lt_r hb hbp hi
    have hl0 := h.lab_lt hb hbp hi
    rw [h.ind0_inc hb hbp hi, h.ind0_inc ha hap hi', h.phi0Element ha hap φ hφ]
    simp only [py_bind_ok]
    set d : ℂ := -Complex.I * f * dens v la φ.val q' a ap with hd
    obtain ⟨x1, g1, s1, a1⟩ := x.add_ok (r := la.lab q b bp) (by omega) d.re
    rw [g1]
    simp only [py_bind_ok]
    unfold View.subImag
    by_cases e1 : b = bp
    · subst e1
      have := h.imagPos_diag hb
      rw [if_neg (by omega)]
      refine ⟨x1, rfl, s1, ?_⟩
      intro r
      rw [a1]
      simp only [contrib_elem, put]
      by_cases c1 : r = la.lab q b b
      · rw [if_pos c1, if_pos c1, hd]; simp
      · rw [if_neg c1, if_neg c1]; simp
    · obtain ⟨e2, e3, e4⟩ := h.imagPos_off hb hbp e1 hi
      rw [if_pos (by omega), e2]
      obtain ⟨x2, g2, s2, a2⟩ := x1.add_ok (r := v.imag (la.lab q b bp)) (by omega) (-d.im)
      refine ⟨x2, g2, by rw [s2, s1], ?_⟩
      intro r
      rw [a2, a1]
      simp only [contrib_energy, contrib_elem, put, e1, ne_eq,
        not_false_eq_true, true_and]
      by_cases c1 : r = la.lab q b bp
      · rw [if_pos c1, if_pos c1, if_neg (by omega), hd]; simp
      · rw [if_neg c1, if_neg c1, hd]; simp; split <;> ring

/-- Effect of a list of calls on the derivative in the matrix-free handler. -/
theorem runFree_ok (ks : List KCall) (hk : ∀ k ∈ ks, KGood v la k) {φ x : Vec}
    (hφ : v.ndm0r ≤ φ.size) (hx : v.ndm0r ≤ x.size) :
    ∃ x', v.runFree φ x ks = .ok x' ∧ x'.size = x.size ∧
      ∀ r, x'.val r = x.val r + (ks.map fun k => k.contrib v la (-1) φ.val r).sum := by
  induction ks generalizing x with
  | nil => exact ⟨x, rfl, rfl, by simp⟩
  | cons k ks ih =>
    obtain ⟨x1, g1, s1, a1⟩ := callFree_ok h (hk k (by simp)) hφ hx
    obtain ⟨x2, g2, s2, a2⟩ := ih (fun k hk' => hk k (by simp [hk'])) (x := x1)
      (by rw [s1]; exact hx)
    refine ⟨x2, ?_, by rw [s2, s1], ?_⟩
    · unfold View.runFree at *
      rw [List.foldlM_cons, g1]
      exact g2
    · intro r
      rw [a2, a1, List.map_cons, List.sum_cons, add_assoc]

end VMul

end

theorem callKern_ok {v : View} {la : Lab} (h : VOk v la) :
    type_of% (@VMul.callKern_ok v la h.toVMul) := VMul.callKern_ok h.toVMul

theorem runKern_ok {v : View} {la : Lab} (h : VOk v la) :
    type_of% (@VMul.runKern_ok v la h.toVMul) := VMul.runKern_ok h.toVMul

theorem callFree_ok {v : View} {la : Lab} (h : VOk v la) :
    type_of% (@VMul.callFree_ok v la h.toVMul) := VMul.callFree_ok h.toVMul

theorem runFree_ok {v : View} {la : Lab} (h : VOk v la) :
    type_of% (@VMul.runFree_ok v la h.toVMul) := VMul.runFree_ok h.toVMul

end

end Verif
