import Verif.Lemmas.SpinMult

/-! The equations for one member of each multiplet say the same as those for all members. -/

namespace Verif

open Finset
open scoped ComplexConjugate
open Complex (I)

noncomputable section

/-! ### Normalisation -/

section
variable {v : View} {la : Lab} (h : VMul v la)
include h

theorem VMul.addOnes_ok (q : Nat) (l : List Nat) (hl : ∀ b ∈ l, b ∈ v.row q) (x : Vec)
    (hx : v.npauli ≤ x.size) :
    ∃ x', l.foldlM (fun x b => do
        let bb ← v.ind0 b b (q : Int)
        x.add bb 1) x = .ok x' ∧ x'.size = x.size ∧
      ∀ r, x'.val r = x.val r + (l.map fun b => if r = la.lab q b b then (1 : ℝ) else 0).sum := by
  induction l generalizing x with
  | nil => exact ⟨x, rfl, rfl, by simp⟩
  | cons b l ih =>
    have hb := hl b (by simp)
    obtain ⟨x1, g1, s1, e1⟩ := x.add_ok (r := la.lab q b b)
      (lt_of_lt_of_le (h.lab_diag q b hb) hx) 1
    obtain ⟨x2, g2, s2, e2⟩ := ih (fun b hb => hl b (by simp [hb])) x1 (by omega)
    refine ⟨x2, ?_, by omega, ?_⟩
    · rw [List.foldlM_cons, h.ind0 q b b hb hb, if_pos (h.inc_diag q b hb)]
      simp only [py_bind_ok]
      rw [g1]
      exact g2
    · intro r
      rw [e2, e1, List.map_cons, List.sum_cons, add_assoc]

/-- `generate_norm_vec` counts the states whose population has the label. -/
theorem VMul.genNormVec_ok (n : Nat) (hn : v.npauli ≤ n) :
    ∃ x, v.genNormVec (Vec.zeros n) = .ok x ∧ x.size = n ∧
      ∀ i, x.val i = ∑ q ∈ range v.ncharge, ∑ b ∈ v.R q, if i = la.lab q b b then 1 else 0 := by
  have key : ∀ (cs : List Nat) (x : Vec), (∀ c ∈ cs, c < v.ncharge) → v.npauli ≤ x.size →
      ∃ x', cs.foldlM (fun x (c : Nat) => do
        let l ← v.states c
        l.foldlM (fun x b => do
          let bb ← v.ind0 b b c
          x.add bb 1) x) x = .ok x' ∧ x'.size = x.size ∧
      ∀ r, x'.val r = x.val r + (cs.map fun c =>
        ((v.row c).map fun b => if r = la.lab c b b then (1 : ℝ) else 0).sum).sum := by
    intro cs
    induction cs with
    | nil => intro x _ _; exact ⟨x, rfl, rfl, by simp⟩
    | cons c cs ih =>
      intro x hcs hx
      obtain ⟨x1, g1, s1, e1⟩ := h.addOnes_ok c (v.row c) (fun b hb => hb) x hx
      obtain ⟨x2, g2, s2, e2⟩ := ih x1 (fun c hc => hcs c (by simp [hc])) (by omega)
      refine ⟨x2, ?_, by omega, ?_⟩
      · have := hcs c (by simp)
        rw [List.foldlM_cons, VMul.states h (by omega)]
        simp only [py_bind_ok]
        rw [g1]
        exact g2
      · intro r
        rw [e2, e1, List.map_cons, List.sum_cons, add_assoc]
  obtain ⟨x, g, hs, e⟩ := key (List.range v.ncharge) (Vec.zeros n) (fun c hc => List.mem_range.1 hc) hn
  refine ⟨x, g, hs, ?_⟩
  intro i
  rw [e, sum_range_list]
  simp only [Vec.zeros, zero_add]
  refine sum_congr rfl fun q _ => ?_
  rw [View.R, List.sum_toFinset _ (h.nodup q)]

theorem VMul.lt_ncharge {c b : Nat} (hb : b ∈ v.row c) : c < v.ncharge := by
  by_contra hc
  rw [h.last c (by omega)] at hb
  simp at hb

theorem VMul.npauli_le : v.npauli ≤ v.ndm0r := by have := h.np_le; have := h.ndm0r; omega

/-- The product with the vector is the trace. -/
theorem VMul.norm_trace :
    ∃ nv, v.genNormVec (Vec.zeros v.ndm0r) = .ok nv ∧ nv.size = v.ndm0r ∧ ∀ φ : Nat → ℝ,
      ∑ i ∈ range v.ndm0r, nv.val i * φ i = ∑ q ∈ range v.ncharge, ∑ b ∈ v.R q, (dens v la φ q b b).re := by
  obtain ⟨nv, g, hs, e⟩ := h.genNormVec_ok v.ndm0r h.npauli_le
  refine ⟨nv, g, hs, fun φ => ?_⟩
  simp only [e, sum_mul]
  rw [sum_comm]
  refine sum_congr rfl fun q _ => ?_
  rw [sum_comm]
  refine sum_congr rfl fun b hb => ?_
  have hb' : b ∈ v.row q := by simpa [View.R] using hb
  simp only [ite_mul, one_mul, zero_mul]
  rw [sum_ite_eq', if_pos (mem_range.2 (lt_of_lt_of_le (h.lab_diag q b hb') h.npauli_le)), dens,
    if_pos (h.inc_diag q b hb')]

end

/-- The stored matrix vanishes if and only if the vector does. -/
theorem VRep.dens_eq_zero {v : View} {la : Lab} {uni : Nat → Nat → Nat → Bool} (h : VRep v la uni) {φ : Nat → ℝ} :
    (∀ q, ∀ b ∈ v.row q, ∀ bp ∈ v.row q, dens v la φ q b bp = 0) ↔ ∀ i < v.ndm0r, φ i = 0 := by
  have hr := h.ndm0r
  constructor
  · intro hz i hi
    by_cases hk : i < v.ndm0
    · obtain ⟨c, b, bp, hb, hbp, hinc, _, e⟩ := h.uni_surj i hk
      have := congrArg Complex.re (hz c b hb bp hbp)
      rw [dens, if_pos hinc, e] at this
      exact this
    · obtain ⟨c, b, bp, hb, hbp, hinc, _, e⟩ := h.uni_surj (i - v.ndm0 + v.npauli) (by omega)
      have hne : b ≠ bp := by
        rintro rfl
        have := h.lab_diag c b hb
        omega
      have := congrArg Complex.im (hz c b hb bp hbp)
      rw [dens, if_pos hinc, if_neg hne, e] at this
      have hi : v.imag (i - v.ndm0 + v.npauli) = i := by unfold View.imag; omega
      rw [hi] at this
      simp only at this
      split at this
      · exact this
      · simpa using this
  · intro hz q b hb bp hbp
    unfold dens
    split
    · rename_i hinc
      by_cases e : b = bp
      · subst e
        have := h.lab_diag q b hb
        have := h.np_le
        rw [hz _ (by omega)]; simp [Complex.ext_iff]
      · have := h.lab_off q b bp hb hbp e hinc
        rw [hz _ (by omega), hz (v.imag _) (by unfold View.imag; omega)]
        simp [Complex.ext_iff]
    · rfl

section
variable {v : View} {la : Lab} {uni : Nat → Nat → Nat → Bool} {Z Q A : Nat → Int} (h : MultLab v la uni Z Q A)
include h

/-- The stored matrix does not distinguish the members of a multiplet. -/
theorem MultLab.isotropic (φ : Nat → ℝ) : Isotropic v Z Q A (dens v la φ) where
  diff c b hb bp hbp hne := by
    rw [dens, if_neg fun e => hne ((h.inc c b hb bp hbp).1 e)]
  same c b hb bp hbp b' hb' bp' hbp' h1 h2 h3 h4 h5 h6 h7 := by
    have i1 := (h.inc c b hb bp hbp).2 ⟨h1, h2⟩
    have i2 := (h.inc c b' hb' bp' hbp').2 ⟨h3, by omega⟩
    obtain ⟨l1, l2⟩ := h.same_lab c b hb bp hbp b' hb' bp' hbp' h1 h2 h3 h4 h5 h6 h7
    have e : b = bp ↔ b' = bp' := by
      constructor
      · rintro rfl; exact h.inj c b' hb' bp' hbp' h3 (by omega) (by omega)
      · rintro rfl; exact h.inj c b hb bp hbp h1 (by omega) (by omega)
    unfold dens
    rw [if_pos i1, if_pos i2, l1, l2]
    simp only [e]

/-- The corresponding element of the members with the lowest projection. -/
theorem MultLab.lowest {c b bp : Nat} (hb : b ∈ v.row c) (hbp : bp ∈ v.row c) (hi : la.inc c b bp = true) :
    ∃ b0 ∈ v.row c, ∃ bp0 ∈ v.row c, Z b0 = Z bp0 ∧ Q b0 = Q bp0 ∧ Z b0 = -Q b0 ∧ Q b = Q b0 ∧ A b = A b0 ∧
      Q bp = Q bp0 ∧ A bp = A bp0 := by
  obtain ⟨e1, e2⟩ := (h.inc c b hb bp hbp).1 hi
  obtain ⟨r1, r2, r3⟩ := h.rng c b hb
  obtain ⟨b0, m0, z0, q0, a0⟩ := h.full c b hb (-Q b) (by omega) (by omega) (by omega)
  obtain ⟨b1, m1, z1, q1, a1⟩ := h.full c bp hbp (-Q bp) (by omega) (by omega) (by omega)
  exact ⟨b0, m0, b1, m1, by omega, by omega, by omega, q0.symm, a0.symm, q1.symm, a1.symm⟩

/-- The derivative, for all elements. -/
theorem MultLab.dens_app {m : Mat} {φ : Nat → ℝ} {G : Nat → Nat → Nat → ℂ}
    (rows : ∀ c b bp, b ∈ v.row c → bp ∈ v.row c → la.inc c b bp = true → uni c b bp = true →
        m.app φ (la.lab c b bp) = (G c b bp).im ∧ (b ≠ bp → m.app φ (v.imag (la.lab c b bp)) = -(G c b bp).re))
    (anti : ∀ c b bp, b ∈ v.row c → bp ∈ v.row c → G c bp b = -conj (G c b bp))
    (iso : Isotropic v Z Q A G) {c b bp : Nat} (hb : b ∈ v.row c) (hbp : bp ∈ v.row c) :
    dens v la (m.app φ) c b bp = -I * G c b bp := by
  by_cases hi : la.inc c b bp = true
  · obtain ⟨b0, m0, b1, m1, e1, e2, e3, e4, e5, e6, e7⟩ := h.lowest hb hbp hi
    obtain ⟨f1, f2⟩ := (h.inc c b hb bp hbp).1 hi
    rw [(h.isotropic (m.app φ)).same c b hb bp hbp b0 m0 b1 m1 f1 f2 e1 e4 e5 e6 e7,
      iso.same c b hb bp hbp b0 m0 b1 m1 f1 f2 e1 e4 e5 e6 e7]
    have hi0 := (h.inc c b0 m0 b1 m1).2 ⟨e1, e2⟩
    have can : ∀ b bp, b ∈ v.row c → bp ∈ v.row c → la.inc c b bp = true → la.can c b bp = true → Z b = -Q b →
        dens v la (m.app φ) c b bp = -I * G c b bp := by
      intro b bp hb hbp hi hc hz
      obtain ⟨r1, r2⟩ := rows c b bp hb hbp hi ((h.uni_low c b hb bp hbp hi).2 ⟨hc, hz⟩)
      rw [dens, if_pos hi, if_pos hc]
      by_cases e : b = bp
      · subst e
        have := congrArg Complex.re (anti c b b hb hb)
        simp only [Complex.neg_re, Complex.conj_re] at this
        rw [r1]
        apply Complex.ext <;> simp; linarith
      · rw [if_neg e, r1, r2 e]
        apply Complex.ext <;> simp
    by_cases hc : la.can c b0 b1 = true
    · exact can b0 b1 m0 m1 hi0 hc e3
    · have hne : b0 ≠ b1 := by rintro rfl; exact hc (h.can_diag c b0 m0)
      rw [h.dens_herm (m.app φ) m1 m0, can b1 b0 m1 m0 (by rw [← h.inc_symm c b0 b1 m0 m1]; exact hi0)
        (by rw [h.can_off c b0 b1 m0 m1 hne hi0]; simpa using hc) (by omega), anti c b0 b1 m0 m1]
      simp
  · rw [dens, if_neg hi, iso.diff c b hb bp hbp fun e => hi ((h.inc c b hb bp hbp).2 e), mul_zero]

/-- Every isotropic Hermitian matrix is stored in some vector. -/
theorem MultLab.exists_dens (ρ : Nat → Nat → Nat → ℂ)
    (herm : ∀ q b bp, b ∈ v.row q → bp ∈ v.row q → ρ q bp b = conj (ρ q b bp)) (iso : Isotropic v Z Q A ρ) :
    ∃ φ : Nat → ℝ, ∀ q, ∀ b ∈ v.row q, ∀ bp ∈ v.row q, dens v la φ q b bp = ρ q b bp := by
  have hs := h.uni_surj
  choose! c b bp hb hbp hinc hu hl using hs
  refine ⟨fun k => if k < v.ndm0 then (ρ (c k) (b k) (bp k)).re else
    (ρ (c (k - v.ndm0 + v.npauli)) (b (k - v.ndm0 + v.npauli)) (bp (k - v.ndm0 + v.npauli))).im, ?_⟩
  set φ : Nat → ℝ := fun k => if k < v.ndm0 then (ρ (c k) (b k) (bp k)).re else
    (ρ (c (k - v.ndm0 + v.npauli)) (b (k - v.ndm0 + v.npauli)) (bp (k - v.ndm0 + v.npauli))).im with hφ
  have can : ∀ q x xp, x ∈ v.row q → xp ∈ v.row q → la.inc q x xp = true → la.can q x xp = true → Z x = -Q x →
      dens v la φ q x xp = ρ q x xp := by
    intro q x xp hx hxp hi hc hz
    have hux := (h.uni_low q x hx xp hxp hi).2 ⟨hc, hz⟩
    have hlt : la.lab q x xp < v.ndm0 := by
      by_cases e : x = xp
      · subst e
        have := h.lab_diag q x hx; have := h.np_le; omega
      · exact (h.lab_off q x xp hx hxp e hi).2
    obtain ⟨e1, e2, e3⟩ := h.uni_inj _ _ _ q x xp (hb _ hlt) (hbp _ hlt) (hinc _ hlt) hx hxp hi (hu _ hlt) hux (hl _ hlt)
    rw [dens, if_pos hi, if_pos hc]
    have k1 : φ (la.lab q x xp) = (ρ q x xp).re := by
      rw [hφ]; dsimp only; rw [if_pos hlt, e1, e2, e3]
    rw [k1]
    by_cases e : x = xp
    · subst e
      rw [if_pos rfl]
      have := congrArg Complex.im (herm q x x hx hx)
      simp only [Complex.conj_im] at this
      apply Complex.ext
      · rfl
      · simp only; linarith
    · have hoff := h.lab_off q x xp hx hxp e hi
      have hk : v.imag (la.lab q x xp) - v.ndm0 + v.npauli = la.lab q x xp := by unfold View.imag; omega
      have hnl : ¬ v.imag (la.lab q x xp) < v.ndm0 := by unfold View.imag; omega
      rw [if_neg e]
      have k2 : φ (v.imag (la.lab q x xp)) = (ρ q x xp).im := by
        rw [hφ]; dsimp only; rw [if_neg hnl, hk, e1, e2, e3]
      rw [k2]
  intro q x hx xp hxp
  by_cases hi : la.inc q x xp = true
  · obtain ⟨b0, m0, b1, m1, e1, e2, e3, e4, e5, e6, e7⟩ := h.lowest hx hxp hi
    obtain ⟨f1, f2⟩ := (h.inc q x hx xp hxp).1 hi
    rw [(h.isotropic φ).same q x hx xp hxp b0 m0 b1 m1 f1 f2 e1 e4 e5 e6 e7,
      iso.same q x hx xp hxp b0 m0 b1 m1 f1 f2 e1 e4 e5 e6 e7]
    have hi0 := (h.inc q b0 m0 b1 m1).2 ⟨e1, e2⟩
    by_cases hc : la.can q b0 b1 = true
    · exact can q b0 b1 m0 m1 hi0 hc e3
    · have hne : b0 ≠ b1 := by rintro rfl; exact hc (h.can_diag q b0 m0)
      rw [h.dens_herm φ m1 m0, can q b1 b0 m1 m0 (by rw [← h.inc_symm q b0 b1 m0 m1]; exact hi0)
        (by rw [h.can_off q b0 b1 m0 m1 hne hi0]; simpa using hc) (by omega), herm q b1 b0 m1 m0]
  · rw [dens, if_neg hi, iso.diff q x hx xp hxp fun e => hi ((h.inc q x hx xp hxp).2 e)]

end

/-! ### Symmetry -/

/-- How the leads change under `S⁺`. -/
def gUp (k l l' : Nat) : ℂ := if l = k + l' ∧ l' < k then 1 else 0

/-- How the leads change under `S⁻`. -/
def gDn (k l l' : Nat) : ℂ := gUp k l' l

theorem sum_gUp {k : Nat} (l : Nat) (F : Nat → ℂ) :
    ∑ l' ∈ range (2 * k), gUp k l l' * F l' = if k ≤ l ∧ l < 2 * k then F (l - k) else 0 := by
  unfold gUp
  simp only [ite_mul, one_mul, zero_mul]
  by_cases h : k ≤ l ∧ l < 2 * k
  · rw [if_pos h, sum_eq_single (l - k)]
    · rw [if_pos (by omega)]
    · intro b _ hne; rw [if_neg (by omega)]
    · intro hn; exact absurd (mem_range.2 (by omega)) hn
  · rw [if_neg h]
    exact sum_eq_zero fun l' hl' => by rw [if_neg (by omega)]

theorem sum_gDn {k : Nat} (l : Nat) (F : Nat → ℂ) :
    ∑ l' ∈ range (2 * k), gDn k l l' * F l' = if l < k then F (k + l) else 0 := by
  unfold gDn gUp
  simp only [ite_mul, one_mul, zero_mul]
  by_cases h : l < k
  · rw [if_pos h, sum_eq_single (k + l)]
    · rw [if_pos (by omega)]
    · intro b _ hne; rw [if_neg (by omega)]
    · intro hn; exact absurd (mem_range.2 (by omega)) hn
  · rw [if_neg h]
    exact sum_eq_zero fun l' hl' => by rw [if_neg (by omega)]

theorem sUp_real {Z Q A : Nat → Int} (b y : Nat) : conj (sUp Z Q A b y) = sUp Z Q A b y := by
  unfold sUp
  split
  · rw [Complex.conj_ofReal]
  · simp

theorem sDn_real {Z Q A : Nat → Int} (b y : Nat) : conj (sDn Z Q A b y) = sDn Z Q A b y := sUp_real y b

/-- Commutator of the Hermitian conjugate. -/
theorem comm_adj {B P : Finset Nat} {X X' M : Nat → Nat → ℂ} (hX : ∀ b y, conj (X b y) = X' y b)
    (hM : ∀ b a, M b a = conj (M a b)) (b a : Nat) : comm B P X M b a = -conj (comm P B X' M a b) := by
  unfold comm
  simp only [map_sub, map_sum, map_mul]
  have hX' : ∀ b y, conj (X' b y) = X y b := fun b y => by rw [← hX y b, Complex.conj_conj]
  rw [neg_sub]
  refine congrArg₂ (· - ·) (sum_congr rfl fun y _ => ?_) (sum_congr rfl fun y _ => ?_)
  · rw [hX' y b, ← hM y a]; ring
  · rw [hX' a y, ← hM b y]; ring

section
variable {v : View} {Z Q A : Nat → Int} {E : Nat → ℝ} {L : Leads} {k : Nat} (h : SpinSymm v Z Q A E L k)
include h

theorem SpinSymm.lead {l l' : Nat} (hl : l ∈ range v.nleads) (hl' : l' ∈ range v.nleads) (e : gUp k l l' ≠ 0) :
    L.mu l = L.mu l' ∧ L.T l = L.T l' ∧ L.Dm l = L.Dm l' ∧ L.Dp l = L.Dp l' := by
  unfold gUp at e
  obtain ⟨rfl, h2⟩ : l = k + l' ∧ l' < k := by
    by_contra hn; rw [if_neg hn] at e; exact e rfl
  exact h.same l' h2

theorem SpinSymm.up : Symm v E L.Tba (sUp Z Q A) (gUp k) where
  energy q b hb y hy e := by
    unfold sUp at e
    by_cases hh : Q b = Q y ∧ A b = A y ∧ Z b = Z y + 2
    · exact h.energy q b (List.mem_toFinset.1 hb) y (List.mem_toFinset.1 hy) hh.1 hh.2.1
    · rw [if_neg hh] at e; exact absurd rfl e
  up l hl q x hx b hb := by
    rw [h.nleads] at hl ⊢
    rw [sum_gUp]
    simp only [mem_range] at hl
    rw [View.R, List.mem_toFinset] at hx hb
    by_cases hk : k ≤ l
    · rw [if_pos ⟨hk, hl⟩]
      have := h.plusDn (l - k) (by omega) q x hx b hb
      rwa [show k + (l - k) = l by omega] at this
    · rw [if_neg (by omega)]
      exact h.plusUp l (by omega) q x hx b hb
  down l hl q x hx b hb := by
    rw [h.nleads] at hl ⊢
    have e : ∀ l', -gUp k l' l * L.Tba l' b x = -(gDn k l l' * L.Tba l' b x) := fun l' => by unfold gDn; ring
    simp only [e, sum_neg_distrib]
    rw [sum_gDn, comm_adj (X' := sDn Z Q A) (fun b y => by rw [sUp_real]; rfl) (h.herm l)]
    simp only [mem_range] at hl
    rw [View.R, List.mem_toFinset] at hx hb
    by_cases hk : l < k
    · rw [if_pos hk]
      have := h.minusUp l hk q x hx b hb
      unfold View.R
      rw [this, ← h.herm]
    · rw [if_neg hk]
      have := h.minusDn (l - k) (by omega) q x hx b hb
      rw [show k + (l - k) = l by omega] at this
      unfold View.R
      rw [this]; simp

theorem SpinSymm.dn : Symm v E L.Tba (sDn Z Q A) (gDn k) where
  energy q b hb y hy e := (h.up.energy q y hy b hb e).symm
  up l hl q x hx b hb := by
    rw [h.nleads] at hl ⊢
    rw [sum_gDn]
    simp only [mem_range] at hl
    rw [View.R, List.mem_toFinset] at hx hb
    by_cases hk : l < k
    · rw [if_pos hk]
      exact h.minusUp l hk q x hx b hb
    · rw [if_neg hk]
      have := h.minusDn (l - k) (by omega) q x hx b hb
      rwa [show k + (l - k) = l by omega] at this
  down l hl q x hx b hb := by
    rw [h.nleads] at hl ⊢
    have e : ∀ l', -gDn k l' l * L.Tba l' b x = -(gUp k l l' * L.Tba l' b x) := fun l' => by unfold gDn; ring
    simp only [e, sum_neg_distrib]
    rw [sum_gUp, comm_adj (X' := sUp Z Q A) (fun b y => by rw [sDn_real]; rfl) (h.herm l)]
    simp only [mem_range] at hl
    rw [View.R, List.mem_toFinset] at hx hb
    by_cases hk : k ≤ l
    · rw [if_pos ⟨hk, hl⟩]
      have := h.plusDn (l - k) (by omega) q x hx b hb
      rw [show k + (l - k) = l by omega] at this
      unfold View.R
      rw [this, ← h.herm]
    · rw [if_neg (by omega)]
      have := h.plusUp l (by omega) q x hx b hb
      unfold View.R
      rw [this]; simp

/-- The right-hand side of the equation of motion does not distinguish the members of a multiplet. -/
theorem SpinSymm.isotropic {la : Lab} (hv : VMul v la) (hm : Mult v Z Q A)
    {κ : Fin 6 → Nat → Nat → Nat → Nat → Nat → ℂ} (hκ : ∀ i, FacOk v E (gUp k) (κ i)) {ρ : Nat → Nat → Nat → ℂ}
    (hρ : Isotropic v Z Q A ρ) : Isotropic v Z Q A (fun c b bp => ((E b - E bp : ℝ) : ℂ) * ρ c b bp +
      ∑ l ∈ range v.nleads, gen v L.Tba κ ρ l c b bp) := by
  have hκ' : ∀ i, FacOk v E (gDn k) (κ i) := fun i =>
    ⟨(hκ i).en, fun l hl l' hl' e => ((hκ i).ld l' hl' l hl e).symm⟩
  have i2 : Isotropic v Z Q A (fun c b bp => ∑ l ∈ range v.nleads, gen v L.Tba κ ρ l c b bp) := by
    apply hm.isotropic
    · intro c b hb bp hbp
      exact gen_comm hv h.up hκ (fun q b hb bp hbp => hρ.comm_up hm (List.mem_toFinset.1 hb) (List.mem_toFinset.1 hbp))
        (List.mem_toFinset.2 hb) (List.mem_toFinset.2 hbp)
    · intro c b hb bp hbp
      exact gen_comm hv h.dn hκ' (fun q b hb bp hbp => hρ.comm_dn hm (List.mem_toFinset.1 hb) (List.mem_toFinset.1 hbp))
        (List.mem_toFinset.2 hb) (List.mem_toFinset.2 hbp)
  constructor
  · intro c b hb bp hbp hne
    rw [hρ.diff c b hb bp hbp hne, mul_zero, zero_add]
    exact i2.diff c b hb bp hbp hne
  · intro c b hb bp hbp b' hb' bp' hbp' h1 h2 h3 h4 h5 h6 h7
    rw [hρ.same c b hb bp hbp b' hb' bp' hbp' h1 h2 h3 h4 h5 h6 h7, h.energy c b hb b' hb' h4 h5,
      h.energy c bp hbp bp' hbp' h6 h7]
    exact congrArg _ (i2.same c b hb bp hbp b' hb' bp' hbp' h1 h2 h3 h4 h5 h6 h7)

end

/-! ### Comparison -/

theorem dens_sub (v : View) (la : Lab) (φ ψ : Nat → ℝ) (c b bp : Nat) :
    dens v la (fun i => φ i - ψ i) c b bp = dens v la φ c b bp - dens v la ψ c b bp := by
  unfold dens
  by_cases hi : la.inc c b bp = true
  · rw [if_pos hi, if_pos hi, if_pos hi]
    apply Complex.ext
    · simp
    · simp only [Complex.sub_im]
      split
      · simp
      · split <;> ring
  · rw [if_neg hi, if_neg hi, if_neg hi, sub_zero]

theorem VRep.dens_ext {v : View} {la : Lab} {uni : Nat → Nat → Nat → Bool} (h : VRep v la uni) {φ ψ : Nat → ℝ} :
    (∀ q, ∀ b ∈ v.row q, ∀ bp ∈ v.row q, dens v la φ q b bp = dens v la ψ q b bp) ↔ ∀ i < v.ndm0r, φ i = ψ i := by
  have := h.dens_eq_zero (φ := fun i => φ i - ψ i)
  simp only [dens_sub, sub_eq_zero] at this
  exact this

/-- The right-hand side for `w`. -/
theorem gen_congr {v w : View} {la la' : Lab} (hv : VMul v la) (hw : VMul w la') (hs : SameStates v w la la') (T : TMat)
    (κ : Fin 6 → Nat → Nat → Nat → Nat → Nat → ℂ) {ρ ρ' : Nat → Nat → Nat → ℂ}
    (hρ : ∀ c, ∀ b ∈ v.row c, ∀ bp ∈ v.row c, ρ' c b bp = ρ c b bp) (l : Nat) {c b bp : Nat}
    (hb : b ∈ v.row c) (hbp : bp ∈ v.row c) : gen w T κ ρ' l c b bp = gen v T κ ρ l c b bp := by
  have hR : ∀ c, w.R c = v.R c := fun c => by
    ext b; simp only [View.R, List.mem_toFinset]; exact hs.row c b
  have hLo : ∀ c, w.Lo c = v.Lo c := fun c => by
    rcases c with _ | c
    · rw [VMul.Lo_zero hw, VMul.Lo_zero hv]
    · rw [VMul.Lo_succ hw, VMul.Lo_succ hv, hR]
  have hL : ∀ a ∈ v.Lo c, a ∈ v.row (c - 1) := by
    rcases c with _ | c
    · rw [VMul.Lo_zero hv]; simp
    · rw [VMul.Lo_succ hv]; simp [View.R]
  have hRm : ∀ q, ∀ a ∈ v.R q, a ∈ v.row q := fun q a ha => List.mem_toFinset.1 ha
  unfold gen
  rw [hLo, hR, hR]
  refine congrArg₂ (· + ·) (congrArg₂ (· + ·) (congrArg₂ (· + ·) (congrArg₂ (· + ·) (congrArg₂ (· + ·) ?_ ?_) ?_) ?_) ?_) ?_
  · exact tri_congr (fun _ _ => rfl) (fun a ha ap hap => hρ (c - 1) a (hL a ha) ap (hL ap hap)) (fun _ _ => rfl)
  · exact tri_congr (fun _ _ => rfl) (fun _ _ _ _ => rfl) (fun a ha => hρ c a (hRm c a ha) bp hbp)
  · exact tri_congr (fun _ _ => rfl) (fun _ _ _ _ => rfl) (fun a ha => hρ c a (hRm c a ha) bp hbp)
  · exact tri_congr (fun a ha => hρ c b hb a (hRm c a ha)) (fun _ _ _ _ => rfl) (fun _ _ => rfl)
  · exact tri_congr (fun a ha => hρ c b hb a (hRm c a ha)) (fun _ _ _ _ => rfl) (fun _ _ => rfl)
  · exact tri_congr (fun _ _ => rfl) (fun a ha ap hap => hρ (c + 1) a (hRm _ a ha) ap (hRm _ ap hap)) (fun _ _ => rfl)

section
variable {v w : View} {la la' : Lab} {uni : Nat → Nat → Nat → Bool} {Z Q A : Nat → Int} (h : MultLab v la uni Z Q A)
  (hw : VOk w la') (hs : SameStates v w la la')
include h hw hs

theorem SameStates.exist (φ : Vec) : ∃ φ' : Vec, φ'.size = w.ndm0r ∧ SameDens v w la la' φ.val φ'.val := by
  obtain ⟨f, hf⟩ := Verif.exists_dens hw (dens v la φ.val)
    (fun q b bp hb hbp => h.dens_herm φ.val ((hs.row q b).1 hb) ((hs.row q bp).1 hbp))
    (fun q b bp hb hbp hi => by
      rw [hs.row] at hb hbp
      unfold dens
      rw [if_neg fun e => by rw [hs.inc q b bp hb hbp e] at hi; cases hi])
  exact ⟨⟨w.ndm0r, f⟩, rfl, fun q b hb bp hbp => hf q b ((hs.row q b).2 hb) bp ((hs.row q bp).2 hbp)⟩

/-- The comparison, given the equations in terms of the density matrix. -/
theorem SameStates.same {E : Nat → ℝ} {L : Leads} {k : Nat} (hE : SpinSymm v Z Q A E L k)
    {κ : Fin 6 → Nat → Nat → Nat → Nat → Nat → ℂ} (hκ : ∀ i, FacOk v E (gUp k) (κ i)) {m m' : Mat}
    (hc : m.cols = v.ndm0r) (hc' : m'.cols = w.ndm0r) {S S' : (Nat → ℝ) → Nat → Nat → Nat → ℂ}
    (rows : ∀ φ c b bp, b ∈ v.row c → bp ∈ v.row c → la.inc c b bp = true → uni c b bp = true →
        m.app φ (la.lab c b bp)
          = (((E b - E bp : ℝ) : ℂ) * dens v la φ c b bp + S φ c b bp).im ∧
        (b ≠ bp → m.app φ (v.imag (la.lab c b bp))
          = -(((E b - E bp : ℝ) : ℂ) * dens v la φ c b bp + S φ c b bp).re))
    (rows' : ∀ φ c b bp, (b, bp) ∈ combsR2 (w.row c) → la'.inc c b bp = true →
        m'.app φ (la'.lab c b bp)
          = (((E b - E bp : ℝ) : ℂ) * dens w la' φ c b bp + S' φ c b bp).im ∧
        (b ≠ bp → m'.app φ (w.imag (la'.lab c b bp))
          = -(((E b - E bp : ℝ) : ℂ) * dens w la' φ c b bp + S' φ c b bp).re))
    (hS : ∀ φ c b bp, b ∈ v.row c → bp ∈ v.row c → S φ c b bp = ∑ l ∈ range v.nleads, gen v L.Tba κ (dens v la φ) l c b bp)
    (hS' : ∀ φ c b bp, b ∈ w.row c → bp ∈ w.row c →
      S' φ c b bp = ∑ l ∈ range w.nleads, gen w L.Tba κ (dens w la' φ) l c b bp)
    (anti : ∀ φ c b bp, b ∈ w.row c → bp ∈ w.row c → S' φ c bp b = -conj (S' φ c b bp))
    {cur cur' : Vec → Py (List CEv)}
    (hcur : ∀ φ φ' : Vec, φ.size = v.ndm0r → φ'.size = w.ndm0r → SameDens v w la la' φ.val φ'.val →
      ∃ evs evs', cur φ = .ok evs ∧ cur' φ' = .ok evs' ∧ ∀ l < v.nleads,
        current evs' l = current evs l ∧ energyCurrent evs' l = energyCurrent evs l) :
    SameReduced v w la la' Z Q A m m' cur cur' := by
  have hSS : ∀ φ φ' : Vec, SameDens v w la la' φ.val φ'.val → ∀ c b bp, b ∈ v.row c → bp ∈ v.row c →
      S' φ'.val c b bp = S φ.val c b bp := by
    intro φ φ' hd c b bp hb hbp
    rw [hS φ.val c b bp hb hbp, hS' φ'.val c b bp ((hs.row c b).2 hb) ((hs.row c bp).2 hbp), hs.nleads]
    exact sum_congr rfl fun l _ => gen_congr h.toVMul hw.toVMul hs L.Tba κ hd l hb hbp
  have hstep : ∀ φ φ' : Vec, SameDens v w la la' φ.val φ'.val →
      SameDens v w la la' (fun i => ∑ j ∈ range v.ndm0r, m.val i j * φ.val j)
        (fun i => ∑ j ∈ range w.ndm0r, m'.val i j * φ'.val j) := by
    intro φ φ' hd c b hb bp hbp
    have iso := hE.isotropic h.toVMul h.toMult hκ (h.isotropic φ.val)
    have iso' : Isotropic v Z Q A (fun c b bp => ((E b - E bp : ℝ) : ℂ) * dens v la φ.val c b bp + S φ.val c b bp) := by
      constructor
      · intro c b hb bp hbp hne
        rw [hS φ.val c b bp hb hbp]
        exact iso.diff c b hb bp hbp hne
      · intro c b hb bp hbp b' hb' bp' hbp' h1 h2 h3 h4 h5 h6 h7
        rw [hS φ.val c b bp hb hbp, hS φ.val c b' bp' hb' hbp']
        exact iso.same c b hb bp hbp b' hb' bp' hbp' h1 h2 h3 h4 h5 h6 h7
    have k1 := h.dens_app (m := m) (φ := φ.val) (rows φ.val)
      (fun c b bp hb hbp => by
        rw [← hSS φ φ' hd c bp b hbp hb, ← hSS φ φ' hd c b bp hb hbp,
          anti φ'.val c b bp ((hs.row c b).2 hb) ((hs.row c bp).2 hbp), h.dens_herm φ.val hb hbp]
        simp only [map_add, map_mul, Complex.conj_ofReal]
        push_cast
        ring) iso' hb hbp
    have k2 := Verif.dens_app hw rows' (φ := φ'.val) (anti φ'.val) ((hs.row c b).2 hb) ((hs.row c bp).2 hbp)
    unfold Mat.app at k1 k2
    rw [hc] at k1
    rw [hc'] at k2
    rw [k1, k2, hSS φ φ' hd c b bp hb hbp, hd c b hb bp hbp]
    by_cases hi : la'.inc c b bp = true
    · rw [if_pos hi]
    · rw [if_neg hi]
      have hi' : ¬ la.inc c b bp = true := fun e => hi (hs.inc c b bp hb hbp e)
      rw [iso'.diff c b hb bp hbp fun e => hi' ((h.inc c b hb bp hbp).2 e), mul_zero]
  have hext : ∀ φ φ' ψ ψ' : Nat → ℝ, SameDens v w la la' φ φ' → SameDens v w la la' ψ ψ' →
      ((∀ i < v.ndm0r, φ i = ψ i) ↔ ∀ i < w.ndm0r, φ' i = ψ' i) := by
    intro φ φ' ψ ψ' h1 h2
    rw [← h.toVRep.dens_ext, ← hw.rep.dens_ext]
    constructor
    · intro hz q b hb bp hbp
      rw [hs.row] at hb hbp
      rw [h1 q b hb bp hbp, h2 q b hb bp hbp]
      exact hz q b hb bp hbp
    · intro hz q b hb bp hbp
      rw [← h1 q b hb bp hbp, ← h2 q b hb bp hbp]
      exact hz q b ((hs.row q b).2 hb) bp ((hs.row q bp).2 hbp)
  have hzero : SameDens v w la la' (fun _ => 0) (fun _ => 0) := by
    intro c b _ bp _
    unfold dens
    split <;> split <;> simp [Complex.ext_iff]
  refine ⟨SameStates.exist h hw hs, ?_, fun φ φ' ψ ψ' => hext _ _ _ _, hstep,
    fun φ φ' hd => hext _ _ _ _ (hstep φ φ' hd) hzero, ?_, hcur⟩
  · intro φ' hi
    obtain ⟨f, hf⟩ := h.exists_dens (dens w la' φ'.val)
      (fun q b bp hb hbp => hw.dens_herm φ'.val ((hs.row q b).2 hb) ((hs.row q bp).2 hbp)) hi
    exact ⟨⟨v.ndm0r, f⟩, rfl, fun q b hb bp hbp => (hf q b hb bp hbp).symm⟩
  · obtain ⟨nv, g, _, e⟩ := VMul.norm_trace h.toVMul
    obtain ⟨nw, g', _, e'⟩ := VMul.norm_trace hw.toVMul
    refine ⟨nv, nw, g, g', fun φ φ' hd => ?_⟩
    rw [e, e', hs.ncharge]
    refine sum_congr rfl fun q _ => ?_
    have hR : w.R q = v.R q := by ext b; simp only [View.R, List.mem_toFinset]; exact hs.row q b
    rw [hR]
    refine sum_congr rfl fun b hb => ?_
    have := List.mem_toFinset.1 hb
    rw [hd q b this b this]

end

end

end Verif
