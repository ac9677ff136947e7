import Verif.Lemmas.Positive
import Mathlib.Analysis.Calculus.Deriv.Prod

/-! Equations of motion of density matrices that keep them positive. -/

namespace Verif

open Finset
open Complex (I)
open scoped ComplexConjugate

noncomputable section

theorem View.prob_eq (v : View) (ρ : Nat → Nat → Nat → ℂ) (q : Nat) (x : Nat → ℂ) :
    v.prob ρ q x = (qf (v.R q) (ρ q) x).re := rfl

/-- Density matrices stay positive, to first order in the time. -/
def KeepsPos (v : View) (la : Lab) (m : Mat) : Prop :=
  ∀ φ : Nat → ℝ, v.Positive (dens v la φ) → ∃ ψ : Nat → ℝ, ∀ ε : ℝ, 0 < ε →
    v.Positive (dens v la (fun i => φ i + ε * m.app φ i + ε ^ 2 * ψ i))

section
variable {v : View} {la : Lab} (h : VOk v la)
include h

theorem lab_lt {c b bp : Nat} (hb : b ∈ v.row c) (hbp : bp ∈ v.row c) (hi : la.inc c b bp = true) :
    la.lab c b bp < v.ndm0 := by
  by_cases e : b = bp
  · subst e
    have := h.lab_diag c b hb
    have := h.np_le
    omega
  · exact (h.lab_off c b bp hb hbp e hi).2

theorem dens_congr {φ φ' : Nat → ℝ} (he : ∀ i < v.ndm0r, φ i = φ' i) {c b bp : Nat} (hb : b ∈ v.row c)
    (hbp : bp ∈ v.row c) : dens v la φ c b bp = dens v la φ' c b bp := by
  have hr := h.ndm0r
  unfold dens
  by_cases hi : la.inc c b bp = true
  · rw [if_pos hi, if_pos hi]
    have h1 := lab_lt h hb hbp hi
    rw [he _ (by omega)]
    by_cases e : b = bp
    · rw [if_pos e, if_pos e]
    · have h2 := h.lab_off c b bp hb hbp e hi
      rw [he (v.imag (la.lab c b bp)) (by unfold View.imag; omega)]
  · rw [if_neg hi, if_neg hi]

omit h in
theorem dens_lin (φ ψ χ : Nat → ℝ) (ε δ : ℝ) (c b bp : Nat) :
    dens v la (fun i => φ i + ε * ψ i + δ * χ i) c b bp =
      dens v la φ c b bp + ε * dens v la ψ c b bp + δ * dens v la χ c b bp := by
  unfold dens
  by_cases hi : la.inc c b bp = true
  · simp only [if_pos hi]
    by_cases e : b = bp
    · simp only [if_pos e]
      apply Complex.ext <;> simp
    · simp only [if_neg e]
      cases la.can c b bp <;> apply Complex.ext <;> simp
      ring
  · simp [if_neg hi]

theorem positive_congr {ρ ρ' : Nat → Nat → Nat → ℂ} (he : ∀ q, ∀ b ∈ v.row q, ∀ bp ∈ v.row q, ρ q b bp = ρ' q b bp) :
    v.Positive ρ ↔ v.Positive ρ' := by
  have : ∀ q x, v.prob ρ q x = v.prob ρ' q x := by
    intro q x
    rw [View.prob_eq, View.prob_eq]
    rw [qf_congr (fun b hb bp hbp => he q b ((mem_R h).1 hb) bp ((mem_R h).1 hbp)) (fun _ _ => rfl)]
  simp only [View.Positive, this]

/-- Equations of motion with a part `G ρ + ρ G⁺` and a part that is positive by itself. -/
theorem keepsPos (hcl : v.Closed la) {m : Mat} (G : Nat → Nat → Nat → ℂ)
    (W : (Nat → ℝ) → Nat → Nat → Nat → ℂ)
    (hm : ∀ φ c, ∀ b ∈ v.row c, ∀ bp ∈ v.row c, dens v la (m.app φ) c b bp = if la.inc c b bp then
      ∑ y ∈ v.R c, (G c b y * dens v la φ c y bp + dens v la φ c b y * conj (G c bp y)) + W φ c b bp else 0)
    (hW : ∀ φ, v.Positive (dens v la φ) → ∀ c x, 0 ≤ (qf (v.R c) (W φ c) x).re) : KeepsPos v la m := by
  intro φ hφ
  obtain ⟨ψ, hψ⟩ := exists_dens h (fun c b bp => if la.inc c b bp then
      ∑ y ∈ v.R c, ∑ yp ∈ v.R c, G c b y * dens v la φ c y yp * conj (G c bp yp) else 0)
    (fun q b bp hb hbp => by
      rw [h.inc_symm q bp b hbp hb]
      by_cases hi : la.inc q b bp = true
      · rw [if_pos hi, if_pos hi]
        simp only [map_sum, map_mul, Complex.conj_conj]
        rw [sum_comm]
        refine sum_congr rfl fun y hy => sum_congr rfl fun yp hyp => ?_
        rw [h.dens_herm φ ((mem_R h).1 hy) ((mem_R h).1 hyp)]
        ring
      · rw [if_neg hi, if_neg hi, map_zero])
    (fun q b bp _ _ hi => by rw [hi]; rfl)
  refine ⟨ψ, fun ε hε => ?_⟩
  intro c x
  rw [View.prob_eq]
  let F : Nat → Nat → ℂ := fun b bp =>
    ∑ y ∈ v.R c, ∑ yp ∈ v.R c, ((if b = y then 1 else 0) + ε * G c b y) * dens v la φ c y yp *
      conj ((if bp = yp then 1 else 0) + ε * G c bp yp) + ε * W φ c b bp
  have hF : ∀ x, 0 ≤ (qf (v.R c) F x).re := by
    intro x
    rw [qf_add (v.R c) (fun b bp => ∑ y ∈ v.R c, ∑ yp ∈ v.R c, ((if b = y then 1 else 0) + ε * G c b y) *
      dens v la φ c y yp * conj ((if bp = yp then 1 else 0) + ε * G c bp yp)) (fun b bp => ε * W φ c b bp),
      qf_cong (v.R c) (v.R c) (fun b y => (if b = y then 1 else 0) + ε * G c b y), qf_smul]
    rw [Complex.add_re, Complex.re_ofReal_mul]
    have h1 := hφ c (fun a => ∑ b ∈ v.R c, conj ((if b = a then 1 else 0) + ε * G c b a) * x b)
    rw [View.prob_eq] at h1
    exact add_nonneg h1 (mul_nonneg hε.le (hW φ hφ c x))
  have hp := qf_pinch hF (p := la.inc c) (fun a ha => h.inc_diag c a ((mem_R h).1 ha))
    (fun a ha b hb => h.inc_symm c a b ((mem_R h).1 ha) ((mem_R h).1 hb))
    (fun a ha b hb d hd => hcl c a ((mem_R h).1 ha) b ((mem_R h).1 hb) d ((mem_R h).1 hd)) x
  rw [qf_congr (G := fun b bp => if la.inc c b bp then F b bp else 0) (y := x) _ (fun _ _ => rfl)]
  · exact hp
  · intro b hb bp hbp
    have hb' := (mem_R h).1 hb
    have hbp' := (mem_R h).1 hbp
    rw [dens_lin, hm φ c b hb' bp hbp', hψ c b hb' bp hbp']
    by_cases hi : la.inc c b bp = true
    · simp only [if_pos hi, F]
      simp only [map_add, map_mul, Complex.conj_ofReal, add_mul, mul_add, sum_add_distrib]
      have a1 : ∀ H : Nat → Nat → ℂ, ∑ y ∈ v.R c, ∑ yp ∈ v.R c, (if b = y then 1 else 0) * H y yp = ∑ yp ∈ v.R c, H b yp := by
        intro H
        rw [sum_eq_single b]
        · simp
        · intro y _ hne; simp [Ne.symm hne]
        · intro hn; exact absurd hb hn
      have a2 : ∀ H : Nat → ℂ, ∑ yp ∈ v.R c, H yp * conj (if bp = yp then 1 else 0) = H bp := by
        intro H
        rw [sum_eq_single bp]
        · simp
        · intro y _ hne; simp [Ne.symm hne]
        · intro hn; exact absurd hbp hn
      simp only [mul_assoc, a1]
      simp only [← mul_assoc, a2]
      push_cast
      simp only [mul_sum]
      have a3 : ∑ y ∈ v.R c, ∑ yp ∈ v.R c, (ε : ℂ) ^ 2 * (G c b y * dens v la φ c y yp * conj (G c bp yp)) =
          ∑ y ∈ v.R c, ∑ yp ∈ v.R c, (ε : ℂ) * G c b y * dens v la φ c y yp * ε * conj (G c bp yp) :=
        sum_congr rfl fun _ _ => sum_congr rfl fun _ _ => by ring
      have a4 : ∑ y ∈ v.R c, (ε : ℂ) * (dens v la φ c b y * conj (G c bp y)) =
          ∑ y ∈ v.R c, dens v la φ c b y * ε * conj (G c bp y) := sum_congr rfl fun _ _ => by ring
      have a5 : ∑ y ∈ v.R c, (ε : ℂ) * (G c b y * dens v la φ c y bp) =
          ∑ y ∈ v.R c, (ε : ℂ) * G c b y * dens v la φ c y bp := sum_congr rfl fun _ _ => by ring
      rw [a3, a4, a5]
      ring
    · simp only [if_neg hi]
      rw [dens_excl h hi]
      simp

/-! ### Stationary states -/

omit h in
/-- A vector as a function of all numbers. -/
def toNat {n : Nat} (p : Fin n → ℝ) : Nat → ℝ := fun i => if hi : i < n then p ⟨i, hi⟩ else 0

omit h in
theorem toNat_lin {n : Nat} (p q r : Fin n → ℝ) (ε δ : ℝ) :
    toNat (p + ε • q + δ • r) = fun i => toNat p i + ε * toNat q i + δ * toNat r i := by
  funext i
  unfold toNat
  by_cases hi : i < n
  · simp [hi]
  · simp [hi]

omit h in
/-- The equations of motion as a linear map. -/
def Mat.lin (m : Mat) (n : Nat) : (Fin n → ℝ) →ₗ[ℝ] (Fin n → ℝ) where
  toFun p := fun i => m.app (toNat p) i
  map_add' p q := by
    funext i
    unfold Mat.app
    simp only [Pi.add_apply, ← sum_add_distrib, ← mul_add]
    refine sum_congr rfl fun j _ => ?_
    unfold toNat
    split <;> simp
  map_smul' k p := by
    funext i
    unfold Mat.app
    simp only [Pi.smul_apply, smul_eq_mul, mul_sum, RingHom.id_apply]
    refine sum_congr rfl fun j _ => ?_
    unfold toNat
    split <;> simp [mul_left_comm]

/-- The positive density matrices as a set of vectors. -/
def posCone (v : View) (la : Lab) : Set (Fin v.ndm0r → ℝ) := {p | v.Positive (dens v la (toNat p))}

theorem dens_toNat (φ : Nat → ℝ) {c b bp : Nat} (hb : b ∈ v.row c) (hbp : bp ∈ v.row c) :
    dens v la (toNat (fun i : Fin v.ndm0r => φ i)) c b bp = dens v la φ c b bp :=
  dens_congr h (fun i hi => by unfold toNat; rw [dif_pos hi]) hb hbp

theorem app_toNat {m : Mat} (hc : m.cols = v.ndm0r) (φ : Nat → ℝ) (i : Nat) :
    m.app (toNat (fun i : Fin v.ndm0r => φ i)) i = m.app φ i := by
  unfold Mat.app
  refine sum_congr rfl fun j hj => ?_
  have hj' := mem_range.1 hj
  rw [hc] at hj'
  unfold toNat
  rw [dif_pos hj']

omit h in
theorem dens_add (φ ψ : Nat → ℝ) (c b bp : Nat) :
    dens v la (fun i => φ i + ψ i) c b bp = dens v la φ c b bp + dens v la ψ c b bp := by
  have := dens_lin (v := v) (la := la) φ ψ 0 1 0 c b bp
  simpa using this

omit h in
theorem dens_smul (k : ℝ) (φ : Nat → ℝ) (c b bp : Nat) :
    dens v la (fun i => k * φ i) c b bp = k * dens v la φ c b bp := by
  have := dens_lin (v := v) (la := la) 0 φ 0 k 0 c b bp
  have e : dens v la 0 c b bp = 0 := by
    unfold dens
    simp only [Pi.zero_apply, neg_zero, ite_self]
    split <;> rfl
  simpa [e] using this

omit h in
/-- `⟨x|ρ|x⟩` as a linear map. -/
def probLin (v : View) (la : Lab) (q : Nat) (x : Nat → ℂ) : (Fin v.ndm0r → ℝ) →ₗ[ℝ] ℝ where
  toFun p := v.prob (dens v la (toNat p)) q x
  map_add' p r := by
    have e : toNat (p + r) = fun i => toNat p i + toNat r i := by
      have := toNat_lin p r 0 1 0
      simpa using this
    have e2 : dens v la (toNat (p + r)) q = fun b bp => dens v la (toNat p) q b bp + dens v la (toNat r) q b bp := by
      funext b bp; rw [e, dens_add]
    rw [View.prob_eq, e2, qf_add, Complex.add_re]; rfl
  map_smul' k p := by
    have e : toNat (k • p) = fun i => k * toNat p i := by
      funext i
      unfold toNat
      split <;> simp
    have e2 : dens v la (toNat (k • p)) q = fun b bp => k * dens v la (toNat p) q b bp := by
      funext b bp; rw [e, dens_smul]
    rw [View.prob_eq, e2, qf_smul, Complex.re_ofReal_mul]; rfl

omit h in
theorem posCone_closed (v : View) (la : Lab) : IsClosed (posCone v la) := by
  have e : posCone v la = ⋂ q, ⋂ x, {p | 0 ≤ probLin v la q x p} := by
    ext p
    simp only [Set.mem_iInter, Set.mem_setOf_eq]
    rfl
  rw [e]
  refine isClosed_iInter fun q => isClosed_iInter fun x => ?_
  exact isClosed_le continuous_const (LinearMap.continuous_of_finiteDimensional _)

omit h in
theorem posCone_comb {p r : Fin v.ndm0r → ℝ} (hp : p ∈ posCone v la) (hr : r ∈ posCone v la) {s t : ℝ} (hs : 0 ≤ s)
    (ht : 0 ≤ t) : s • p + t • r ∈ posCone v la := by
  intro q x
  show 0 ≤ probLin v la q x (s • p + t • r)
  rw [map_add, map_smul, map_smul]
  exact add_nonneg (mul_nonneg hs (hp q x)) (mul_nonneg ht (hr q x))

omit h in
/-- The trace as a linear map. -/
def traceLin (v : View) : (Fin v.ndm0r → ℝ) →ₗ[ℝ] ℝ where
  toFun p := ∑ i ∈ range v.npauli, toNat p i
  map_add' p r := by
    rw [← sum_add_distrib]
    refine sum_congr rfl fun i _ => ?_
    unfold toNat
    split <;> simp
  map_smul' k p := by
    rw [RingHom.id_apply, smul_eq_mul, mul_sum]
    refine sum_congr rfl fun i _ => ?_
    unfold toNat
    split <;> simp

/-- Populations and coherences in terms of the probabilities. -/
theorem prob_single (φ : Nat → ℝ) {q b : Nat} (hb : b ∈ v.row q) :
    v.prob (dens v la φ) q (fun y => if y = b then 1 else 0) = φ (la.lab q b b) := by
  rw [View.prob_eq]
  unfold qf
  have hb' := (mem_R h).2 hb
  rw [sum_eq_single b]
  · rw [sum_eq_single b]
    · rw [dens, if_pos (h.inc_diag q b hb)]
      simp
    · intro y _ hne; simp [hne]
    · intro hn; exact absurd hb' hn
  · intro y _ hne; simp [hne]
  · intro hn; exact absurd hb' hn

theorem prob_pair (φ : Nat → ℝ) {q b bp : Nat} (hb : b ∈ v.row q) (hbp : bp ∈ v.row q) (hne : b ≠ bp) {z : ℂ}
    (hz : z * conj z = 1) :
    v.prob (dens v la φ) q (fun y => if y = b then 1 else if y = bp then z else 0) =
      φ (la.lab q b b) + φ (la.lab q bp bp) + 2 * (dens v la φ q b bp * z).re := by
  rw [View.prob_eq]
  unfold qf
  have hb' := (mem_R h).2 hb
  have hbp' := (mem_R h).2 hbp
  have two : ∀ f : Nat → ℂ, (∀ y ∈ v.R q, y ≠ b → y ≠ bp → f y = 0) → ∑ y ∈ v.R q, f y = f b + f bp := by
    intro f hf
    rw [← sum_pair hne]
    symm
    apply sum_subset
    · intro y hy
      simp only [mem_insert, mem_singleton] at hy
      rcases hy with rfl | rfl
      · exact hb'
      · exact hbp'
    · intro y hy hn
      simp only [mem_insert, mem_singleton, not_or] at hn
      exact hf y hy hn.1 hn.2
  rw [two]
  · rw [two, two]
    · have hn' : bp ≠ b := Ne.symm hne
      simp only [if_true, if_neg hn', map_one]
      have d1 : dens v la φ q b b = (φ (la.lab q b b) : ℂ) := by
        rw [dens, if_pos (h.inc_diag q b hb), if_pos rfl]; rfl
      have d2 : dens v la φ q bp bp = (φ (la.lab q bp bp) : ℂ) := by
        rw [dens, if_pos (h.inc_diag q bp hbp), if_pos rfl]; rfl
      have d3 : dens v la φ q bp b = conj (dens v la φ q b bp) := h.dens_herm φ hb hbp
      rw [d1, d2, d3]
      have e1 : conj z * (φ (la.lab q bp bp) : ℂ) * z = (φ (la.lab q bp bp) : ℂ) := by
        linear_combination (φ (la.lab q bp bp) : ℂ) * hz
      have e2 : conj z * conj (dens v la φ q b bp) * 1 = conj (dens v la φ q b bp * z) := by
        rw [map_mul]; ring
      rw [e1, e2]
      simp only [Complex.add_re, one_mul, mul_one, Complex.conj_re, Complex.ofReal_re]
      ring
    · intro y _ h1 h2; simp [h1, h2]
    · intro y _ h1 h2; simp [h1, h2]
  · intro y _ h1 h2; simp [h1, h2]

/-- The entries of a positive density matrix with trace one. -/
theorem entry_le {φ : Nat → ℝ} (hφ : v.Positive (dens v la φ)) (ht : ∑ i ∈ range v.npauli, φ i = 1) {i : Nat}
    (hi : i < v.ndm0r) : |φ i| ≤ 1 := by
  have pos : ∀ i < v.npauli, 0 ≤ φ i := by
    intro i hi
    obtain ⟨q, b, bp, hb, hbp, hin, e⟩ := h.lab_surj i (lt_of_lt_of_le hi h.np_le)
    have hbb : b = bp := by
      by_contra hne
      have := (h.lab_off q b bp hb hbp hne hin).1
      omega
    subst hbb
    have := hφ q (fun y => if y = b then 1 else 0)
    rw [prob_single h φ hb, e] at this
    exact this
  have le1 : ∀ i < v.npauli, φ i ≤ 1 := by
    intro i hi
    rw [← ht]
    exact single_le_sum (f := φ) (fun j hj => pos j (mem_range.1 hj)) (mem_range.2 hi)
  have hr := h.ndm0r
  have hle := h.np_le
  have pair : ∀ q b bp, b ∈ v.row q → bp ∈ v.row q → b ≠ bp → ∀ z : ℂ, z * conj z = 1 →
      -1 ≤ (dens v la φ q b bp * z).re := by
    intro q b bp hb hbp hne z hz
    have h1 := hφ q (fun y => if y = b then 1 else if y = bp then z else 0)
    rw [prob_pair h φ hb hbp hne hz] at h1
    have h2 := le1 _ (h.lab_diag q b hb)
    have h3 := le1 _ (h.lab_diag q bp hbp)
    linarith
  have coh : ∀ q b bp, b ∈ v.row q → bp ∈ v.row q → b ≠ bp →
      |(dens v la φ q b bp).re| ≤ 1 ∧ |(dens v la φ q b bp).im| ≤ 1 := by
    intro q b bp hb hbp hne
    have p1 := pair q b bp hb hbp hne 1 (by simp)
    have p2 := pair q b bp hb hbp hne (-1) (by simp)
    have p3 := pair q b bp hb hbp hne I (by simp)
    have p4 := pair q b bp hb hbp hne (-I) (by simp)
    simp only [mul_one, mul_neg, Complex.neg_re, Complex.mul_I_re] at p1 p2 p3 p4
    exact ⟨abs_le.2 ⟨by linarith, by linarith⟩, abs_le.2 ⟨by linarith, by linarith⟩⟩
  by_cases hp : i < v.npauli
  · exact abs_le.2 ⟨by linarith [pos i hp], le1 i hp⟩
  · by_cases hd : i < v.ndm0
    · obtain ⟨q, b, bp, hb, hbp, hin, e⟩ := h.lab_surj i hd
      have hne : b ≠ bp := by
        rintro rfl
        have := h.lab_diag q b hb
        omega
      have := (coh q b bp hb hbp hne).1
      rw [dens, if_pos hin, e] at this
      exact this
    · obtain ⟨q, b, bp, hb, hbp, hin, e⟩ := h.lab_surj (i - v.ndm0 + v.npauli) (by omega)
      have hne : b ≠ bp := by
        rintro rfl
        have := h.lab_diag q b hb
        omega
      have e2 : v.imag (la.lab q b bp) = i := by rw [e]; unfold View.imag; omega
      have := (coh q b bp hb hbp hne).2
      rw [dens, if_pos hin, if_neg hne, e2] at this
      cases hcan : la.can q b bp
      · rw [hcan] at this
        simpa using this
      · rw [hcan] at this
        exact this

theorem KeepsPos.stationary {m : Mat} (hk : KeepsPos v la m) (hnp : 0 < v.npauli) (hc : m.cols = v.ndm0r)
    (htr : ∀ φ, ∑ i ∈ range v.npauli, m.app φ i = 0) :
    ∃ φ : Nat → ℝ, (∀ i < v.ndm0r, ∑ j ∈ range v.ndm0r, m.val i j * φ j = 0) ∧ ∑ i ∈ range v.npauli, φ i = 1 ∧
      v.Positive (dens v la φ) := by
  have hr := h.ndm0r
  have hle := h.np_le
  let K : Set (Fin v.ndm0r → ℝ) := posCone v la ∩ {p | traceLin v p = 1}
  have hKc : IsCompact K := by
    apply Metric.isCompact_of_isClosed_isBounded
    · exact (posCone_closed v la).inter (isClosed_eq (LinearMap.continuous_of_finiteDimensional _) continuous_const)
    · refine (Metric.isBounded_closedBall (x := (0 : Fin v.ndm0r → ℝ)) (r := 1)).subset ?_
      rintro p ⟨h1, h2⟩
      rw [mem_closedBall_zero_iff, pi_norm_le_iff_of_nonneg zero_le_one]
      intro i
      have := entry_le h h1 h2 i.2
      unfold toNat at this
      rw [dif_pos i.2] at this
      exact this
  have hKx : Convex ℝ K := by
    rintro p ⟨hp, hp1⟩ r ⟨hr', hr1⟩ s t hs ht hst
    refine ⟨posCone_comb hp hr' hs ht, ?_⟩
    show traceLin v (s • p + t • r) = 1
    rw [map_add, map_smul, map_smul, hp1, hr1, smul_eq_mul, smul_eq_mul, mul_one, mul_one, hst]
  have hKne : K.Nonempty := by
    obtain ⟨φ, hφ⟩ := exists_dens h (fun _ b bp => if b = bp then ((1 / v.npauli : ℝ) : ℂ) else 0)
      (fun q b bp _ _ => by
        by_cases e : b = bp
        · rw [if_pos e, if_pos e.symm, Complex.conj_ofReal]
        · rw [if_neg e, if_neg (Ne.symm e), map_zero])
      (fun q b bp hb _ hi => by
        rw [if_neg]
        rintro rfl
        rw [h.inc_diag q b hb] at hi
        exact absurd hi (by decide))
    refine ⟨fun i => φ i, ?_, ?_⟩
    · show v.Positive _
      rw [positive_congr h (fun q b hb bp hbp => (dens_toNat h φ hb hbp).trans (hφ q b hb bp hbp))]
      intro q x
      rw [View.prob_eq]
      unfold qf
      have e : ∀ b ∈ v.R q, ∑ bp ∈ v.R q, conj (x b) * (if b = bp then ((1 / v.npauli : ℝ) : ℂ) else 0) * x bp =
          ((1 / v.npauli * Complex.normSq (x b) : ℝ) : ℂ) := by
        intro b hb
        rw [sum_eq_single b]
        · rw [if_pos rfl, Complex.ofReal_mul, ← Complex.mul_conj]
          ring
        · intro y _ hne; simp [Ne.symm hne]
        · intro hn; exact absurd hb hn
      rw [sum_congr rfl e, Complex.re_sum]
      refine sum_nonneg fun b _ => ?_
      rw [Complex.ofReal_re]
      exact mul_nonneg (by positivity) (Complex.normSq_nonneg _)
    · show ∑ i ∈ range v.npauli, toNat (fun i : Fin v.ndm0r => φ i) i = 1
      have e : ∀ i ∈ range v.npauli, toNat (fun i : Fin v.ndm0r => φ i) i = 1 / (v.npauli : ℝ) := by
        intro i hi
        have hi' := mem_range.1 hi
        unfold toNat
        rw [dif_pos (by omega)]
        obtain ⟨q, b, bp, hb, hbp, hin, e⟩ := h.lab_surj i (by omega)
        have hbb : b = bp := by
          by_contra hne
          have := (h.lab_off q b bp hb hbp hne hin).1
          omega
        subst hbb
        have := hφ q b hb b hb
        rw [dens, if_pos hin, if_pos rfl, if_pos rfl, e] at this
        exact congrArg Complex.re this
      rw [sum_congr rfl e, sum_const, card_range, nsmul_eq_mul]
      have : (v.npauli : ℝ) ≠ 0 := by positivity
      field_simp
  obtain ⟨p, hp, e⟩ := exists_fixed hKc hKx hKne (m.lin v.ndm0r) (fun p hp => by
    obtain ⟨ψ, hψ⟩ := hk (toNat p) hp.1
    let w : Fin v.ndm0r → ℝ := fun i => ψ i
    let c := traceLin v w
    have mem : ∀ ε : ℝ, 0 < ε → p + ε • m.lin v.ndm0r p + ε ^ 2 • w ∈ posCone v la := by
      intro ε hε
      show v.Positive _
      rw [positive_congr h (fun q b hb bp hbp => dens_congr h (φ' := fun i => toNat p i + ε * m.app (toNat p) i + ε ^ 2 * ψ i)
        (fun i hi => by
          rw [toNat_lin]
          have e1 : toNat (m.lin v.ndm0r p) i = m.app (toNat p) i := by unfold toNat; rw [dif_pos hi]; rfl
          have e2 : toNat w i = ψ i := by unfold toNat; rw [dif_pos hi]
          simp only [e1, e2]) hb hbp)]
      exact hψ ε hε
    have tr0 : traceLin v (m.lin v.ndm0r p) = 0 := by
      have := htr (toNat p)
      rw [← this]
      show ∑ i ∈ range v.npauli, toNat (m.lin v.ndm0r p) i = _
      refine sum_congr rfl fun i hi => ?_
      have hi' := mem_range.1 hi
      have hi2 : i < v.ndm0r := by omega
      show (if hi : i < v.ndm0r then m.lin v.ndm0r p ⟨i, hi⟩ else 0) = _
      rw [dif_pos hi2]
      rfl
    have tr : ∀ ε : ℝ, traceLin v (p + ε • m.lin v.ndm0r p + ε ^ 2 • w) = 1 + ε ^ 2 * c := by
      intro ε
      rw [map_add, map_add, map_smul, map_smul, tr0, show traceLin v p = 1 from hp.2]
      simp [c]
    have trpos : ∀ p ∈ posCone v la, 0 ≤ traceLin v p := by
      intro p hp
      show 0 ≤ ∑ i ∈ range v.npauli, toNat p i
      refine sum_nonneg fun i hi => ?_
      have hi' := mem_range.1 hi
      obtain ⟨q, b, bp, hb, hbp, hin, e⟩ := h.lab_surj i (by omega)
      have hbb : b = bp := by
        by_contra hne
        have := (h.lab_off q b bp hb hbp hne hin).1
        omega
      subst hbb
      have := hp q (fun y => if y = b then 1 else 0)
      rw [prob_single h _ hb, e] at this
      exact this
    have hc0 : 0 ≤ c := by
      by_contra hneg
      push Not at hneg
      have hx : 0 < 2 / -c := by
        have : 0 < -c := by linarith
        positivity
      have h1 := trpos _ (mem (Real.sqrt (2 / -c)) (Real.sqrt_pos.2 hx))
      rw [tr, Real.sq_sqrt hx.le] at h1
      have hc' : c ≠ 0 := by linarith
      have : 2 / -c * c = -2 := by field_simp
      linarith
    refine ⟨w, c, fun ε hε => ?_⟩
    have hpos : 0 < 1 + ε ^ 2 * c := by positivity
    refine ⟨(1 + ε ^ 2 * c)⁻¹ • (p + ε • m.lin v.ndm0r p + ε ^ 2 • w), ⟨?_, ?_⟩, ?_⟩
    · have := posCone_comb (mem ε hε) (mem ε hε) (s := (1 + ε ^ 2 * c)⁻¹) (t := 0) (by positivity) le_rfl
      simpa using this
    · show traceLin v _ = 1
      rw [map_smul, tr, smul_eq_mul, inv_mul_cancel₀ hpos.ne']
    · rw [smul_smul, mul_inv_cancel₀ hpos.ne', one_smul])
  refine ⟨toNat p, fun i hi => ?_, hp.2, hp.1⟩
  have h1 : m.app (toNat p) i = 0 := congrFun e ⟨i, hi⟩
  unfold Mat.app at h1
  have h2 : range m.cols = range v.ndm0r := by rw [hc]
  rw [h2] at h1
  exact h1

/-! ### Solutions of the equations of motion -/

theorem KeepsPos.flow {m : Mat} (hk : KeepsPos v la m) (hc : m.cols = v.ndm0r) {φ : ℝ → Nat → ℝ}
    (hφ : ∀ t, 0 ≤ t → ∀ i < v.ndm0r, HasDerivWithinAt (fun s => φ s i) (∑ j ∈ range v.ndm0r, m.val i j * φ t j) (Set.Ici 0) t)
    (h0 : v.Positive (dens v la (φ 0))) {t : ℝ} (ht : 0 ≤ t) : v.Positive (dens v la (φ t)) := by
  have key := stays (posCone_closed v la) (LinearMap.toContinuousLinearMap (m.lin v.ndm0r)) (fun p hp => by
    obtain ⟨ψ, hψ⟩ := hk (toNat p) hp
    refine ⟨fun i => ψ i, fun ε hε => ?_⟩
    show v.Positive _
    rw [positive_congr h (fun q b hb bp hbp => dens_congr h (φ' := fun i => toNat p i + ε * m.app (toNat p) i + ε ^ 2 * ψ i)
      (fun i hi => by
        rw [toNat_lin]
        have e1 : toNat (LinearMap.toContinuousLinearMap (m.lin v.ndm0r) p) i = m.app (toNat p) i := by
          unfold toNat; rw [dif_pos hi]; rfl
        have e2 : toNat (fun i : Fin v.ndm0r => ψ i) i = ψ i := by unfold toNat; rw [dif_pos hi]
        simp only [e1, e2]) hb hbp)]
    exact hψ ε hε) (y := fun t i => φ t i) (fun t ht => by
      rw [hasDerivWithinAt_pi]
      intro i
      have e : LinearMap.toContinuousLinearMap (m.lin v.ndm0r) (fun i : Fin v.ndm0r => φ t i) i =
          ∑ j ∈ range v.ndm0r, m.val i j * φ t j := by
        show m.app (toNat (fun i : Fin v.ndm0r => φ t i)) i = _
        rw [app_toNat h hc]
        unfold Mat.app
        rw [hc]
      rw [e]
      exact hφ t ht i i.2) (by
      show v.Positive _
      rw [positive_congr h (fun q b hb bp hbp => dens_toNat h (φ 0) hb hbp)]
      exact h0) ht
  rw [← positive_congr h (fun q b hb bp hbp => dens_toNat h (φ t) hb hbp)]
  exact key

end

end

end Verif
