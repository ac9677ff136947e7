import Verif.Props.Basis
import Verif.Props.ElPh

/-!
C71: phonons coupled to the many-body eigenstates diagonally.
-/

namespace Verif

noncomputable section

open Finset
open Complex (I)
open scoped ComplexConjugate

variable {v e : View} {la : Lab} {el : Nat → Nat → Nat → Option Nat}

/-- The phonons do not couple different states of one charge. -/
def DiagV (v : View) (V : Nat → Nat → Nat → ℂ) : Prop :=
  ∀ c b a, b ∈ v.row c → a ∈ v.row c → b ≠ a → ∀ l, V l b a = 0

/-- The strength of the noise of bath `l` at frequency zero, which the program replaces by `eps_elph` times temperature. -/
def PhBaths.noise (B : PhBaths) (l : Nat) : ℝ :=
  if B.lo l < B.eps ∧ B.eps < B.omp l / B.T l then Real.pi * B.dos l (B.T l * B.eps) * (1 + 2 * bose B.eps) else 0

theorem PhBaths.noise_nonneg (B : PhBaths) (l : Nat) (heps : 0 ≤ B.eps) (hdos : ∀ x, 0 ≤ B.dos l x) : 0 ≤ B.noise l := by
  unfold PhBaths.noise
  split
  · rename_i hw
    have := bose_nonneg (lt_of_le_of_lt (B.lo_nonneg l heps) hw.1)
    have := Real.pi_pos
    have := hdos (B.T l * B.eps)
    positivity
  · exact le_rfl

/-- A sum over pairs in which only one element is left. -/
theorem sum_one {R : Finset Nat} {F : Nat → Nat → ℂ} {b bp : Nat} (hb : b ∈ R) (hbp : bp ∈ R)
    (h : ∀ a ∈ R, ∀ ap ∈ R, a ≠ b ∨ ap ≠ bp → F a ap = 0) : ∑ a ∈ R, ∑ ap ∈ R, F a ap = F b bp := by
  rw [sum_eq_single b, sum_eq_single bp]
  · intro ap hap hne
    exact h b hb ap hap (.inr hne)
  · exact fun hn => absurd hbp hn
  · intro a ha hne
    exact sum_eq_zero fun ap hap => h a ha ap hap (.inl hne)
  · exact fun hn => absurd hb hn

/-- The factor of the only term left in 1vN and Redfield. -/
def CohPh.D (nb : Nat) (V : Nat → Nat → Nat → ℂ) (W : Nat → Nat → Nat → Nat → ℂ × ℂ) (σ : Nat → Nat → Nat)
    (c b bp : Nat) : ℂ :=
  ∑ l ∈ range nb, (((V l b b * conj (V l bp bp)).re : ℂ) *
      (conj (W l c bp (σ b bp)).1 - (W l c b (σ bp b)).1 + (W l c (σ b bp) bp).2 - conj (W l c (σ bp b) b).2) +
    (Complex.normSq (V l b b) : ℂ) * (conj (W l c (σ bp b) b).2 + (W l c b (σ bp b)).1) -
    (Complex.normSq (V l bp bp) : ℂ) * ((W l c (σ b bp) bp).2 + conj (W l c bp (σ b bp)).1))

theorem CohPh.S_diag (h : VOk v la) (nb : Nat) {V : Nat → Nat → Nat → ℂ} (hV : DiagV v V)
    (W : Nat → Nat → Nat → Nat → ℂ × ℂ) (σ : Nat → Nat → Nat) (ρ : Nat → Nat → Nat → ℂ) {c b bp : Nat}
    (hb : b ∈ v.R c) (hbp : bp ∈ v.R c) :
    CohPh.S v nb V W σ ρ c b bp = CohPh.D nb V W σ c b bp * ρ c b bp := by
  have V0 : ∀ {x y}, x ∈ v.R c → y ∈ v.R c → x ≠ y → ∀ l, V l x y = 0 :=
    fun hx hy hne l => hV c _ _ ((mem_R h).1 hx) ((mem_R h).1 hy) hne l
  have g0 : ∀ l, ∀ a ∈ v.R c, ∀ ap ∈ v.R c, a ≠ b ∨ ap ≠ bp → CohPh.gam V l b a bp ap = 0 := by
    intro l a ha ap hap hne
    unfold CohPh.gam
    rcases hne with hne | hne
    · rw [V0 hb ha (Ne.symm hne), V0 ha hb hne]; simp
    · rw [V0 hbp hap (Ne.symm hne), V0 hap hbp hne]; simp
  have gb : ∀ l, ∀ a ∈ v.R c, ∀ y ∈ v.R c, a ≠ b ∨ y ≠ b → CohPh.gam V l b a y a = 0 := by
    intro l a ha y hy hne
    unfold CohPh.gam
    by_cases hab : a = b
    · subst hab
      have hne : y ≠ a := by tauto
      rw [V0 hy ha hne, V0 ha hy (Ne.symm hne)]; simp
    · rw [V0 hb ha (Ne.symm hab), V0 ha hb hab]; simp
  have gb' : ∀ l, ∀ a ∈ v.R c, ∀ y ∈ v.R c, a ≠ bp ∨ y ≠ bp → CohPh.gam' V l a y bp = 0 := by
    intro l a ha y hy hne
    unfold CohPh.gam'
    by_cases hab : a = bp
    · subst hab
      have hne : y ≠ a := by tauto
      rw [V0 hy ha hne, V0 ha hy (Ne.symm hne)]; simp
    · rw [V0 hbp ha (Ne.symm hab), V0 ha hbp hab]; simp
  have e1 : ∀ l, CohPh.gam V l b b bp bp = ((V l b b * conj (V l bp bp)).re : ℂ) := by
    intro l
    unfold CohPh.gam
    apply Complex.ext <;> simp
    · ring
    · right; ring
  have e2 : ∀ l, CohPh.gam V l b b b b = (Complex.normSq (V l b b) : ℂ) := by
    intro l
    unfold CohPh.gam
    rw [Complex.mul_conj, ← Complex.normSq_eq_conj_mul_self]
    ring
  have e3 : ∀ l, CohPh.gam' V l bp bp bp = (Complex.normSq (V l bp bp) : ℂ) := by
    intro l
    unfold CohPh.gam'
    rw [Complex.mul_conj, ← Complex.normSq_eq_conj_mul_self]
    ring
  unfold CohPh.S
  rw [sum_one hb hbp (F := fun a ap => CohPh.A nb V W σ c b bp a ap * ρ c a ap),
    sum_one hb hbp (F := fun a ap => CohPh.C nb V W σ c b bp a ap * ρ c a ap), sum_add_distrib,
    sum_eq_single (f := fun y => CohPh.L v nb V W c b y (σ bp y) * ρ c y bp) b,
    sum_eq_single (f := fun y => CohPh.R v nb V W c bp y (σ b y) * ρ c b y) bp]
  · rw [← add_mul, ← add_mul, ← add_mul]
    congr 1
    unfold CohPh.A CohPh.C CohPh.L CohPh.R CohPh.D
    rw [sum_eq_single (s := v.R c) (f := fun a => ∑ l ∈ range nb, CohPh.gam V l b a b a * conj (W l c (σ bp b) a).2) b,
      sum_eq_single (s := v.R c) (f := fun a => ∑ l ∈ range nb, CohPh.gam V l b a b a * (W l c a (σ bp b)).1) b,
      sum_eq_single (s := v.R c) (f := fun a => ∑ l ∈ range nb, -CohPh.gam' V l a bp bp * (W l c (σ b bp) a).2) bp,
      sum_eq_single (s := v.R c) (f := fun a => ∑ l ∈ range nb, -CohPh.gam' V l a bp bp * conj (W l c a (σ b bp)).1) bp]
    · simp only [← sum_add_distrib]
      refine sum_congr rfl fun l _ => ?_
      rw [e1, e2, e3]
      ring
    · exact fun a ha hne => sum_eq_zero fun l _ => by rw [gb' l a ha bp hbp (.inl hne)]; ring
    · exact fun hn => absurd hbp hn
    · exact fun a ha hne => sum_eq_zero fun l _ => by rw [gb' l a ha bp hbp (.inl hne)]; ring
    · exact fun hn => absurd hbp hn
    · exact fun a ha hne => sum_eq_zero fun l _ => by rw [gb l a ha b hb (.inl hne)]; ring
    · exact fun hn => absurd hb hn
    · exact fun a ha hne => sum_eq_zero fun l _ => by rw [gb l a ha b hb (.inl hne)]; ring
    · exact fun hn => absurd hb hn
  · intro y hy hne
    unfold CohPh.R
    rw [sum_eq_zero fun a ha => sum_eq_zero fun l _ => by rw [gb' l a ha y hy (.inr hne)]; ring,
      sum_eq_zero fun a ha => sum_eq_zero fun l _ => by rw [gb' l a ha y hy (.inr hne)]; ring]
    ring
  · exact fun hn => absurd hbp hn
  · intro y hy hne
    unfold CohPh.L
    rw [sum_eq_zero fun a ha => sum_eq_zero fun l _ => by rw [gb l a ha y hy (.inr hne)]; ring,
      sum_eq_zero fun a ha => sum_eq_zero fun l _ => by rw [gb l a ha y hy (.inr hne)]; ring]
    ring
  · exact fun hn => absurd hb hn
  · intro a ha ap hap hne
    unfold CohPh.C
    rw [sum_eq_zero fun l _ => by rw [g0 l a ha ap hap hne]; ring, zero_mul]
  · intro a ha ap hap hne
    unfold CohPh.A
    rw [sum_eq_zero fun l _ => by rw [g0 l a ha ap hap hne]; ring, zero_mul]

/-- The same for Lindblad. -/
theorem LindbladPh.S_diag (h : VOk v la) (nb : Nat) (E : Nat → ℝ) (B : PhBaths) (hV : DiagV v B.V) (heps : 0 ≤ B.eps)
    (hdos : ∀ l x, 0 ≤ B.dos l x) (ρ : Nat → Nat → Nat → ℂ) {c b bp : Nat} (hb : b ∈ v.R c) (hbp : bp ∈ v.R c) :
    LindbladPh.S v nb (LindbladPh.jumpAmp E B) ρ c b bp =
      -I * ((∑ l ∈ range nb, Complex.normSq (B.V l b b - B.V l bp bp) * (B.rate 0 l / 2) : ℝ) : ℂ) * ρ c b bp := by
  have t0 : ∀ {x y}, x ∈ v.R c → y ∈ v.R c → x ≠ y → ∀ l, LindbladPh.jumpAmp E B l x y = (0, 0) := by
    intro x y hx hy hne l
    unfold LindbladPh.jumpAmp
    rw [if_neg hne, hV c x y ((mem_R h).1 hx) ((mem_R h).1 hy) hne,
      hV c y x ((mem_R h).1 hy) ((mem_R h).1 hx) (Ne.symm hne)]
    simp
  have hr : ∀ l, ((Real.sqrt (0.5 * B.rate 0 l) : ℝ) : ℂ) * (Real.sqrt (0.5 * B.rate 0 l) : ℝ) = ((B.rate 0 l / 2 : ℝ) : ℂ) := by
    intro l
    rw [← Complex.ofReal_mul, Real.mul_self_sqrt (by have := c56_rate_nonneg B 0 l heps (hdos l); positivity)]
    norm_num
    ring
  have hK : ∀ {x y}, x ∈ v.R c → y ∈ v.R c → LindbladPh.K v nb (LindbladPh.jumpAmp E B) c x y =
      if x = y then -I * ((∑ l ∈ range nb, Complex.normSq (B.V l x x) * (B.rate 0 l / 2) : ℝ) : ℂ) else 0 := by
    intro x y hx hy
    unfold LindbladPh.K
    rw [sum_eq_single x]
    · by_cases hne : x = y
      · subst hne
        rw [if_pos rfl, neg_mul, ← mul_neg]
        congr 1
        push_cast
        rw [← sum_neg_distrib]
        refine sum_congr rfl fun l _ => ?_
        have e : (B.rate 0 l : ℂ) / 2 = ((B.rate 0 l / 2 : ℝ) : ℂ) := by push_cast; rfl
        rw [e, ← hr l]
        unfold LindbladPh.jumpAmp
        rw [if_pos rfl, Complex.normSq_eq_conj_mul_self]
        simp only [map_mul, Complex.conj_ofReal, Complex.conj_conj]
        ring
      · rw [if_neg hne]
        rw [sum_eq_zero, mul_zero]
        intro l _
        rw [t0 hx hy hne]
        simp
    · intro a ha hne
      refine sum_eq_zero fun l _ => ?_
      rw [t0 ha hx hne]
      simp
    · exact fun hn => absurd hx hn
  have hJ : ∀ a ∈ v.R c, ∀ ap ∈ v.R c, a ≠ b ∨ ap ≠ bp → LindbladPh.J nb (LindbladPh.jumpAmp E B) b bp a ap = 0 := by
    intro a ha ap hap hne
    unfold LindbladPh.J
    rw [sum_eq_zero, mul_zero]
    intro l _
    rcases hne with hne | hne
    · rw [t0 hb ha (Ne.symm hne)]; simp
    · rw [t0 hbp hap (Ne.symm hne)]; simp
  unfold LindbladPh.S
  rw [sum_one hb hbp (F := fun a ap => LindbladPh.J nb (LindbladPh.jumpAmp E B) b bp a ap * ρ c a ap)
    (fun a ha ap hap hne => by rw [hJ a ha ap hap hne, zero_mul]), sum_add_distrib,
    sum_eq_single (f := fun y => LindbladPh.K v nb (LindbladPh.jumpAmp E B) c b y * ρ c y bp) b
      (fun y hy hne => by rw [hK hb hy, if_neg (Ne.symm hne), zero_mul]) (fun hn => absurd hb hn),
    sum_eq_single (f := fun y => LindbladPh.K v nb (LindbladPh.jumpAmp E B) c y bp * ρ c b y) bp
      (fun y hy hne => by rw [hK hy hbp, if_neg hne, zero_mul]) (fun hn => absurd hbp hn),
    hK hb hb, hK hbp hbp, if_pos rfl, if_pos rfl, ← add_mul, ← add_mul]
  congr 1
  unfold LindbladPh.J
  rw [neg_mul, neg_mul, neg_mul, ← mul_neg, ← mul_neg, ← mul_neg, ← mul_add, ← mul_add]
  congr 1
  push_cast
  rw [← sum_neg_distrib, ← sum_neg_distrib, ← sum_neg_distrib, ← sum_add_distrib, ← sum_add_distrib]
  refine sum_congr rfl fun l _ => ?_
  have e : (B.rate 0 l : ℂ) / 2 = ((B.rate 0 l / 2 : ℝ) : ℂ) := by push_cast; rfl
  rw [e, ← hr l]
  unfold LindbladPh.jumpAmp
  rw [if_pos rfl, if_pos rfl, Complex.normSq_eq_conj_mul_self, Complex.normSq_eq_conj_mul_self,
    Complex.normSq_eq_conj_mul_self]
  simp only [map_mul, map_sub, Complex.conj_ofReal, Complex.conj_conj]
  ring

/-- What two kernels differ by, as derivative of the density matrix. -/
theorem dens_diff (h : VOk v la) {m0 m : Mat} {E : Nat → ℝ} {S0 S1 : (Nat → ℝ) → Nat → Nat → Nat → ℂ}
    (rows0 : ∀ φ c b bp, (b, bp) ∈ combsR2 (v.row c) → la.inc c b bp = true →
        m0.app φ (la.lab c b bp)
          = (((E b - E bp : ℝ) : ℂ) * dens v la φ c b bp + S0 φ c b bp).im ∧
        (b ≠ bp → m0.app φ (v.imag (la.lab c b bp))
          = -(((E b - E bp : ℝ) : ℂ) * dens v la φ c b bp + S0 φ c b bp).re))
    (rows : ∀ φ c b bp, (b, bp) ∈ combsR2 (v.row c) → la.inc c b bp = true →
        m.app φ (la.lab c b bp)
          = (((E b - E bp : ℝ) : ℂ) * dens v la φ c b bp + (S0 φ c b bp + S1 φ c b bp)).im ∧
        (b ≠ bp → m.app φ (v.imag (la.lab c b bp))
          = -(((E b - E bp : ℝ) : ℂ) * dens v la φ c b bp + (S0 φ c b bp + S1 φ c b bp)).re))
    {φ : Nat → ℝ} {c : Nat} (anti : ∀ b bp, b ∈ v.row c → bp ∈ v.row c → S1 φ c bp b = -conj (S1 φ c b bp))
    {b bp : Nat} (hb : b ∈ v.row c) (hbp : bp ∈ v.row c) :
    dens v la (m.app φ) c b bp - dens v la (m0.app φ) c b bp = if la.inc c b bp then -I * S1 φ c b bp else 0 := by
  have can : ∀ b bp, (b, bp) ∈ combs2 (v.row c) → dens v la (m.app φ) c b bp - dens v la (m0.app φ) c b bp =
      if la.inc c b bp then -I * S1 φ c b bp else 0 := by
    intro b bp hm
    have hne : b ≠ bp := combs2_ne (h.nodup c) hm
    by_cases hi : la.inc c b bp = true
    · obtain ⟨r1, r2⟩ := rows φ c b bp (combsR2_iff.2 (Or.inl hm)) hi
      obtain ⟨q1, q2⟩ := rows0 φ c b bp (combsR2_iff.2 (Or.inl hm)) hi
      have d : ∀ x : Nat → ℝ, dens v la x c b bp = ⟨x (la.lab c b bp), x (v.imag (la.lab c b bp))⟩ := by
        intro x
        rw [dens, if_pos hi, if_neg hne, if_pos (h.can_ord c b bp hm hi)]
      rw [if_pos hi, d (m.app φ), d (m0.app φ), r1, r2 hne, q1, q2 hne]
      apply Complex.ext <;> simp <;> ring
    · rw [if_neg hi, dens, if_neg hi, dens, if_neg hi, sub_zero]
  by_cases e : b = bp
  · subst e
    obtain ⟨r1, _⟩ := rows φ c b b (combsR2_iff.2 (Or.inr ⟨rfl, hb⟩)) (h.inc_diag c b hb)
    obtain ⟨q1, _⟩ := rows0 φ c b b (combsR2_iff.2 (Or.inr ⟨rfl, hb⟩)) (h.inc_diag c b hb)
    rw [dens, if_pos (h.inc_diag c b hb), if_pos rfl, dens, if_pos (h.inc_diag c b hb), if_pos rfl,
      if_pos (h.inc_diag c b hb), r1, q1]
    have := congrArg Complex.re (anti b b hb hb)
    simp only [Complex.neg_re, Complex.conj_re] at this
    apply Complex.ext <;> simp
    linarith
  · rcases combs2_complete hb hbp e with hm | hm
    · exact can b bp hm
    · rw [h.dens_herm (m.app φ) hbp hb, h.dens_herm (m0.app φ) hbp hb, ← map_sub, can bp b hm, h.inc_symm c b bp hb hbp]
      split
      · rw [anti bp b hbp hb]
        simp only [map_mul, map_neg, Complex.conj_I]
        ring
      · simp

theorem phW_value (hp : PhOk v e la el) {nb : Nat} {E : Nat → ℝ} {B : PhBaths}
    {quad : (ℝ → ℝ) → ℝ → ℝ → ℝ → ℝ} {itype : Int} {w : Nat → Nat → ℂ × ℂ}
    (hw : ∀ c b a l, b ∈ v.row c → a ∈ v.row c →
      l < nb → ∀ k, el c b a = some k → w l k = VN1Ph.value E B quad itype l b a)
    {c b a l : Nat} (hb : b ∈ v.row c) (ha : a ∈ v.row c) (hi : la.inc c b a = true) (hl : l < nb) :
    phW el w l c b a = VN1Ph.value E B quad itype l b a := by
  have hs : (el c b a).isSome = true := by
    rw [← hp.inc c b b a hb hb ha hi]
    exact hp.diag c b hb
  obtain ⟨k, hk⟩ := Option.isSome_iff_exists.1 hs
  unfold phW
  rw [hk]
  exact hw c b a l hb ha hl k hk

/-- The real part of the phonon amplitude of bath `l` at frequency zero (zero without principal parts). -/
def PhBaths.lamb (B : PhBaths) (quad : (ℝ → ℝ) → ℝ → ℝ → ℝ → ℝ) (itype : Int) (l : Nat) : ℝ :=
  (B.func1vN quad itype 0 l).1.re + (B.func1vN quad itype 0 l).2.re

theorem PhBaths.lamb_two (B : PhBaths) (quad : (ℝ → ℝ) → ℝ → ℝ → ℝ → ℝ) (l : Nat) : B.lamb quad 2 l = 0 := by
  have hne : ¬ ((2 : Int) = 0) := by decide
  unfold PhBaths.lamb PhBaths.func1vN
  simp only [hne, if_false, if_true]
  split <;> simp

theorem PhBaths.noise_im (B : PhBaths) (quad : (ℝ → ℝ) → ℝ → ℝ → ℝ → ℝ) {itype : Int} (hi : itype = 0 ∨ itype = 2)
    (heps : 0 ≤ B.eps) (l : Nat) :
    (B.func1vN quad itype 0 l).2.im - (B.func1vN quad itype 0 l).1.im = B.noise l := by
  have ha : B.alpha 0 l = B.eps := by
    unfold PhBaths.alpha; simp [heps]
  rw [(B.func1vN_im quad hi 0 l).1, (B.func1vN_im quad hi 0 l).2, ha]
  unfold PhBaths.noise
  split <;> ring

/-- The factor in terms of the amplitudes, if they do not depend on the pair of states. -/
theorem CohPh.D_eq {nb : Nat} {V : Nat → Nat → Nat → ℂ} {W : Nat → Nat → Nat → Nat → ℂ × ℂ} {σ : Nat → Nat → Nat}
    {c b bp : Nat} {z : Nat → ℂ × ℂ} (h1 : ∀ l < nb, W l c bp (σ b bp) = z l) (h2 : ∀ l < nb, W l c b (σ bp b) = z l)
    (h3 : ∀ l < nb, W l c (σ b bp) bp = z l) (h4 : ∀ l < nb, W l c (σ bp b) b = z l) :
    CohPh.D nb V W σ c b bp =
      ((∑ l ∈ range nb, (Complex.normSq (V l b b) - Complex.normSq (V l bp bp)) * ((z l).1.re + (z l).2.re) : ℝ) : ℂ) -
      I * ((∑ l ∈ range nb, Complex.normSq (V l b b - V l bp bp) * ((z l).2.im - (z l).1.im) : ℝ) : ℂ) := by
  unfold CohPh.D
  push_cast
  rw [mul_sum, ← sum_sub_distrib]
  refine sum_congr rfl fun l hl => ?_
  have hl := mem_range.1 hl
  rw [h1 l hl, h2 l hl, h3 l hl, h4 l hl]
  apply Complex.ext <;> simp [Complex.normSq_apply] <;> ring

/-- **C71**, Redfield. The derivative of the density matrix changes by a shift of the frequency and a damping of each
element. Populations stay as they are. -/
theorem c71_redfield (h : VOk v la) (hp : PhOk v e la el) (symq : Bool) (nb : Nat) (E : Nat → ℝ) (B : PhBaths)
    (hV : DiagV v B.V) (heps : 0 ≤ B.eps) (quad : (ℝ → ℝ) → ℝ → ℝ → ℝ → ℝ) (itype : Int) (hi : itype = 0 ∨ itype = 2)
    (T : Nat → Nat → Nat → ℂ) (f : Nat → Nat → Amp) :
    ∃ w r0 r, VN1Ph.genFct e nb E B quad itype = .ok w ∧
      Redfield.kernel v symq E T f = .ok r0 ∧ RedfieldPh.kernel v e nb symq E T f B.V w = .ok r ∧
      ∀ φ c b bp, b ∈ v.row c → bp ∈ v.row c →
        dens v la (r.app φ) c b bp - dens v la (r0.app φ) c b bp =
          -(((∑ l ∈ range nb, Complex.normSq (B.V l b b - B.V l bp bp) * (B.noise l / 2) : ℝ) : ℂ) +
            I * ((∑ l ∈ range nb, (Complex.normSq (B.V l b b) - Complex.normSq (B.V l bp bp)) *
              B.lamb quad itype l : ℝ) : ℂ)) * dens v la φ c b bp := by
  obtain ⟨w, gw, hw⟩ := VN1Ph.genFct_ok h hp nb E B quad itype
  obtain ⟨r0, gr0, hr0, _, rowsr0⟩ := assemble_rows h symq E (Redfield.coup v T f) _
    (fun c b bp hb hbp hi => Redfield.coup_ok h T f hb hbp hi)
  obtain ⟨r, gr, hrc, _, rowsr⟩ := assemble_rows h symq E (RedfieldPh.coup v e nb T f B.V w) _
    (fun c b bp hb hbp hi => RedfieldPh.coup_ok h hp nb T f B.V w hb hbp hi)
  refine ⟨w, r0, r, gw, gr0, gr, ?_⟩
  have hD : ∀ c b bp, b ∈ v.row c → bp ∈ v.row c → CohPh.D nb B.V (phW el w) (fun _ y => y) c b bp =
      ((∑ l ∈ range nb, (Complex.normSq (B.V l b b) - Complex.normSq (B.V l bp bp)) * B.lamb quad itype l : ℝ) : ℂ) -
      I * ((∑ l ∈ range nb, Complex.normSq (B.V l b b - B.V l bp bp) * (B.noise l / 2) : ℝ) : ℂ) := by
    intro c b bp hb hbp
    have hz : ∀ b, b ∈ v.row c → ∀ l < nb, phW el w l c b b = VN1Ph.diagAmp (B.func1vN quad itype 0 l) := by
      intro b hb l hl
      rw [phW_value hp hw hb hb (h.inc_diag c b hb) hl]
      unfold VN1Ph.value
      rw [if_pos rfl]
    rw [CohPh.D_eq (z := fun l => VN1Ph.diagAmp (B.func1vN quad itype 0 l)) (hz bp hbp) (hz b hb) (hz bp hbp) (hz b hb)]
    refine congrArg₂ (fun x y : ℝ => (x : ℂ) - I * (y : ℂ)) ?_ ?_
    · refine sum_congr rfl fun l _ => ?_
      unfold PhBaths.lamb VN1Ph.diagAmp
      simp
    · refine sum_congr rfl fun l _ => ?_
      rw [← B.noise_im quad hi heps l]
      unfold VN1Ph.diagAmp
      congr 1
      norm_num
      ring
  intro φ c b bp hb hbp
  have hS := fun b bp (hb : b ∈ v.row c) (hbp : bp ∈ v.row c) =>
    CohPh.S_diag h nb hV (phW el w) (fun _ y => y) (dens v la φ) ((mem_R h).2 hb) ((mem_R h).2 hbp)
  rw [dens_diff h rowsr0 rowsr ?_ hb hbp]
  · by_cases hinc : la.inc c b bp = true
    · rw [if_pos hinc, hS b bp hb hbp, hD c b bp hb hbp]
      linear_combination (∑ l ∈ range nb, Complex.normSq (B.V l b b - B.V l bp bp) * (B.noise l / 2) : ℝ) *
        dens v la φ c b bp * Complex.I_mul_I
    · rw [if_neg hinc, dens_excl h hinc, mul_zero]
  · intro b bp hb hbp
    rw [hS b bp hb hbp, hS bp b hbp hb, hD c b bp hb hbp, hD c bp b hbp hb, h.dens_herm φ hb hbp]
    have e1 : ∀ l, Complex.normSq (B.V l bp bp - B.V l b b) = Complex.normSq (B.V l b b - B.V l bp bp) := by
      intro l; rw [← Complex.normSq_neg, neg_sub]
    have e2 : (∑ l ∈ range nb, (Complex.normSq (B.V l bp bp) - Complex.normSq (B.V l b b)) * B.lamb quad itype l : ℝ) =
        -∑ l ∈ range nb, (Complex.normSq (B.V l b b) - Complex.normSq (B.V l bp bp)) * B.lamb quad itype l := by
      rw [← sum_neg_distrib]
      exact sum_congr rfl fun l _ => by ring
    simp only [e1]
    rw [e2]
    simp only [map_mul, map_sub, Complex.conj_ofReal, Complex.conj_I, Complex.ofReal_neg]
    ring

/-- **C71**, Lindblad. -/
theorem c71_lindblad (h : VOk v la) (symq : Bool) (nb : Nat) (E : Nat → ℝ) (B : PhBaths)
    (hV : DiagV v B.V) (heps : 0 ≤ B.eps) (hdos : ∀ l x, 0 ≤ B.dos l x) (te : Nat → Nat → Nat → ℂ) :
    ∃ l0 l, Lindblad.kernel v symq E te = .ok l0 ∧
      LindbladPh.kernel v nb symq E te (LindbladPh.jumpAmp E B) = .ok l ∧
      ∀ φ c b bp, b ∈ v.row c → bp ∈ v.row c →
        dens v la (l.app φ) c b bp - dens v la (l0.app φ) c b bp =
          -((∑ l ∈ range nb, Complex.normSq (B.V l b b - B.V l bp bp) * (B.rate 0 l / 2) : ℝ) : ℂ) *
            dens v la φ c b bp := by
  obtain ⟨l0, gl0, _, _, rowsl0⟩ := assemble_rows h symq E (Lindblad.coup v te) _
    (fun c b bp hb hbp hi => Lindblad.coup_ok h te hb hbp hi)
  obtain ⟨l, gl, _, _, rowsl⟩ := assemble_rows h symq E
    (LindbladPh.coup v nb te (LindbladPh.jumpAmp E B)) _
    (fun c b bp hb hbp hi => LindbladPh.coup_ok h nb te (LindbladPh.jumpAmp E B) hb hbp hi)
  refine ⟨l0, l, gl0, gl, ?_⟩
  intro φ c b bp hb hbp
  have hS := fun b bp (hb : b ∈ v.row c) (hbp : bp ∈ v.row c) =>
    LindbladPh.S_diag h nb E B hV heps hdos (dens v la φ) ((mem_R h).2 hb) ((mem_R h).2 hbp)
  rw [dens_diff h rowsl0 rowsl ?_ hb hbp]
  · by_cases hinc : la.inc c b bp = true
    · rw [if_pos hinc, hS b bp hb hbp]
      linear_combination (∑ l ∈ range nb, Complex.normSq (B.V l b b - B.V l bp bp) * (B.rate 0 l / 2) : ℝ) *
        dens v la φ c b bp * Complex.I_mul_I
    · rw [if_neg hinc, dens_excl h hinc, mul_zero]
  · intro b bp hb hbp
    rw [hS b bp hb hbp, hS bp b hbp hb, h.dens_herm φ hb hbp]
    have e1 : ∀ l, Complex.normSq (B.V l bp bp - B.V l b b) = Complex.normSq (B.V l b b - B.V l bp bp) := by
      intro l; rw [← Complex.normSq_neg, neg_sub]
    simp only [e1, map_mul, map_neg, Complex.conj_ofReal, Complex.conj_I]
    ring

/-- **C71**, Pauli: nothing changes. -/
theorem c71_pauli (h : VOk v la) (hp : PhOk v e la el) (symq : Bool) (nb : Nat) (E : Nat → ℝ) (B : PhBaths)
    (hV : DiagV v B.V) (fe : Nat → Nat → ℝ × ℝ) :
    ∃ fp p0 p, PauliPh.genFct e nb E B = .ok fp ∧ Pauli.kernel v symq fe = .ok p0 ∧
      PauliPh.kernel v e nb symq fe fp = .ok p ∧ ∀ φ i, i < v.npauli → p.app φ i = p0.app φ i := by
  obtain ⟨fp, p0, p, gf, gp0, gp, hp0, hpc, rowsP⟩ := PauliPh.rows_total h hp symq nb E B fe
  refine ⟨fp, p0, p, gf, gp0, gp, fun φ i hi => ?_⟩
  obtain ⟨c, b, bp, hb, hbp, hin, hl⟩ := h.lab_surj i (lt_of_lt_of_le hi h.np_le)
  have hbb : b = bp := by
    by_contra hne
    have := (h.lab_off c b bp hb hbp hne hin).1
    omega
  subst hbb hl
  rw [rowsP φ c b hb, sum_eq_zero, add_zero]
  intro a ha
  by_cases e : b = a
  · subst e; ring
  · have ha' := (mem_R h).1 ha
    have t : ∀ x y, x ∈ v.row c → y ∈ v.row c → x ≠ y → B.total el nb E c x y = 0 := by
      intro x y hx hy hne
      unfold PhBaths.total
      split
      · refine sum_eq_zero fun l _ => ?_
        unfold PhBaths.x
        rw [hV c x y hx hy hne, hV c y x hy hx (Ne.symm hne)]
        simp
      · rfl
    rw [t b a hb ha' e, t a b ha' hb (Ne.symm e)]
    ring

/-- The derivative of the density matrix in 1vN. -/
theorem VN1Ph.dens_diag (h : VOk v la) (hp : PhOk v e la el) (symq : Bool) (nb : Nat) (E : Nat → ℝ) (B : PhBaths)
    (hV : DiagV v B.V) (quad : (ℝ → ℝ) → ℝ → ℝ → ℝ → ℝ) (itype : Int)
    (T : Nat → Nat → Nat → ℂ) (f : Nat → Nat → Amp) :
    ∃ w n0 n, VN1Ph.genFct e nb E B quad itype = .ok w ∧
      VN1.kernel v symq E T f = .ok n0 ∧ VN1Ph.kernel v e nb symq E T f B.V w = .ok n ∧
      (∀ c b a l, b ∈ v.row c → a ∈ v.row c → la.inc c b a = true → l < nb →
        phW el w l c b a = VN1Ph.value E B quad itype l b a) ∧
      ∀ φ c b bp, b ∈ v.row c → bp ∈ v.row c →
        dens v la (n.app φ) c b bp - dens v la (n0.app φ) c b bp =
          -I * CohPh.D nb B.V (phW el w) (fun x _ => x) c b bp * dens v la φ c b bp := by
  obtain ⟨w, gw, hw⟩ := VN1Ph.genFct_ok h hp nb E B quad itype
  obtain ⟨n0, gn0, _, _, rowsn0⟩ := assemble_rows h symq E (VN1.coup v T f) _
    (fun c b bp hb hbp hi => VN1.coup_ok h T f hb hbp hi)
  obtain ⟨n, gn, _, _, rowsn⟩ := assemble_rows h symq E (VN1Ph.coup v e nb T f B.V w) _
    (fun c b bp hb hbp hi => VN1Ph.coup_ok h hp nb T f B.V w hb hbp hi)
  refine ⟨w, n0, n, gw, gn0, gn, fun c b a l hb ha hi hl => phW_value hp hw hb ha hi hl, ?_⟩
  intro φ c b bp hb hbp
  have hS := fun b bp (hb : b ∈ v.row c) (hbp : bp ∈ v.row c) =>
    CohPh.S_diag h nb hV (phW el w) (fun x _ => x) (dens v la φ) ((mem_R h).2 hb) ((mem_R h).2 hbp)
  rw [dens_diff h rowsn0 rowsn ?_ hb hbp]
  · by_cases hinc : la.inc c b bp = true
    · rw [if_pos hinc, hS b bp hb hbp]
      ring
    · rw [if_neg hinc, dens_excl h hinc, mul_zero]
  · intro b bp hb hbp
    rw [hS b bp hb hbp, hS bp b hbp hb, h.dens_herm φ hb hbp, map_mul, ← neg_mul]
    congr 1
    unfold CohPh.D
    rw [map_sum, ← sum_neg_distrib]
    refine sum_congr rfl fun l _ => ?_
    have e1 : (B.V l bp bp * conj (B.V l b b)).re = (B.V l b b * conj (B.V l bp bp)).re := by
      simp; ring
    rw [e1]
    simp only [map_sub, map_add, map_mul, Complex.conj_ofReal, Complex.conj_conj]
    ring

/-- **C71** (partial), 1vN: the populations do not change, and the coherences between states of equal energy are
damped, with twice the rate of Redfield (`c71_redfield`). For different energies see `c71_1vN_false`. -/
theorem c71_1vN_partial (h : VOk v la) (hp : PhOk v e la el) (symq : Bool) (nb : Nat) (E : Nat → ℝ) (B : PhBaths)
    (hV : DiagV v B.V) (heps : 0 ≤ B.eps) (quad : (ℝ → ℝ) → ℝ → ℝ → ℝ → ℝ) (itype : Int) (hi : itype = 0 ∨ itype = 2)
    (T : Nat → Nat → Nat → ℂ) (f : Nat → Nat → Amp) :
    ∃ w n0 n, VN1Ph.genFct e nb E B quad itype = .ok w ∧
      VN1.kernel v symq E T f = .ok n0 ∧ VN1Ph.kernel v e nb symq E T f B.V w = .ok n ∧
      ∀ φ c b bp, b ∈ v.row c → bp ∈ v.row c → E b = E bp →
        dens v la (n.app φ) c b bp - dens v la (n0.app φ) c b bp =
          -(((∑ l ∈ range nb, Complex.normSq (B.V l b b - B.V l bp bp) * B.noise l : ℝ) : ℂ) +
            I * ((∑ l ∈ range nb, (Complex.normSq (B.V l b b) - Complex.normSq (B.V l bp bp)) *
              B.lamb quad itype l : ℝ) : ℂ)) * dens v la φ c b bp := by
  obtain ⟨w, n0, n, g1, g2, g3, hw, hn⟩ := VN1Ph.dens_diag h hp symq nb E B hV quad itype T f
  refine ⟨w, n0, n, g1, g2, g3, ?_⟩
  intro φ c b bp hb hbp hE
  rw [hn φ c b bp hb hbp]
  by_cases hinc : la.inc c b bp = true
  · have hinc' : la.inc c bp b = true := by rw [← h.inc_symm c b bp hb hbp]; exact hinc
    by_cases hne : b = bp
    · subst hne
      rw [CohPh.D_eq (z := fun l => phW el w l c b b) (fun _ _ => rfl) (fun _ _ => rfl) (fun _ _ => rfl) (fun _ _ => rfl)]
      simp
    · have hz : ∀ l < nb, phW el w l c b bp = B.func1vN quad itype 0 l := by
        intro l hl
        rw [hw c b bp l hb hbp hinc hl]
        unfold VN1Ph.value
        rw [if_neg hne, hE, sub_self]
      have hz' : ∀ l < nb, phW el w l c bp b = B.func1vN quad itype 0 l := by
        intro l hl
        rw [hw c bp b l hbp hb hinc' hl]
        unfold VN1Ph.value
        rw [if_neg (Ne.symm hne), hE, sub_self]
      rw [CohPh.D_eq (z := fun l => B.func1vN quad itype 0 l) hz' hz hz hz']
      have e1 : (∑ l ∈ range nb, Complex.normSq (B.V l b b - B.V l bp bp) *
          ((B.func1vN quad itype 0 l).2.im - (B.func1vN quad itype 0 l).1.im) : ℝ) =
          ∑ l ∈ range nb, Complex.normSq (B.V l b b - B.V l bp bp) * B.noise l :=
        sum_congr rfl fun l _ => by rw [B.noise_im quad hi heps l]
      rw [e1]
      unfold PhBaths.lamb
      linear_combination (∑ l ∈ range nb, Complex.normSq (B.V l b b - B.V l bp bp) * B.noise l : ℝ) *
        dens v la φ c b bp * Complex.I_mul_I
  · rw [dens_excl h hinc, mul_zero, mul_zero]

/-- The bath of the examples: it couples to the states 1 and 2 with strengths 1/2 and 1. -/
def dephBath : PhBaths where
  T _ := 1
  omm _ := 0
  omp _ := 10
  dos _ _ := 1
  eps := 1 / 1000000
  V _ b a := if b = a then (if b = 1 then 1 / 2 else 1) else 0

theorem dephBath_diag (v : View) : DiagV v dephBath.V := by
  intro c b a _ _ hne l
  simp [dephBath, hne]

theorem bose_one_lt : bose 1 < 1 := by
  unfold bose
  have h := Real.add_one_lt_exp (x := 1) one_ne_zero
  rw [div_lt_one (by linarith)]
  linarith

/-- Two orbitals, 'charge' indexing; the coherence between the states 1 and 2 is considered. -/
theorem deph_example : ∃ s, ElPhSI.init 2 "charge" = .ok s ∧ VOk (s.si.view 2) s.si.labOf ∧
    PhOk (s.si.view 2) (s.el.view 2) s.si.labOf s.el.elOf ∧
    (s.si.view 2).row 1 = [1, 2] ∧ s.si.labOf.inc 1 1 2 = true := by
  have key : (ElPhSI.init 2 "charge" >>= fun s => (.ok (s.si.statesdm, s.si.labOf.inc 1 1 2) : Py _)) =
      .ok ([[0], [1, 2], [3], []], true) := by decide +kernel
  obtain ⟨s, h1, h2⟩ := bind_iff.1 key
  simp only [Except.ok.injEq, Prod.mk.injEq] at h2
  obtain ⟨_, a2, a3⟩ := c58_consistent_partial (nl := 2) (nl' := 2) (ElPhReach.init h1) (by decide)
  exact ⟨s, h1, a2, a3, by simp [View.row, DM.view, h2.1], h2.2⟩

/-- **C71** is false for 1vN. Two states with energies 1 and 2, a bath of temperature one coupled to them with strengths
1/2 and 1, no leads: the coherence between the states is amplified by the phonons. -/
theorem c71_1vN_false : ∃ (v e : View) (la : Lab) (el : Nat → Nat → Nat → Option Nat) (E : Nat → ℝ),
    VOk v la ∧ PhOk v e la el ∧ ∃ w n0 n,
      VN1Ph.genFct e 1 E dephBath (fun _ _ _ _ => 0) 2 = .ok w ∧
      VN1.kernel v true E (fun _ _ _ => 0) (fun _ _ => ⟨0, 0, 0, 0⟩) = .ok n0 ∧
      VN1Ph.kernel v e 1 true E (fun _ _ _ => 0) (fun _ _ => ⟨0, 0, 0, 0⟩) dephBath.V w = .ok n ∧
      1 ∈ v.row 1 ∧ 2 ∈ v.row 1 ∧ la.inc 1 1 2 = true ∧ ∃ g : ℝ, 0 < g ∧ ∀ φ,
        dens v la (n.app φ) 1 1 2 - dens v la (n0.app φ) 1 1 2 = (g : ℂ) * dens v la φ 1 1 2 := by
  obtain ⟨s, _, hv, hp, hr, hinc⟩ := deph_example
  obtain ⟨w, n0, n, g1, g2, g3, hw, hn⟩ := VN1Ph.dens_diag hv hp true 1 (fun b => (b : ℝ)) dephBath (dephBath_diag _)
    (fun _ _ _ _ => 0) 2 (fun _ _ _ => 0) (fun _ _ => ⟨0, 0, 0, 0⟩)
  have m1 : 1 ∈ (s.si.view 2).row 1 := by rw [hr]; simp
  have m2 : 2 ∈ (s.si.view 2).row 1 := by rw [hr]; simp
  refine ⟨_, _, _, _, fun b => (b : ℝ), hv, hp, w, n0, n, g1, g2, g3, m1, m2, hinc,
    Real.pi * ((1 - bose 1) / 4), ?_, ?_⟩
  · have := bose_one_lt
    have := Real.pi_pos
    have : 0 < (1 - bose 1) / 4 := by linarith
    positivity
  intro φ
  rw [hn φ 1 1 2 m1 m2]
  congr 1
  have hinc' : s.si.labOf.inc 1 2 1 = true := by rw [← hv.inc_symm 1 1 2 m1 m2]; exact hinc
  have a12 : dephBath.alpha (((1 : Nat) : ℝ) - ((2 : Nat) : ℝ)) 0 = -1 := by
    unfold PhBaths.alpha dephBath; norm_num
  have a21 : dephBath.alpha (((2 : Nat) : ℝ) - ((1 : Nat) : ℝ)) 0 = 1 := by
    unfold PhBaths.alpha dephBath; norm_num
  have w12 : phW s.el.elOf w 0 1 1 2 = (0, 0) := by
    rw [hw 1 1 2 0 m1 m2 hinc one_pos]
    unfold VN1Ph.value
    rw [if_neg (by decide)]
    unfold PhBaths.func1vN
    simp only [a12]
    norm_num [dephBath]
  have w21 : phW s.el.elOf w 0 1 2 1 = (-I * Real.pi * (bose 1 : ℝ), I * Real.pi * (1 + (bose 1 : ℝ))) := by
    rw [hw 1 2 1 0 m2 m1 hinc' one_pos]
    unfold VN1Ph.value
    rw [if_neg (by decide)]
    unfold PhBaths.func1vN
    simp only [a21]
    norm_num [dephBath]
    ring
  unfold CohPh.D
  rw [sum_range_one, w12, w21]
  have v1 : dephBath.V 0 1 1 = 1 / 2 := by simp [dephBath]
  have v2 : dephBath.V 0 2 2 = 1 := by simp [dephBath]
  rw [v1, v2]
  apply Complex.ext
  · simp [Complex.normSq_apply]
    norm_num
    ring
  · simp [Complex.normSq_apply]

/-- The hypotheses of the theorems on **C71**, with coupling strengths that differ and noise. -/
example : ∃ (v e : View) (la : Lab) (el : Nat → Nat → Nat → Option Nat),
    VOk v la ∧ PhOk v e la el ∧ DiagV v dephBath.V ∧ 0 ≤ dephBath.eps ∧ (∀ l x, 0 ≤ dephBath.dos l x) ∧
    1 ∈ v.row 1 ∧ 2 ∈ v.row 1 ∧ la.inc 1 1 2 = true ∧
    0 < Complex.normSq (dephBath.V 0 1 1 - dephBath.V 0 2 2) * dephBath.noise 0 ∧
    0 < Complex.normSq (dephBath.V 0 1 1 - dephBath.V 0 2 2) * dephBath.rate 0 0 := by
  obtain ⟨s, _, hv, hp, hr, hinc⟩ := deph_example
  have he : dephBath.eps = 1 / 1000000 := rfl
  have hb : 0 < bose (1 / 1000000) := by
    unfold bose
    exact one_div_pos.2 (sub_pos.2 (Real.one_lt_exp_iff.2 (by norm_num)))
  have hV : (0 : ℝ) < Complex.normSq (dephBath.V 0 1 1 - dephBath.V 0 2 2) := by
    rw [Complex.normSq_pos]
    simp [dephBath]
    norm_num
  have hlo : dephBath.lo 0 < dephBath.eps ∧ dephBath.eps < dephBath.omp 0 / dephBath.T 0 := by
    unfold PhBaths.lo dephBath; norm_num
  have hd : ∀ x, dephBath.dos 0 x = 1 := fun _ => rfl
  refine ⟨_, _, _, _, hv, hp, dephBath_diag _, by rw [he]; norm_num, fun _ _ => zero_le_one, by rw [hr]; simp,
    by rw [hr]; simp, hinc, mul_pos hV ?_, mul_pos hV ?_⟩
  · unfold PhBaths.noise
    rw [if_pos hlo, hd, he]
    have := Real.pi_pos
    positivity
  · have ha : dephBath.alpha 0 0 = dephBath.eps := by
      unfold PhBaths.alpha dephBath; norm_num
    rw [dephBath.rate_eq, ha, if_pos hlo, hd, he]
    have := Real.pi_pos
    positivity

end

end Verif
