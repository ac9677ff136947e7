import Verif.Lemmas.PositiveDens
import Verif.Lemmas.ElPh
import Verif.Props.ElPh
import Verif.Props.RTD
import Mathlib.Analysis.SpecialFunctions.Exponential
import Mathlib.Analysis.Calculus.FDeriv.CompCLM
import Mathlib.Analysis.Calculus.Deriv.Mul

/-!
C73: with the Lindblad approach density matrices stay positive.
-/

namespace Verif

open Finset
open Complex (I)
open scoped ComplexConjugate

noncomputable section

variable {v : View} {la : Lab}

/-- The equations of motion of Lindblad with electrons and phonons, without the energies. -/
def GK.S (v : View) (nb : Nat) (te : TMat) (t : Nat → Nat → Nat → ℂ × ℂ) (ρ : Nat → Nat → Nat → ℂ) (c b bp : Nat) : ℂ :=
  Lindblad.S v te ρ c b bp + LindbladPh.S v nb t ρ c b bp

/-- The loss terms. -/
def GK.k (v : View) (nb : Nat) (te : TMat) (t : Nat → Nat → Nat → ℂ × ℂ) (c x y : Nat) : ℂ :=
  -I * (Lindblad.K v te c x y + LindbladPh.K v nb t c x y)

/-- The gain terms. -/
def GK.W (v : View) (nb : Nat) (te : TMat) (t : Nat → Nat → Nat → ℂ × ℂ) (ρ : Nat → Nat → Nat → ℂ) (c b bp : Nat) : ℂ :=
  (∑ l ∈ range v.nleads, ∑ a ∈ v.Lo c, ∑ ap ∈ v.Lo c, te l b a * ρ (c - 1) a ap * conj (te l bp ap)) +
  (∑ l ∈ range v.nleads, ∑ a ∈ v.R (c + 1), ∑ ap ∈ v.R (c + 1), te l b a * ρ (c + 1) a ap * conj (te l bp ap)) +
  ((∑ l ∈ range nb, ∑ a ∈ v.R c, ∑ ap ∈ v.R c, (t l b a).1 * ρ c a ap * conj (t l bp ap).1) +
  (∑ l ∈ range nb, ∑ a ∈ v.R c, ∑ ap ∈ v.R c, (t l b a).2 * ρ c a ap * conj (t l bp ap).2))

theorem GK.k_herm (v : View) (nb : Nat) (te : TMat) (t : Nat → Nat → Nat → ℂ × ℂ) (c x y : Nat) :
    conj (GK.k v nb te t c x y) = GK.k v nb te t c y x := by
  unfold GK.k Lindblad.K LindbladPh.K
  have e : ∀ A B C A' B' C' : ℂ, conj A = A' → conj B = B' → conj C = C' →
      conj (-I * (I * (A + B) + I * C)) = -I * (I * (A' + B') + I * C') := by
    intro A B C A' B' C' h1 h2 h3
    rw [← h1, ← h2, ← h3]
    simp only [map_mul, map_add, map_neg, Complex.conj_I]
    ring
  apply e
  · simp only [map_sum, map_mul, map_neg, map_div₀, map_one, map_ofNat, Complex.conj_conj]
    exact sum_congr rfl fun _ _ => sum_congr rfl fun _ _ => by ring
  · simp only [map_sum, map_mul, map_neg, map_div₀, map_one, map_ofNat, Complex.conj_conj]
    exact sum_congr rfl fun _ _ => sum_congr rfl fun _ _ => by ring
  · have h5 : conj (-0.5 : ℂ) = -0.5 := by
      rw [map_neg]
      norm_num [Complex.ext_iff]
    simp only [map_sum, map_mul, map_add, h5, Complex.conj_conj]
    exact sum_congr rfl fun _ _ => sum_congr rfl fun _ _ => by ring

theorem GK.split (v : View) (nb : Nat) (te : TMat) (t : Nat → Nat → Nat → ℂ × ℂ) (ρ : Nat → Nat → Nat → ℂ) (c b bp : Nat) :
    -I * GK.S v nb te t ρ c b bp = ∑ y ∈ v.R c, (GK.k v nb te t c b y * ρ c y bp + GK.k v nb te t c y bp * ρ c b y) +
      GK.W v nb te t ρ c b bp := by
  unfold GK.S Lindblad.S LindbladPh.S GK.W
  have e1 : ∀ (s : Finset Nat) (q : Nat), ∑ a ∈ s, ∑ ap ∈ s, I * (∑ l ∈ range v.nleads, te l b a * conj (te l bp ap)) * ρ q a ap =
      I * ∑ l ∈ range v.nleads, ∑ a ∈ s, ∑ ap ∈ s, te l b a * ρ q a ap * conj (te l bp ap) := by
    intro s q
    rw [mul_sum]
    simp only [mul_sum, sum_mul]
    rw [Coh.sum_move]
    exact sum_congr rfl fun _ _ => sum_congr rfl fun _ _ => sum_congr rfl fun _ _ => by ring
  have e2 : ∑ a ∈ v.R c, ∑ ap ∈ v.R c, LindbladPh.J nb t b bp a ap * ρ c a ap =
      I * ((∑ l ∈ range nb, ∑ a ∈ v.R c, ∑ ap ∈ v.R c, (t l b a).1 * ρ c a ap * conj (t l bp ap).1) +
        (∑ l ∈ range nb, ∑ a ∈ v.R c, ∑ ap ∈ v.R c, (t l b a).2 * ρ c a ap * conj (t l bp ap).2)) := by
    unfold LindbladPh.J
    rw [← sum_add_distrib, mul_sum]
    simp only [mul_sum, sum_mul]
    rw [Coh.sum_move]
    refine sum_congr rfl fun _ _ => ?_
    rw [← sum_add_distrib, mul_sum]
    refine sum_congr rfl fun _ _ => ?_
    rw [← sum_add_distrib, mul_sum]
    exact sum_congr rfl fun _ _ => by ring
  have e3 : ∑ y ∈ v.R c, (GK.k v nb te t c b y * ρ c y bp + GK.k v nb te t c y bp * ρ c b y) =
      -I * (∑ y ∈ v.R c, (Lindblad.K v te c b y * ρ c y bp + Lindblad.K v te c y bp * ρ c b y) +
        ∑ y ∈ v.R c, (LindbladPh.K v nb t c b y * ρ c y bp + LindbladPh.K v nb t c y bp * ρ c b y)) := by
    rw [← sum_add_distrib, mul_sum]
    refine sum_congr rfl fun y _ => ?_
    unfold GK.k
    ring
  rw [e1, e1, e2, e3]
  have hI : I * I = -1 := Complex.I_mul_I
  linear_combination (-(∑ l ∈ range v.nleads, ∑ a ∈ v.Lo c, ∑ ap ∈ v.Lo c, te l b a * ρ (c - 1) a ap * conj (te l bp ap)) -
    (∑ l ∈ range v.nleads, ∑ a ∈ v.R (c + 1), ∑ ap ∈ v.R (c + 1), te l b a * ρ (c + 1) a ap * conj (te l bp ap)) -
    ((∑ l ∈ range nb, ∑ a ∈ v.R c, ∑ ap ∈ v.R c, (t l b a).1 * ρ c a ap * conj (t l bp ap).1) +
    (∑ l ∈ range nb, ∑ a ∈ v.R c, ∑ ap ∈ v.R c, (t l b a).2 * ρ c a ap * conj (t l bp ap).2))) * hI

section
variable (h : VOk v la)
include h

theorem GK.W_pos (nb : Nat) (te : TMat) (t : Nat → Nat → Nat → ℂ × ℂ) {ρ : Nat → Nat → Nat → ℂ} (hρ : v.Positive ρ)
    (c : Nat) (x : Nat → ℂ) : 0 ≤ (qf (v.R c) (GK.W v nb te t ρ c) x).re := by
  have lead : ∀ (n : Nat) (A : Nat → Nat → Nat → ℂ) (Q : Finset Nat) (r : Nat → Nat → ℂ), (∀ x, 0 ≤ (qf Q r x).re) →
      0 ≤ (qf (v.R c) (fun b bp => ∑ l ∈ range n, ∑ a ∈ Q, ∑ ap ∈ Q, A l b a * r a ap * conj (A l bp ap)) x).re := by
    intro n A Q r hr
    rw [qf_sum (v.R c) (range n) (fun l b bp => ∑ a ∈ Q, ∑ ap ∈ Q, A l b a * r a ap * conj (A l bp ap)), Complex.re_sum]
    refine sum_nonneg fun l _ => ?_
    rw [qf_cong]
    exact hr _
  have lo : ∀ x, 0 ≤ (qf (v.Lo c) (ρ (c - 1)) x).re := by
    intro x
    cases c with
    | zero => rw [Lo_zero h]; simp [qf]
    | succ q => rw [Lo_succ h]; exact hρ q x
  unfold GK.W
  rw [qf_add, qf_add, qf_add, Complex.add_re, Complex.add_re, Complex.add_re]
  refine add_nonneg (add_nonneg (lead _ te _ _ lo) (lead _ te _ _ (hρ (c + 1)))) (add_nonneg ?_ ?_)
  · exact lead nb (fun l b a => (t l b a).1) _ _ (hρ c)
  · exact lead nb (fun l b a => (t l b a).2) _ _ (hρ c)

theorem GK.W_herm (nb : Nat) (te : TMat) (t : Nat → Nat → Nat → ℂ × ℂ) (φ : Nat → ℝ) (c b bp : Nat) :
    conj (GK.W v nb te t (dens v la φ) c b bp) = GK.W v nb te t (dens v la φ) c bp b := by
  have lead : ∀ (n : Nat) (A : Nat → Nat → Nat → ℂ) (Q : Finset Nat) (r : Nat → Nat → ℂ),
      (∀ a ∈ Q, ∀ ap ∈ Q, conj (r a ap) = r ap a) →
      conj (∑ l ∈ range n, ∑ a ∈ Q, ∑ ap ∈ Q, A l b a * r a ap * conj (A l bp ap)) =
        ∑ l ∈ range n, ∑ a ∈ Q, ∑ ap ∈ Q, A l bp a * r a ap * conj (A l b ap) := by
    intro n A Q r hr
    simp only [map_sum, map_mul, Complex.conj_conj]
    refine sum_congr rfl fun l _ => ?_
    rw [sum_comm]
    refine sum_congr rfl fun a ha => sum_congr rfl fun ap hap => ?_
    rw [hr ap hap a ha]
    ring
  have hq : ∀ q, ∀ a ∈ v.R q, ∀ ap ∈ v.R q, conj (dens v la φ q a ap) = dens v la φ q ap a := fun q a ha ap hap =>
    (h.dens_herm φ ((mem_R h).1 ha) ((mem_R h).1 hap)).symm
  have lo : ∀ a ∈ v.Lo c, ∀ ap ∈ v.Lo c, conj (dens v la φ (c - 1) a ap) = dens v la φ (c - 1) ap a := by
    cases c with
    | zero => rw [Lo_zero h]; simp
    | succ q => rw [Lo_succ h]; exact hq q
  unfold GK.W
  rw [map_add, map_add, map_add, lead _ te _ _ lo, lead _ te _ _ (hq (c + 1)),
    lead nb (fun l b a => (t l b a).1) _ _ (hq c), lead nb (fun l b a => (t l b a).2) _ _ (hq c)]

theorem GK.S_anti (nb : Nat) (te : TMat) (t : Nat → Nat → Nat → ℂ × ℂ) (φ : Nat → ℝ) (c b bp : Nat) (hb : b ∈ v.row c)
    (hbp : bp ∈ v.row c) :
    GK.S v nb te t (dens v la φ) c bp b = -conj (GK.S v nb te t (dens v la φ) c b bp) := by
  have h1 := GK.split v nb te t (dens v la φ) c b bp
  have h2 := GK.split v nb te t (dens v la φ) c bp b
  have h3 := congrArg (fun z => conj z) h1
  simp only [map_mul, map_neg, Complex.conj_I, map_add, map_sum, GK.W_herm h, GK.k_herm, neg_neg] at h3
  have e : ∑ y ∈ v.R c, (GK.k v nb te t c y b * conj (dens v la φ c y bp) + GK.k v nb te t c bp y * conj (dens v la φ c b y)) =
      ∑ y ∈ v.R c, (GK.k v nb te t c bp y * dens v la φ c y b + GK.k v nb te t c y b * dens v la φ c bp y) := by
    refine sum_congr rfl fun y hy => ?_
    have hy' := (mem_R h).1 hy
    rw [h.dens_herm φ hb hy', h.dens_herm φ hy' hbp]
    ring
  rw [e, ← h2] at h3
  have hI : I ≠ 0 := Complex.I_ne_zero
  have : I * (GK.S v nb te t (dens v la φ) c bp b + conj (GK.S v nb te t (dens v la φ) c b bp)) = 0 := by
    linear_combination h3
  have := (mul_eq_zero.1 this).resolve_left hI
  linear_combination this

theorem GK.keepsPos (hcl : v.Closed la) (nb : Nat) (te : TMat) (t : Nat → Nat → Nat → ℂ × ℂ) {m : Mat} {E : Nat → ℝ}
    (rows : ∀ φ c b bp, (b, bp) ∈ combsR2 (v.row c) → la.inc c b bp = true →
        m.app φ (la.lab c b bp)
          = (((E b - E bp : ℝ) : ℂ) * dens v la φ c b bp + GK.S v nb te t (dens v la φ) c b bp).im ∧
        (b ≠ bp → m.app φ (v.imag (la.lab c b bp))
          = -(((E b - E bp : ℝ) : ℂ) * dens v la φ c b bp + GK.S v nb te t (dens v la φ) c b bp).re)) :
    KeepsPos v la m := by
  refine Verif.keepsPos h hcl (fun c b y => (if b = y then -I * E b else 0) + GK.k v nb te t c b y)
    (fun φ => GK.W v nb te t (dens v la φ)) ?_ (fun φ hφ c x => GK.W_pos h nb te t hφ c x)
  intro φ c b hb bp hbp
  rw [dens_app h (S := fun φ => GK.S v nb te t (dens v la φ)) rows (GK.S_anti h nb te t φ) hb hbp]
  congr 1
  have hb' := (mem_R h).2 hb
  have hbp' := (mem_R h).2 hbp
  rw [mul_add, GK.split, ← add_assoc]
  congr 1
  simp only [add_mul, map_add, mul_add, GK.k_herm, sum_add_distrib]
  have s1 : ∑ y ∈ v.R c, (if b = y then -I * (E b : ℂ) else 0) * dens v la φ c y bp = -I * E b * dens v la φ c b bp := by
    rw [sum_eq_single b]
    · rw [if_pos rfl]
    · intro y _ hne; rw [if_neg (Ne.symm hne), zero_mul]
    · intro hn; exact absurd hb' hn
  have s2 : ∑ y ∈ v.R c, dens v la φ c b y * conj (if bp = y then -I * (E bp : ℂ) else 0) = I * E bp * dens v la φ c b bp := by
    rw [sum_eq_single bp]
    · rw [if_pos rfl, map_mul, map_neg, Complex.conj_I, Complex.conj_ofReal]; ring
    · intro y _ hne; rw [if_neg (Ne.symm hne), map_zero, mul_zero]
    · intro hn; exact absurd hbp' hn
  have s3 : ∑ y ∈ v.R c, dens v la φ c b y * GK.k v nb te t c y bp = ∑ y ∈ v.R c, GK.k v nb te t c y bp * dens v la φ c b y :=
    sum_congr rfl fun _ _ => mul_comm _ _
  rw [s1, s2, s3]
  push_cast
  ring

/-- The common part of the theorems on Lindblad. -/
theorem GK.main {m : Mat} (hk : KeepsPos v la m) (hc : m.cols = v.ndm0r)
    (htr : ∀ φ, ∑ i ∈ range v.npauli, m.app φ i = 0) :
    (∀ φ, v.Evolves m φ → v.Positive (dens v la (φ 0)) → ∀ t, 0 ≤ t → v.Positive (dens v la (φ t))) ∧
      (0 < v.npauli → (∃ φ, v.Stationary m φ ∧ v.Positive (dens v la φ)) ∧
        ∀ φ, (∀ ψ, v.Stationary m ψ → ∀ i < v.ndm0r, ψ i = φ i) →
          v.Positive (dens v la φ) ∧ ∀ i < v.npauli, 0 ≤ φ i ∧ φ i ≤ 1) := by
  refine ⟨fun φ hφ h0 t ht => hk.flow h hc hφ h0 ht, fun hnp => ?_⟩
  obtain ⟨φ, h1, h2, h3⟩ := hk.stationary h hnp hc htr
  refine ⟨⟨φ, ⟨h1, h2⟩, h3⟩, fun ψ hψ => ?_⟩
  have e := hψ φ ⟨h1, h2⟩
  have hr := h.ndm0r
  have hle := h.np_le
  refine ⟨?_, fun i hi => ?_⟩
  · rw [← positive_congr h (fun q b hb bp hbp => dens_congr h e hb hbp)]
    exact h3
  · rw [← e i (by omega)]
    refine ⟨?_, (abs_le.1 (entry_le h h3 h2 (by omega))).2⟩
    obtain ⟨q, b, bp, hb, hbp, hin, e⟩ := h.lab_surj i (by omega)
    have hbb : b = bp := by
      by_contra hne
      have := (h.lab_off q b bp hb hbp hne hin).1
      omega
    subst hbb
    have := h3 q (fun y => if y = b then 1 else 0)
    rw [prob_single h φ hb, e] at this
    exact this

omit h in
/-- The solutions of the equations of motion. -/
theorem exists_evolves {m : Mat} (hc : m.cols = v.ndm0r) (φ0 : Nat → ℝ) :
    ∃ φ, v.Evolves m φ ∧ ∀ i < v.ndm0r, φ 0 i = φ0 i := by
  let A := LinearMap.toContinuousLinearMap (m.lin v.ndm0r)
  let p : Fin v.ndm0r → ℝ := fun i => φ0 i
  refine ⟨fun t => toNat (NormedSpace.exp (t • A) p), fun t _ i hi => ?_, fun i hi => ?_⟩
  · have h1 := hasDerivAt_exp_smul_const' (𝕂 := ℝ) A t
    have h2 : HasDerivAt (fun s : ℝ => NormedSpace.exp (s • A) p) (A (NormedSpace.exp (t • A) p)) t := by
      have := h1.clm_apply (hasDerivAt_const t p)
      simpa using this
    have h3 := (hasDerivAt_pi.1 h2) ⟨i, hi⟩
    have e1 : (fun s : ℝ => toNat (NormedSpace.exp (s • A) p) i) = fun s => NormedSpace.exp (s • A) p ⟨i, hi⟩ := by
      funext s
      unfold toNat
      rw [dif_pos hi]
    rw [e1]
    have e2 : ∑ j ∈ range v.ndm0r, m.val i j * toNat (NormedSpace.exp (t • A) p) j = A (NormedSpace.exp (t • A) p) ⟨i, hi⟩ := by
      show _ = m.app (toNat (NormedSpace.exp (t • A) p)) i
      unfold Mat.app
      have h2 : range m.cols = range v.ndm0r := by rw [hc]
      rw [h2]
    rw [e2]
    exact h3.hasDerivWithinAt
  · show toNat (NormedSpace.exp ((0 : ℝ) • A) p) i = φ0 i
    rw [zero_smul, NormedSpace.exp_zero]
    unfold toNat
    rw [dif_pos hi]
    rfl

/-- **C73**. With the Lindblad approach a density matrix that is positive at some time stays so, whatever the jump
matrices. There is a positive stationary density matrix with trace one. If there is no other stationary one with trace one
then the one that exists is positive, and all populations are between zero and one. -/
theorem c73_lindblad (hcl : v.Closed la) (symq : Bool) (E : Nat → ℝ) (te : Nat → Nat → Nat → ℂ) :
    ∃ m, Lindblad.kernel v symq E te = .ok m ∧
      (∀ φ, v.Evolves m φ → v.Positive (dens v la (φ 0)) → ∀ t, 0 ≤ t → v.Positive (dens v la (φ t))) ∧
      (∀ φ0 : Nat → ℝ, ∃ φ, v.Evolves m φ ∧ ∀ i < v.ndm0r, φ 0 i = φ0 i) ∧
      (0 < v.npauli → (∃ φ, v.Stationary m φ ∧ v.Positive (dens v la φ)) ∧
        ∀ φ, (∀ ψ, v.Stationary m ψ → ∀ i < v.ndm0r, ψ i = φ i) →
          v.Positive (dens v la φ) ∧ ∀ i < v.npauli, 0 ≤ φ i ∧ φ i ≤ 1) := by
  obtain ⟨m, g, hc, _, rows⟩ := assemble_rows h symq E (Lindblad.coup v te) _
    (fun c b bp hb hbp hi => Lindblad.coup_ok h te hb hbp hi)
  have hS : ∀ φ c b bp, GK.S v 0 te (fun _ _ _ => 0) (dens v la φ) c b bp = Lindblad.S v te (dens v la φ) c b bp := by
    intro φ c b bp
    unfold GK.S LindbladPh.S LindbladPh.J LindbladPh.K
    simp
  have hk := GK.keepsPos h hcl 0 te (fun _ _ _ => 0) (m := m) (E := E) (fun φ c b bp hm hi => by
    rw [hS]; exact rows φ c b bp hm hi)
  have main := GK.main h hk hc (fun φ => by
    rw [sum_pop h]
    have := Lindblad.app_weighted h rows φ (fun _ _ => 1)
    simp only [one_mul] at this
    rw [this]
    apply sum_eq_zero; intro l _
    have : Lindblad.flow v te (dens v la φ) (fun _ _ => ((1 : ℝ) : ℂ)) l = 0 := by
      unfold Lindblad.flow
      apply sum_eq_zero; intro q _
      apply sum_eq_zero; intro x _
      apply sum_eq_zero; intro b _
      rw [sum_eq_zero, sum_eq_zero, add_zero] <;> (intro y _; norm_num)
    rw [this]; rfl)
  exact ⟨m, g, main.1, exists_evolves hc, main.2⟩

/-- **C73** for Lindblad with phonon baths. -/
theorem c73_lindblad_elph (hcl : v.Closed la) (symq : Bool) (nb : Nat) (E : Nat → ℝ) (te : Nat → Nat → Nat → ℂ)
    (t : Nat → Nat → Nat → ℂ × ℂ) :
    ∃ m, LindbladPh.kernel v nb symq E te t = .ok m ∧
      (∀ φ, v.Evolves m φ → v.Positive (dens v la (φ 0)) → ∀ t, 0 ≤ t → v.Positive (dens v la (φ t))) ∧
      (∀ φ0 : Nat → ℝ, ∃ φ, v.Evolves m φ ∧ ∀ i < v.ndm0r, φ 0 i = φ0 i) ∧
      (0 < v.npauli → (∃ φ, v.Stationary m φ ∧ v.Positive (dens v la φ)) ∧
        ∀ φ, (∀ ψ, v.Stationary m ψ → ∀ i < v.ndm0r, ψ i = φ i) →
          v.Positive (dens v la φ) ∧ ∀ i < v.npauli, 0 ≤ φ i ∧ φ i ≤ 1) := by
  obtain ⟨m0, g0, hc0, _, rows0⟩ := assemble_rows h symq E (Lindblad.coup v te) _
    (fun c b bp hb hbp hi => Lindblad.coup_ok h te hb hbp hi)
  obtain ⟨m, g, hc, _, rows⟩ := assemble_rows h symq E (LindbladPh.coup v nb te t) _
    (fun c b bp hb hbp hi => LindbladPh.coup_ok h nb te t hb hbp hi)
  have hk := GK.keepsPos h hcl nb te t (m := m) (E := E) rows
  have main := GK.main h hk hc (fun φ => by
    rw [sum_pop h]
    have e : ∀ q ∈ range v.ncharge, ∑ b ∈ v.R q, m.app φ (la.lab q b b) = ∑ b ∈ v.R q, m0.app φ (la.lab q b b) := by
      intro q _
      exact coh_charge_sums h rows0 rows (fun φ c => LindbladPh.trace v nb t (dens v la φ) c) φ q
    rw [sum_congr rfl e]
    have := Lindblad.app_weighted h rows0 φ (fun _ _ => 1)
    simp only [one_mul] at this
    rw [this]
    apply sum_eq_zero; intro l _
    have : Lindblad.flow v te (dens v la φ) (fun _ _ => ((1 : ℝ) : ℂ)) l = 0 := by
      unfold Lindblad.flow
      apply sum_eq_zero; intro q _
      apply sum_eq_zero; intro x _
      apply sum_eq_zero; intro b _
      rw [sum_eq_zero, sum_eq_zero, add_zero] <;> (intro y _; norm_num)
    rw [this]; rfl)
  exact ⟨m, g, main.1, exists_evolves hc, main.2⟩

/-! ### 1vN and Redfield -/

/-- The derivative of a probability that vanishes at first. -/
theorem deriv_prob {m : Mat} (hc : m.cols = v.ndm0r) {φ : ℝ → Nat → ℝ} (hφ : v.Evolves m φ)
    (hp : ∀ t, 0 ≤ t → v.Positive (dens v la (φ t))) {q : Nat} {x : Nat → ℂ} (h0 : v.prob (dens v la (φ 0)) q x = 0) :
    0 ≤ v.prob (dens v la (m.app (φ 0))) q x := by
  have hcong : ∀ χ : Nat → ℝ, probLin v la q x (fun i => χ i) = v.prob (dens v la χ) q x := by
    intro χ
    show v.prob (dens v la (toNat fun i : Fin v.ndm0r => χ i)) q x = _
    rw [View.prob_eq, View.prob_eq,
      qf_congr (fun b hb bp hbp => dens_toNat h χ ((mem_R h).1 hb) ((mem_R h).1 hbp)) (fun _ _ => rfl)]
  have hd : HasDerivWithinAt (fun t => (fun i : Fin v.ndm0r => φ t i)) (fun i : Fin v.ndm0r => m.app (φ 0) i) (Set.Ici 0) 0 := by
    rw [hasDerivWithinAt_pi]
    intro i
    have := hφ 0 le_rfl i i.2
    unfold Mat.app
    rw [hc]
    exact this
  have h1 := (LinearMap.toContinuousLinearMap (probLin v la q x)).hasFDerivAt.comp_hasDerivWithinAt (0 : ℝ) hd
  have h2 : HasDerivWithinAt (fun t => v.prob (dens v la (φ t)) q x) (v.prob (dens v la (m.app (φ 0))) q x) (Set.Ici 0) 0 := by
    rw [← hcong]
    have e : (fun t => v.prob (dens v la (φ t)) q x) =
        (LinearMap.toContinuousLinearMap (probLin v la q x)) ∘ fun t => (fun i : Fin v.ndm0r => φ t i) := by
      funext t
      exact (hcong (φ t)).symm
    rw [e]
    exact h1
  have h3 := hasDerivWithinAt_iff_tendsto_slope.1 h2
  rw [Set.Ici_sdiff_left] at h3
  refine ge_of_tendsto h3 ?_
  · refine Filter.eventually_of_mem self_mem_nhdsWithin fun t ht => ?_
    have ht0 : 0 < t := ht
    rw [slope_def_field, h0, sub_zero, sub_zero]
    exact div_nonneg (hp t ht0.le q x) ht0.le

/-- From the state `a`, two states with an electron more are reached with different rates. -/
structure FilledApart (v : View) (la : Lab) (E : Nat → ℝ) (L : Leads) (q a b bp : Nat) : Prop where
  one : v.nleads = 1
  itype : L.itype = 0 ∨ L.itype = 1 ∨ L.itype = 2 ∨ L.itype = 3
  herm : ∀ l b c, L.Tba l b c = conj (L.Tba l c b)
  ha : a ∈ v.row q
  hb : b ∈ v.row (q + 1)
  hbp : bp ∈ v.row (q + 1)
  inc : la.inc (q + 1) b bp = true
  tb : L.Tba 0 b a ≠ 0
  tbp : L.Tba 0 bp a ≠ 0
  pos : 0 < (L.rate 0 (E b - E a)).1
  ne : (L.rate 0 (E b - E a)).1 ≠ (L.rate 0 (E bp - E a)).1

theorem Coh.not_positive (lib : NumLib) (E : Nat → ℝ) (L : Leads) {q a b bp : Nat} (hr : FilledApart v la E L q a b bp)
    {k0 k1 : KFct} (hk : ∀ x ∈ v.row (q + 1), k0 0 q x a a = (amp1vN lib E L 0 x a).cur0) {m : Mat}
    (hc : m.cols = v.ndm0r)
    (rows : ∀ φ c b bp, (b, bp) ∈ combsR2 (v.row c) → la.inc c b bp = true →
        m.app φ (la.lab c b bp)
          = (((E b - E bp : ℝ) : ℂ) * dens v la φ c b bp + Coh.S v L.Tba k0 k1 (dens v la φ) c b bp).im ∧
        (b ≠ bp → m.app φ (v.imag (la.lab c b bp))
          = -(((E b - E bp : ℝ) : ℂ) * dens v la φ c b bp + Coh.S v L.Tba k0 k1 (dens v la φ) c b bp).re)) :
    ∃ φ, v.Evolves m φ ∧ v.Positive (dens v la (φ 0)) ∧ ∃ t, 0 < t ∧ ¬ v.Positive (dens v la (φ t)) := by
  obtain ⟨hone, hit, hT, ha, hb, hbp, hinc, htb, htbp, hpos, hne⟩ := hr
  have hbb : b ≠ bp := by rintro rfl; exact hne rfl
  obtain ⟨φ0, hφ0⟩ := exists_dens h (fun c x y => if c = q ∧ x = a ∧ y = a then 1 else 0)
    (fun c x y _ _ => by
      by_cases e : c = q ∧ x = a ∧ y = a
      · rw [if_pos e, if_pos ⟨e.1, e.2.2, e.2.1⟩, map_one]
      · rw [if_neg e, if_neg (fun e' => e ⟨e'.1, e'.2.2, e'.2.1⟩), map_zero])
    (fun c x y hx _ hi => by
      rw [if_neg]
      rintro ⟨e1, e2, e3⟩
      rw [e2] at hx
      rw [e2, e3, h.inc_diag c a hx] at hi
      exact absurd hi (by decide))
  obtain ⟨φ, hφ, e0⟩ := exists_evolves hc φ0
  have hd : ∀ c, ∀ x ∈ v.row c, ∀ y ∈ v.row c, dens v la (φ 0) c x y = if c = q ∧ x = a ∧ y = a then 1 else 0 := by
    intro c x hx y hy
    rw [dens_congr h e0 hx hy, hφ0 c x hx y hy]
  have hpos0 : v.Positive (dens v la (φ 0)) := by
    rw [positive_congr h hd]
    intro c x
    rw [View.prob_eq]
    unfold qf
    by_cases e : c = q
    · subst e
      have haR := (mem_R h).2 ha
      rw [sum_eq_single a, sum_eq_single a]
      · simp only [true_and, and_self, if_true, mul_one]
        rw [mul_comm, Complex.mul_conj, Complex.ofReal_re]
        exact Complex.normSq_nonneg _
      · intro y _ hy; simp [hy]
      · intro hn; exact absurd haR hn
      · intro y _ hy; simp [hy]
      · intro hn; exact absurd haR hn
    · simp [e]
  refine ⟨φ, hφ, hpos0, ?_⟩
  by_contra hno
  push Not at hno
  have hall : ∀ t, 0 ≤ t → v.Positive (dens v la (φ t)) := by
    intro t ht
    rcases ht.eq_or_lt with rfl | ht
    · exact hpos0
    · exact hno t ht
  -- the derivative of the elements of charge `q + 1`
  have hS : ∀ x ∈ v.row (q + 1), ∀ y ∈ v.row (q + 1), Coh.S v L.Tba k0 k1 (dens v la (φ 0)) (q + 1) x y =
      L.Tba 0 x a * conj (L.Tba 0 y a) * (conj (amp1vN lib E L 0 y a).cur0 - (amp1vN lib E L 0 x a).cur0) := by
    intro x hx y hy
    unfold Coh.S
    rw [Lo_succ h, Nat.add_sub_cancel]
    have haR := (mem_R h).2 ha
    have s1 : ∑ b ∈ v.R q, ∑ ap ∈ v.R q, Coh.A v L.Tba k0 (q + 1) x y b ap * dens v la (φ 0) q b ap =
        Coh.A v L.Tba k0 (q + 1) x y a a := by
      rw [sum_eq_single a, sum_eq_single a]
      · rw [hd q a ha a ha]; simp
      · intro z hz hne; rw [hd q a ha z ((mem_R h).1 hz)]; simp [hne]
      · intro hn; exact absurd haR hn
      · intro z hz hne
        refine sum_eq_zero fun z' hz' => ?_
        rw [hd q z ((mem_R h).1 hz) z' ((mem_R h).1 hz')]; simp [hne]
      · intro hn; exact absurd haR hn
    have s2 : ∑ z ∈ v.R (q + 1), (Coh.L v L.Tba k0 k1 (q + 1) x y z * dens v la (φ 0) (q + 1) z y +
        Coh.R v L.Tba k0 k1 (q + 1) x y z * dens v la (φ 0) (q + 1) x z) = 0 := by
      refine sum_eq_zero fun z hz => ?_
      rw [hd _ z ((mem_R h).1 hz) y hy, hd _ x hx z ((mem_R h).1 hz)]
      simp
    have s3 : ∑ z ∈ v.R (q + 1 + 1), ∑ zp ∈ v.R (q + 1 + 1), Coh.C v L.Tba k1 (q + 1) x y z zp *
        dens v la (φ 0) (q + 1 + 1) z zp = 0 := by
      refine sum_eq_zero fun z hz => sum_eq_zero fun zp hzp => ?_
      rw [hd _ z ((mem_R h).1 hz) zp ((mem_R h).1 hzp), if_neg (by omega), mul_zero]
    rw [s1, s2, s3]
    unfold Coh.A
    rw [hone, sum_range_one, Nat.add_sub_cancel, hk x hx, hk y hy, hT 0 a y]
    ring
  have hD : ∀ x ∈ v.row (q + 1), ∀ y ∈ v.row (q + 1), dens v la (m.app (φ 0)) (q + 1) x y = if la.inc (q + 1) x y then
      L.Tba 0 x a * conj (L.Tba 0 y a) * (-I * (conj (amp1vN lib E L 0 y a).cur0 - (amp1vN lib E L 0 x a).cur0)) else 0 := by
    intro x hx y hy
    rw [dens_app h (S := fun φ => Coh.S v L.Tba k0 k1 (dens v la φ)) rows (Coh.S_anti' h hT k0 k1 (φ 0)) hx hy,
      hS x hx y hy, hd _ x hx y hy]
    congr 1
    simp
    ring
  have r1 := (amp1vN_rate lib E L hit 0 b a).1
  have r2 := (amp1vN_rate lib E L hit 0 bp a).1
  set u := (amp1vN lib E L 0 b a).cur0 with hu
  set w := (amp1vN lib E L 0 bp a).cur0 with hw
  set g1 := (L.rate 0 (E b - E a)).1 with hg1
  set g2 := (L.rate 0 (E bp - E a)).1 with hg2
  let T1 := L.Tba 0 b a
  let T2 := L.Tba 0 bp a
  have d11 : dens v la (m.app (φ 0)) (q + 1) b b = ((Complex.normSq T1 * g1 : ℝ) : ℂ) := by
    rw [hD b hb b hb, if_pos (h.inc_diag _ b hb), ← hu, Complex.ofReal_mul, ← Complex.mul_conj, ← r1]
    congr 1
    apply Complex.ext <;> simp
    ring
  have d22 : dens v la (m.app (φ 0)) (q + 1) bp bp = ((Complex.normSq T2 * g2 : ℝ) : ℂ) := by
    rw [hD bp hbp bp hbp, if_pos (h.inc_diag _ bp hbp), ← hw, Complex.ofReal_mul, ← Complex.mul_conj, ← r2]
    congr 1
    apply Complex.ext <;> simp
    ring
  have d12 : dens v la (m.app (φ 0)) (q + 1) b bp = T1 * conj T2 * (-I * (conj w - u)) := by
    rw [hD b hb bp hbp, if_pos hinc]
  have d21 : dens v la (m.app (φ 0)) (q + 1) bp b = conj (dens v la (m.app (φ 0)) (q + 1) b bp) := h.dens_herm _ hb hbp
  set z := dens v la (m.app (φ 0)) (q + 1) b bp with hz
  have hn1 : 0 < Complex.normSq T1 := Complex.normSq_pos.2 htb
  have hn2 : 0 < Complex.normSq T2 := Complex.normSq_pos.2 htbp
  -- the determinant is negative
  have hdet : Complex.normSq T1 * g1 * (Complex.normSq T2 * g2) < Complex.normSq z := by
    rw [d12]
    rw [Complex.normSq_mul, Complex.normSq_mul, Complex.normSq_mul, Complex.normSq_conj, Complex.normSq_neg, Complex.normSq_I,
      one_mul]
    have : g1 * g2 < Complex.normSq (conj w - u) := by
      rw [Complex.normSq_apply]
      simp only [Complex.sub_im, Complex.conj_im]
      have e1 : u.im = -g1 / 2 := by linarith
      have e2 : w.im = -g2 / 2 := by linarith
      rw [e1, e2]
      have : 0 < (g1 - g2) ^ 2 := by
        have : g1 - g2 ≠ 0 := sub_ne_zero.2 hne
        positivity
      nlinarith [mul_self_nonneg ((conj w - u).re)]
    have hm := mul_lt_mul_of_pos_left this (mul_pos hn1 hn2)
    linarith
  have hbR := (mem_R h).2 hb
  have hbpR := (mem_R h).2 hbp
  let X : Nat → ℂ := fun y => if y = b then -z else if y = bp then ((Complex.normSq T1 * g1 : ℝ) : ℂ) else 0
  have hX0 : v.prob (dens v la (φ 0)) (q + 1) X = 0 := by
    rw [View.prob_eq]
    unfold qf
    rw [sum_eq_zero]
    · rfl
    · intro x hx
      refine sum_eq_zero fun y hy => ?_
      rw [hd _ x ((mem_R h).1 hx) y ((mem_R h).1 hy)]
      simp
  have key := deriv_prob h hc hφ hall hX0
  have two : ∀ f : Nat → ℂ, (∀ y ∈ v.R (q + 1), y ≠ b → y ≠ bp → f y = 0) → ∑ y ∈ v.R (q + 1), f y = f b + f bp := by
    intro f hf
    rw [← sum_pair hbb]
    symm
    apply sum_subset
    · intro y hy
      simp only [mem_insert, mem_singleton] at hy
      rcases hy with rfl | rfl
      · exact hbR
      · exact hbpR
    · intro y hy hn
      simp only [mem_insert, mem_singleton, not_or] at hn
      exact hf y hy hn.1 hn.2
  have hX : v.prob (dens v la (m.app (φ 0))) (q + 1) X =
      Complex.normSq T1 * g1 * (Complex.normSq T1 * g1 * (Complex.normSq T2 * g2) - Complex.normSq z) := by
    rw [View.prob_eq]
    unfold qf
    have x0 : ∀ y, y ≠ b → y ≠ bp → X y = 0 := by
      intro y h1 h2; simp only [X, if_neg h1, if_neg h2]
    have xb : X b = -z := by simp only [X, if_true]
    have xbp : X bp = ((Complex.normSq T1 * g1 : ℝ) : ℂ) := by simp only [X, if_neg (Ne.symm hbb), if_true]
    rw [two]
    · rw [two, two]
      · rw [d11, d22, d21, ← hz, xb, xbp]
        have hzz : conj z * z = (Complex.normSq z : ℂ) := by rw [mul_comm, Complex.mul_conj]
        rw [Complex.conj_ofReal, map_neg]
        have : -conj z * ((Complex.normSq T1 * g1 : ℝ) : ℂ) * -z + -conj z * z * ((Complex.normSq T1 * g1 : ℝ) : ℂ) +
            (((Complex.normSq T1 * g1 : ℝ) : ℂ) * conj z * -z +
              ((Complex.normSq T1 * g1 : ℝ) : ℂ) * ((Complex.normSq T2 * g2 : ℝ) : ℂ) * ((Complex.normSq T1 * g1 : ℝ) : ℂ)) =
            ((Complex.normSq T1 * g1 * (Complex.normSq T1 * g1 * (Complex.normSq T2 * g2) - Complex.normSq z) : ℝ) : ℂ) := by
          push_cast
          rw [← hzz]
          ring
        rw [this, Complex.ofReal_re]
      · intro y _ h1 h2; rw [x0 y h1 h2, mul_zero]
      · intro y _ h1 h2; rw [x0 y h1 h2, mul_zero]
    · intro y _ h1 h2
      refine sum_eq_zero fun _ _ => ?_
      rw [x0 y h1 h2, map_zero, zero_mul, zero_mul]
  rw [hX] at key
  have : 0 < Complex.normSq T1 * g1 := mul_pos hn1 hpos
  nlinarith

/-- **C73** does not hold for 1vN: if two states with an electron more are reached from a state with different rates then the
density matrix that starts in that state does not stay positive. -/
theorem c73_1vN_false (symq : Bool) (lib : NumLib) (E : Nat → ℝ) (L : Leads) {q a b bp : Nat}
    (hr : FilledApart v la E L q a b bp) :
    ∃ f m, genFct1vN v lib E L = .ok f ∧ VN1.kernel v symq E L.Tba f = .ok m ∧
      ∃ φ, v.Evolves m φ ∧ v.Positive (dens v la (φ 0)) ∧ ∃ t, 0 < t ∧ ¬ v.Positive (dens v la (φ t)) := by
  obtain ⟨f, gf, hf⟩ := fillFct_ok h (⟨0, 0, 0, 0⟩ : Amp) (amp1vN lib E L)
  obtain ⟨m, g, hc, _, rows⟩ := assemble_rows h symq E (VN1.coup v L.Tba f) _
    (fun c b bp hb hbp hi => VN1.coup_ok h L.Tba f hb hbp hi)
  exact ⟨f, m, gf, g, Coh.not_positive h lib E L hr (fun x hx => by
    rw [hf q x a 0 hx hr.ha (by rw [hr.one]; exact zero_lt_one)]) hc rows⟩

/-- **C73** does not hold for Redfield either. -/
theorem c73_redfield_false (symq : Bool) (lib : NumLib) (E : Nat → ℝ) (L : Leads) {q a b bp : Nat}
    (hr : FilledApart v la E L q a b bp) :
    ∃ f m, genFct1vN v lib E L = .ok f ∧ Redfield.kernel v symq E L.Tba f = .ok m ∧
      ∃ φ, v.Evolves m φ ∧ v.Positive (dens v la (φ 0)) ∧ ∃ t, 0 < t ∧ ¬ v.Positive (dens v la (φ t)) := by
  obtain ⟨f, gf, hf⟩ := fillFct_ok h (⟨0, 0, 0, 0⟩ : Amp) (amp1vN lib E L)
  obtain ⟨m, g, hc, _, rows⟩ := assemble_rows h symq E (Redfield.coup v L.Tba f) _
    (fun c b bp hb hbp hi => Redfield.coup_ok h L.Tba f hb hbp hi)
  exact ⟨f, m, gf, g, Coh.not_positive h lib E L hr (fun x hx => by
    rw [hf q x a 0 hx hr.ha (by rw [hr.one]; exact zero_lt_one)]) hc rows⟩

end

/-- The hypothesis on the coherences holds for objects of class `StateIndexingDM` with 'Lin', 'charge' or 'sz' indexing,
whatever states were removed. -/
theorem closed_of_reach {n nleads : Nat} {indexing : String} {d : DM} {S : List (List Nat)} (h : Reach .dm n indexing d S)
    (hix : d.si.indexing ≠ .ssq) (hS : S.length = n + 1) : (d.view nleads).Closed d.labOf := by
  obtain ⟨hi, hk, _⟩ := h.inv
  have L := (hi.lab hix).dm hk
  have hrow : ∀ c, (d.view nleads).row c = rowOf S c := by
    intro c
    simp only [View.row, DM.view, hi.sdm, rowOf]
    rcases Nat.lt_trichotomy c S.length with hc | hc | hc
    · rw [List.getElem?_append_left hc]
    · subst hc; simp
    · rw [List.getElem?_eq_none (by simp; omega), List.getElem?_eq_none (by omega)]
  have hlt : ∀ c b, b ∈ (d.view nleads).row c → c < n + 1 := by
    intro c b hb
    have := (view_ok (nleads := nleads) h hix hS).row_lt hb
    have e := hi.shape.ncharge
    simp only [DM.view] at this
    omega
  have key : ∀ c, ∀ b ∈ (d.view nleads).row c, ∀ bp ∈ (d.view nleads).row c, b ≠ bp →
      d.labOf.inc c b bp = inclOf d.si.indexing (szOf n d.si) b bp := by
    intro c b hb bp hbp hne
    have hc := hlt c b hb
    rw [hrow] at hb hbp
    cases e : inclOf d.si.indexing (szOf n d.si) b bp
    · have a := (L.excl c b bp hc hb hbp hne e).1
      simp only [DM.labOf, a, okD]
      simp
    · obtain ⟨k, x, _, _, a, _⟩ := L.off c b bp hc hb hbp hne e
      simp only [DM.labOf, a, okD]
      simp
  have hv := view_ok (nleads := nleads) h hix hS
  intro q a ha b hb c hc h1 h2
  by_cases e1 : a = b
  · rw [e1]; exact h2
  by_cases e2 : b = c
  · rw [← e2]; exact h1
  by_cases e3 : a = c
  · rw [← e3]; exact hv.inc_diag q a ha
  rw [key q a ha b hb e1] at h1
  rw [key q b hb c hc e2] at h2
  rw [key q a ha c hc e3]
  unfold inclOf at *
  split at h1
  · rename_i hz
    rw [if_pos hz] at h2 ⊢
    simp only [decide_eq_true_eq] at *
    omega
  · rename_i hz
    rw [if_neg hz]

/-- The hypotheses of the theorems for C73 hold for two levels of different energy coupled to one lead; with coherences. -/
example : ∃ (v : View) (la : Lab) (E : Nat → ℝ) (L : Leads), VOk v la ∧ v.Closed la ∧ 0 < v.npauli ∧
    la.inc 1 1 2 = true ∧ FilledApart v la E L 0 0 1 2 := by
  obtain ⟨d, hd, hv, hst, hnp, _⟩ := view_example' 1
  obtain ⟨d', hd', _, ha', _, _⟩ := RTD.view_all
  rw [hd] at hd'
  cases hd'
  have r0 : (d.view 1).row 0 = [0] := by show (d.statesdm[0]?).getD [] = _; rw [hst]; rfl
  have r1 : (d.view 1).row 1 = [1, 2] := by show (d.statesdm[1]?).getD [] = _; rw [hst]; rfl
  have ha : ∀ c b bp, b ∈ (d.view 1).row c → bp ∈ (d.view 1).row c → d.labOf.inc c b bp = true := ha'
  let L : Leads := ⟨fun _ => 0, fun _ => 1, fun _ => -60, fun _ => 60, fun _ _ _ => 1, 1, 10000⟩
  have rate : ∀ x : ℝ, x ≤ 700 → (L.rate 0 x).1 = 2 * Real.pi * (1 / (Real.exp x + 1)) := by
    intro x hx
    simp only [Leads.rate, funcPauli, L, sub_zero, div_one, fermiFunc]
    rw [if_pos (by simp), if_neg (by norm_num; linarith)]
  refine ⟨d.view 1, d.labOf, fun b => b, L, hv, fun q a ha1 b hb c hc _ _ => ha q a c ha1 hc, ?_,
    ha 1 1 2 (by rw [r1]; simp) (by rw [r1]; simp), rfl, Or.inr (Or.inl rfl), fun _ _ _ => by simp [L], by rw [r0]; simp,
    by rw [r1]; simp, by rw [r1]; simp, ha 1 1 2 (by rw [r1]; simp) (by rw [r1]; simp), one_ne_zero, one_ne_zero, ?_, ?_⟩
  · show 0 < d.npauli
    omega
  · rw [rate _ (by norm_num)]
    positivity
  · rw [rate _ (by norm_num), rate _ (by norm_num)]
    have h1 : Real.exp ((1 : ℕ) - (0 : ℕ) : ℝ) < Real.exp ((2 : ℕ) - (0 : ℕ) : ℝ) := by
      apply Real.exp_lt_exp.2; norm_num
    have h2 := Real.exp_pos ((1 : ℕ) - (0 : ℕ) : ℝ)
    have h3 : 1 / (Real.exp ((2 : ℕ) - (0 : ℕ) : ℝ) + 1) < 1 / (Real.exp ((1 : ℕ) - (0 : ℕ) : ℝ) + 1) :=
      one_div_lt_one_div_of_lt (by linarith) (by linarith)
    have h4 := mul_lt_mul_of_pos_left h3 Real.two_pi_pos
    exact ne_of_gt h4

end

end Verif
