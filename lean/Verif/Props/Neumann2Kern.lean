import Verif.Lemmas.Neumann2Kern
import Verif.Props.ViewC

/-!
C27: conservation of the trace and of the particle current in the 2vN approach.
-/

namespace Verif

open Finset

noncomputable section

namespace VN2

/-- The tunnelling amplitudes are those of a Hermitian Hamiltonian. -/
def HermT (T : Nat → Nat → Nat → ℂ) : Prop := ∀ l b c, T l c b = (starRingEnd ℂ) (T l b c)

/-- The vector holds a Hermitian density matrix. -/
def HermV (v : View) (lab : Nat → Nat → Nat → Nat) (φ : Nat → ℂ) : Prop :=
  ∀ c b bp, b ∈ v.row c → bp ∈ v.row c → φ (lab c bp b) = (starRingEnd ℂ) (φ (lab c b bp))

/-- `φ` is annihilated by the equations of the kernel. -/
def Stationary (v : View) (K : CMat) (φ : Nat → ℂ) : Prop :=
  ∀ i, i < v.ndm0 → ∑ j ∈ range v.ndm0, K.val i j * φ j = 0

section

variable {v : View} {lab ix1 : Nat → Nat → Nat → Nat} (h : VOkC v lab ix1)

include h

/-- The vector holding the adjoint matrix. -/
theorem adjoint_exists (φ : Nat → ℂ) : ∃ ψ : Nat → ℂ, ∀ c b bp, b ∈ v.row c → bp ∈ v.row c →
    ψ (lab c b bp) = (starRingEnd ℂ) (φ (lab c bp b)) := by
  have key : ∀ k, ∃ z : ℂ, ∀ c b bp, b ∈ v.row c → bp ∈ v.row c → lab c b bp = k → z = (starRingEnd ℂ) (φ (lab c bp b)) := by
    intro k
    by_cases hk : ∃ c b bp, b ∈ v.row c ∧ bp ∈ v.row c ∧ lab c b bp = k
    · obtain ⟨c, b, bp, hb, hbp, e⟩ := hk
      refine ⟨(starRingEnd ℂ) (φ (lab c bp b)), fun c' b' bp' hb' hbp' e' => ?_⟩
      · obtain ⟨rfl, rfl, rfl⟩ := h.lab_inj _ _ _ _ _ _ hb hbp hb' hbp' (e.trans e'.symm)
        rfl
    · exact ⟨0, fun c b bp hb hbp e => absurd ⟨c, b, bp, hb, hbp, e⟩ hk⟩
  choose ψ hψ using key
  exact ⟨ψ, fun c b bp hb hbp => hψ _ c b bp hb hbp rfl⟩

/-- The conjugated elements act as the conjugate on the adjoint. -/
theorem sum_conj (P : C3) {φ ψ : Nat → ℂ} (hψ : ∀ c b bp, b ∈ v.row c → bp ∈ v.row c →
    ψ (lab c b bp) = (starRingEnd ℂ) (φ (lab c bp b))) (l i : Nat) :
    ∑ q ∈ range v.ncharge, ∑ d ∈ v.R q, ∑ dp ∈ v.R q, (starRingEnd ℂ) (P l i (lab q dp d)) * φ (lab q d dp)
      = (starRingEnd ℂ) (∑ j ∈ range v.ndm0, P l i j * ψ j) := by
  rw [h.sum_all, map_sum]
  refine sum_congr rfl fun q _ => ?_
  rw [sum_comm, map_sum]
  refine sum_congr rfl fun d hd => ?_
  rw [map_sum]
  refine sum_congr rfl fun dp hdp => ?_
  rw [map_mul, hψ q d dp (h.mem_R.1 hd) (h.mem_R.1 hdp)]
  simp

/-- The action of the kernel on a vector. -/
theorem genKern_act {E : Nat → ℝ} {T : Nat → Nat → Nat → ℂ} {P : C3} {K K' : CMat} (e : genKern v E T P K = .ok K')
    (h0 : ∀ r j, K.val r j = 0) {φ ψ : Nat → ℂ} (hψ : ∀ c b bp, b ∈ v.row c → bp ∈ v.row c →
      ψ (lab c b bp) = (starRingEnd ℂ) (φ (lab c bp b))) {c b bp : Nat} (hb : b ∈ v.row c) (hbp : bp ∈ v.row c) :
    ∑ j ∈ range v.ndm0, K'.val (lab c b bp) j * φ j
      = ((E b - E bp : ℝ) : ℂ) * φ (lab c b bp)
        + (∑ a ∈ v.Lo c, ∑ l ∈ range v.nleads,
            (T l b a * (starRingEnd ℂ) (dotP v P ⟨v.ndm0, ψ⟩ l (ix1 (c - 1) bp a))
              - dotP v P ⟨v.ndm0, φ⟩ l (ix1 (c - 1) b a) * T l a bp)
        + ∑ c1 ∈ v.R (c + 1), ∑ l ∈ range v.nleads,
            (T l b c1 * dotP v P ⟨v.ndm0, φ⟩ l (ix1 c c1 bp)
              - (starRingEnd ℂ) (dotP v P ⟨v.ndm0, ψ⟩ l (ix1 c c1 b)) * T l c1 bp)) := by
  have hE : ∑ j ∈ range v.ndm0, (if j = lab c b bp then ((E b - E bp : ℝ) : ℂ) else 0) * φ j
      = ((E b - E bp : ℝ) : ℂ) * φ (lab c b bp) := by
    simp [h.lab_lt c b bp hb hbp]
  have hP : ∀ l i, ∑ q ∈ range v.ncharge, ∑ d ∈ v.R q, ∑ dp ∈ v.R q, P l i (lab q d dp) * φ (lab q d dp)
      = dotP v P ⟨v.ndm0, φ⟩ l i := by
    intro l i
    rw [← h.sum_all fun k => P l i k * φ k]
    rfl
  have hC : ∀ l i, ∑ q ∈ range v.ncharge, ∑ d ∈ v.R q, ∑ dp ∈ v.R q,
      (starRingEnd ℂ) (P l i (lab q dp d)) * φ (lab q d dp)
      = (starRingEnd ℂ) (dotP v P ⟨v.ndm0, ψ⟩ l i) := fun l i => sum_conj h P hψ l i
  -- exchange of the sum over the columns with the sums over states and leads
  have sw : ∀ (S : Finset Nat) (f : Nat → Nat → Nat → Nat → Nat → ℂ) (g : Nat → Nat → ℂ),
      (∀ a ∈ S, ∀ l, ∑ q ∈ range v.ncharge, ∑ d ∈ v.R q, ∑ dp ∈ v.R q, f a l q d dp * φ (lab q d dp) = g a l) →
      ∑ q ∈ range v.ncharge, ∑ d ∈ v.R q, ∑ dp ∈ v.R q,
        (∑ a ∈ S, ∑ l ∈ range v.nleads, f a l q d dp) * φ (lab q d dp) = ∑ a ∈ S, ∑ l ∈ range v.nleads, g a l := by
    intro S f g hg
    simp only [sum_mul]
    have e1 : ∀ q d, ∑ dp ∈ v.R q, ∑ a ∈ S, ∑ l ∈ range v.nleads, f a l q d dp * φ (lab q d dp)
        = ∑ a ∈ S, ∑ l ∈ range v.nleads, ∑ dp ∈ v.R q, f a l q d dp * φ (lab q d dp) := by
      intro q d
      rw [sum_comm]
      exact sum_congr rfl fun a _ => sum_comm
    simp only [e1]
    have e2 : ∀ q, ∑ d ∈ v.R q, ∑ a ∈ S, ∑ l ∈ range v.nleads, ∑ dp ∈ v.R q, f a l q d dp * φ (lab q d dp)
        = ∑ a ∈ S, ∑ l ∈ range v.nleads, ∑ d ∈ v.R q, ∑ dp ∈ v.R q, f a l q d dp * φ (lab q d dp) := by
      intro q
      rw [sum_comm]
      exact sum_congr rfl fun a _ => sum_comm
    simp only [e2]
    rw [sum_comm]
    refine sum_congr rfl fun a ha => ?_
    rw [sum_comm]
    exact sum_congr rfl fun l _ => hg a ha l
  rw [← hE, h.sum_all, h.sum_all]
  have split : ∀ q ∈ range v.ncharge, ∑ d ∈ v.R q, ∑ dp ∈ v.R q, K'.val (lab c b bp) (lab q d dp) * φ (lab q d dp)
      = ∑ d ∈ v.R q, ∑ dp ∈ v.R q,
          (if lab q d dp = lab c b bp then ((E b - E bp : ℝ) : ℂ) else 0) * φ (lab q d dp)
        + (∑ d ∈ v.R q, ∑ dp ∈ v.R q, (∑ a ∈ v.Lo c, ∑ l ∈ range v.nleads,
            (T l b a * (starRingEnd ℂ) (P l (ix1 (c - 1) bp a) (lab q dp d))
              - P l (ix1 (c - 1) b a) (lab q d dp) * T l a bp)) * φ (lab q d dp)
          + ∑ d ∈ v.R q, ∑ dp ∈ v.R q, (∑ c1 ∈ v.R (c + 1), ∑ l ∈ range v.nleads,
            (T l b c1 * P l (ix1 c c1 bp) (lab q d dp)
              - (starRingEnd ℂ) (P l (ix1 c c1 b) (lab q dp d)) * T l c1 bp)) * φ (lab q d dp)) := by
    intro q _
    simp only [← sum_add_distrib]
    refine sum_congr rfl fun d hd => sum_congr rfl fun dp hdp => ?_
    rw [genKern_val h e h0 hb hbp (h.mem_R.1 hd) (h.mem_R.1 hdp)]
    ring
  rw [sum_congr rfl split, sum_add_distrib, sum_add_distrib]
  congr 2
  · apply sw
    intro a _ l
    rw [← hP, ← hC, mul_sum, sum_mul, ← sum_sub_distrib]
    refine sum_congr rfl fun q _ => ?_
    rw [mul_sum, sum_mul, ← sum_sub_distrib]
    refine sum_congr rfl fun d _ => ?_
    rw [mul_sum, sum_mul, ← sum_sub_distrib]
    exact sum_congr rfl fun dp _ => by ring
  · apply sw
    intro a _ l
    rw [← hP, ← hC, mul_sum, sum_mul, ← sum_sub_distrib]
    refine sum_congr rfl fun q _ => ?_
    rw [mul_sum, sum_mul, ← sum_sub_distrib]
    refine sum_congr rfl fun d _ => ?_
    rw [mul_sum, sum_mul, ← sum_sub_distrib]
    exact sum_congr rfl fun dp _ => by ring

/-- The rows of the diagonal elements sum to zero in each column, for kernels made from a matrix of zeros of any size. -/
theorem trace_of_run {E : Nat → ℝ} {T : Nat → Nat → Nat → ℂ} {P : C3} {K K' : CMat} (e : genKern v E T P K = .ok K')
    (h0 : ∀ r j, K.val r j = 0) {j : Nat} (hj : j < v.ndm0) : ∑ i ∈ range v.npauli, K'.val i j = 0 := by
  obtain ⟨c', d, dp, hd, hdp, rfl⟩ := h.lab_surj j hj
  rw [h.sum_pop]
  obtain ⟨D, hD⟩ : ∃ D : Nat → Nat → Nat → ℂ, ∀ q c b, D q c b = ∑ l ∈ range v.nleads,
      (T l c b * (starRingEnd ℂ) (P l (ix1 q c b) (lab c' dp d)) - P l (ix1 q c b) (lab c' d dp) * T l b c) :=
    ⟨_, fun _ _ _ => rfl⟩
  obtain ⟨U, hU⟩ : ∃ U : Nat → Nat → Nat → ℂ, ∀ q c b, U q c b = ∑ l ∈ range v.nleads,
      (T l b c * P l (ix1 q c b) (lab c' d dp) - (starRingEnd ℂ) (P l (ix1 q c b) (lab c' dp d)) * T l c b) :=
    ⟨_, fun _ _ _ => rfl⟩
  have key : ∀ q ∈ range v.ncharge, ∑ b ∈ v.R q, K'.val (lab q b b) (lab c' d dp)
      = ∑ b ∈ v.R q, (∑ a ∈ v.Lo q, D (q - 1) b a + ∑ c1 ∈ v.R (q + 1), U q c1 b) := by
    intro q _
    refine sum_congr rfl fun b hb => ?_
    rw [genKern_val h e h0 (h.mem_R.1 hb) (h.mem_R.1 hb) hd hdp]
    simp [hD, hU]
  rw [sum_congr rfl key, h.balance]
  refine sum_eq_zero fun q _ => sum_eq_zero fun c _ => sum_eq_zero fun b _ => ?_
  rw [hD, hU, ← sum_add_distrib]
  exact sum_eq_zero fun l _ => by ring

/-- In a Hermitian state annihilated by the equations of the diagonal elements the currents sum to zero. -/
theorem current_of_run {E : Nat → ℝ} {T : Nat → Nat → Nat → ℂ} {P Q : C3} {K K' : CMat} (e : genKern v E T P K = .ok K')
    (h0 : ∀ r j, K.val r j = 0) (hT : HermT T) {φ : CVec} (hφ : HermV v lab φ.val)
    (hs : ∀ i, i < v.npauli → ∑ j ∈ range v.ndm0, K'.val i j * φ.val j = 0) {evs : List CEv}
    (hevs : genCurrent v T (dotP v P φ) (dotP v Q φ) = .ok evs) :
    ∑ l ∈ range v.nleads, current evs l = 0 := by
  obtain ⟨evs', e', hcur⟩ := genCurrent_ok h T (dotP v P φ) (dotP v Q φ)
  rw [hevs] at e'
  obtain rfl := Except.ok.inj e'
  have hψ : ∀ c b bp, b ∈ v.row c → bp ∈ v.row c → φ.val (lab c b bp) = (starRingEnd ℂ) (φ.val (lab c bp b)) :=
    fun c b bp hb hbp => hφ c bp b hbp hb
  have hd : ∀ l i, dotP v P ⟨v.ndm0, φ.val⟩ l i = dotP v P φ l i := fun _ _ => rfl
  -- the charge weighted sum of the diagonal equations
  obtain ⟨D, hD⟩ : ∃ D : Nat → Nat → Nat → ℂ, ∀ q c b, D q c b = ((q : ℂ) + 1) * ∑ l ∈ range v.nleads,
      (T l c b * (starRingEnd ℂ) (dotP v P φ l (ix1 q c b)) - dotP v P φ l (ix1 q c b) * T l b c) :=
    ⟨_, fun _ _ _ => rfl⟩
  obtain ⟨U, hU⟩ : ∃ U : Nat → Nat → Nat → ℂ, ∀ q c b, U q c b = (q : ℂ) * ∑ l ∈ range v.nleads,
      (T l b c * dotP v P φ l (ix1 q c b) - (starRingEnd ℂ) (dotP v P φ l (ix1 q c b)) * T l c b) :=
    ⟨_, fun _ _ _ => rfl⟩
  have hw : ∑ q ∈ range v.ncharge, ∑ b ∈ v.R q,
      (∑ a ∈ v.Lo q, D (q - 1) b a + ∑ c1 ∈ v.R (q + 1), U q c1 b) = 0 := by
    refine sum_eq_zero fun q _ => sum_eq_zero fun b hb => ?_
    have hb' := h.mem_R.1 hb
    have k1 := hs (lab q b b) ((h.lab_diag q b b hb' hb').2 rfl)
    rw [genKern_act h e h0 hψ hb' hb'] at k1
    simp only [sub_self, Complex.ofReal_zero, zero_mul, zero_add, hd] at k1
    simp only [hD, hU, ← mul_sum]
    rcases Nat.eq_zero_or_pos q with rfl | hq
    · simp [View.Lo, View.low]
    · have hcast : ((q - 1 : Nat) : ℂ) + 1 = q := by
        rw [Nat.cast_sub (by omega)]; push_cast; ring
      rw [hcast, ← mul_add, k1, mul_zero]
  rw [h.balance] at hw
  have hz : ∑ l ∈ range v.nleads, ((current evs l : ℝ) : ℂ) * Complex.I = 0 := by
    rw [← hw]
    have step : ∀ l ∈ range v.nleads, ((current evs l : ℝ) : ℂ) * Complex.I
        = ∑ q ∈ range (v.ncharge - 1), ∑ c ∈ v.R (q + 1), ∑ b ∈ v.R q,
          (T l c b * (starRingEnd ℂ) (dotP v P φ l (ix1 q c b)) - dotP v P φ l (ix1 q c b) * T l b c) := by
      intro l hl
      rw [(hcur l (mem_range.1 hl)).1]
      push_cast
      simp only [sum_mul]
      refine sum_congr rfl fun q _ => sum_congr rfl fun c _ => sum_congr rfl fun b _ => ?_
      rw [hT l b c]
      generalize dotP v P φ l (ix1 q c b) = x
      generalize T l b c = t
      apply Complex.ext <;> simp <;> ring
    rw [sum_congr rfl step, sum_comm]
    refine sum_congr rfl fun q _ => ?_
    rw [sum_comm]
    refine sum_congr rfl fun c _ => ?_
    rw [sum_comm]
    refine sum_congr rfl fun b _ => ?_
    rw [hD, hU, mul_sum, mul_sum, ← sum_add_distrib]
    exact sum_congr rfl fun l _ => by ring
  rw [← sum_mul] at hz
  have := (mul_eq_zero.1 hz).resolve_right Complex.I_ne_zero
  exact_mod_cast this

/-- The adjoint of a stationary state is stationary. -/
theorem adjoint_stationary {E : Nat → ℝ} {T : Nat → Nat → Nat → ℂ} {P : C3} {K K' : CMat}
    (e : genKern v E T P K = .ok K') (h0 : ∀ r j, K.val r j = 0) (hT : HermT T) {φ ψ : Nat → ℂ}
    (hψ : ∀ c b bp, b ∈ v.row c → bp ∈ v.row c → ψ (lab c b bp) = (starRingEnd ℂ) (φ (lab c bp b)))
    (hs : Stationary v K' φ) : Stationary v K' ψ := by
  have hφ : ∀ c b bp, b ∈ v.row c → bp ∈ v.row c → φ (lab c b bp) = (starRingEnd ℂ) (ψ (lab c bp b)) := by
    intro c b bp hb hbp
    rw [hψ c bp b hbp hb, Complex.conj_conj]
  intro i hi
  obtain ⟨c, bp, b, hbp, hb, rfl⟩ := h.lab_surj i hi
  have k := hs (lab c b bp) (h.lab_lt c b bp hb hbp)
  rw [genKern_act h e h0 hψ hb hbp] at k
  rw [genKern_act h e h0 hφ hbp hb]
  have hT' : ∀ l b c, (starRingEnd ℂ) (T l b c) = T l c b := fun l b c => (hT l b c).symm
  have k' := congrArg (fun z => -(starRingEnd ℂ) z) k
  simp only [map_add, map_mul, map_sum, map_sub, Complex.conj_conj, map_zero, neg_zero, Complex.conj_ofReal, hT'] at k'
  rw [← k', hψ c bp b hbp hb]
  push_cast
  simp only [neg_add, ← sum_neg_distrib]
  congr 1
  · ring
  · congr 1
    · exact sum_congr rfl fun a _ => sum_congr rfl fun l _ => by ring
    · exact sum_congr rfl fun a _ => sum_congr rfl fun l _ => by ring

end

end VN2

end

end Verif
