import Verif.Spec.SpinMult
import Verif.Lemmas.Symm

/-! A matrix that commutes with `S⁺` and `S⁻` does not distinguish the members of a multiplet. -/

namespace Verif

open Finset

noncomputable section

variable {v : View} {Z Q A : Nat → Int}

/-- Turn all spins. -/
theorem Mult.flip (h : Mult v Z Q A) : Mult v (fun b => -Z b) Q A where
  rng c b hb := by have := h.rng c b hb; omega
  full c b hb z h1 h2 h3 := by
    obtain ⟨b', g1, g2, g3, g4⟩ := h.full c b hb (-z) (by omega) (by omega) (by omega)
    exact ⟨b', g1, by omega, g3, g4⟩
  inj c b hb b' hb' h1 := h.inj c b hb b' hb' (by omega)

theorem sUp_flip (b y : Nat) : sUp (fun b => -Z b) Q A b y = sDn Z Q A b y := by
  unfold sDn sUp
  by_cases e : Q b = Q y ∧ A b = A y ∧ -Z b = -Z y + 2
  · rw [if_pos e, if_pos ⟨e.1.symm, e.2.1.symm, by omega⟩]
    have e1 : (Q b : ℝ) = Q y := by rw [e.1]
    have e2 : (Z y : ℝ) = Z b + 2 := by
      have : Z y = Z b + 2 := by omega
      rw [this]; push_cast; ring
    congr 3
    push_cast
    rw [e1, e2]
    ring
  · rw [if_neg e, if_neg fun h => e ⟨h.1.symm, h.2.1.symm, by omega⟩]

theorem sDn_flip (b y : Nat) : sDn (fun b => -Z b) Q A b y = sUp Z Q A b y := by
  have := sUp_flip (Z := fun b => -Z b) (Q := Q) (A := A) b y
  rw [← this]
  simp

theorem Isotropic.flip {ρ : Nat → Nat → Nat → ℂ} (h : Isotropic v Z Q A ρ) : Isotropic v (fun b => -Z b) Q A ρ where
  diff c b hb bp hbp e := h.diff c b hb bp hbp fun e' => e ⟨by omega, e'.2⟩
  same c b hb bp hbp b' hb' bp' hbp' h1 h2 h3 := h.same c b hb bp hbp b' hb' bp' hbp' (by omega) h2
    (by omega)

section
variable (h : Mult v Z Q A)
include h

/-- One step down. -/
theorem Mult.down {c b : Nat} (hb : b ∈ v.row c) (hz : Z b ≠ -Q b) :
    ∃ d ∈ v.row c, Z d = Z b - 2 ∧ Q d = Q b ∧ A d = A b := by
  have := h.rng c b hb
  exact h.full c b hb (Z b - 2) (by omega) (by omega) (by omega)

theorem Mult.up {c b : Nat} (hb : b ∈ v.row c) (hz : Z b ≠ Q b) :
    ∃ d ∈ v.row c, Z d = Z b + 2 ∧ Q d = Q b ∧ A d = A b := by
  have := h.rng c b hb
  exact h.full c b hb (Z b + 2) (by omega) (by omega) (by omega)

/-- The only state connected to `b` by `S⁺`. -/
theorem Mult.sum_left {c b d : Nat} (hb : b ∈ v.row c) (hd : d ∈ v.row c) (hz : Z d = Z b - 2) (hq : Q d = Q b)
    (ha : A d = A b) (F : Nat → ℂ) : ∑ y ∈ v.R c, sUp Z Q A b y * F y = sUp Z Q A b d * F d := by
  refine sum_eq_single_of_mem d (by simpa [View.R] using hd) fun y hy hne => ?_
  have hy' : y ∈ v.row c := by simpa [View.R] using hy
  rw [sUp, if_neg, zero_mul]
  rintro ⟨e1, e2, e3⟩
  exact hne (h.inj c y hy' d hd (by omega) (by omega) (by omega))

theorem Mult.sum_left0 {c b : Nat} (hb : b ∈ v.row c) (hz : Z b = -Q b) (F : Nat → ℂ) :
    ∑ y ∈ v.R c, sUp Z Q A b y * F y = 0 := by
  refine sum_eq_zero fun y hy => ?_
  have hy' : y ∈ v.row c := by simpa [View.R] using hy
  have := h.rng c y hy'
  rw [sUp, if_neg, zero_mul]
  rintro ⟨e1, e2, e3⟩
  omega

theorem Mult.sum_right {c b d : Nat} (hb : b ∈ v.row c) (hd : d ∈ v.row c) (hz : Z d = Z b + 2) (hq : Q d = Q b)
    (ha : A d = A b) (F : Nat → ℂ) : ∑ y ∈ v.R c, F y * sUp Z Q A y b = F d * sUp Z Q A d b := by
  refine sum_eq_single_of_mem d (by simpa [View.R] using hd) fun y hy hne => ?_
  have hy' : y ∈ v.row c := by simpa [View.R] using hy
  rw [sUp, if_neg, mul_zero]
  rintro ⟨e1, e2, e3⟩
  exact hne (h.inj c y hy' d hd (by omega) (by omega) (by omega))

theorem Mult.sum_right0 {c b : Nat} (hb : b ∈ v.row c) (hz : Z b = Q b) (F : Nat → ℂ) :
    ∑ y ∈ v.R c, F y * sUp Z Q A y b = 0 := by
  refine sum_eq_zero fun y hy => ?_
  have hy' : y ∈ v.row c := by simpa [View.R] using hy
  have := h.rng c y hy'
  rw [sUp, if_neg, mul_zero]
  rintro ⟨e1, e2, e3⟩
  omega

/-- Squares of the matrix elements. -/
def sq (Z Q : Nat → Int) (b : Nat) : ℝ := ((Q b : ℝ) * (Q b + 2) - Z b * (Z b - 2)) / 4

theorem Mult.sUp_sq {c b d : Nat} (hb : b ∈ v.row c) (hd : d ∈ v.row c) (hz : Z d = Z b - 2) (hq : Q d = Q b)
    (ha : A d = A b) : sUp Z Q A b d * sUp Z Q A b d = ((sq Z Q b : ℝ) : ℂ) ∧ sUp Z Q A b d ≠ 0 := by
  have r1 := h.rng c b hb
  have r2 := h.rng c d hd
  have e : sUp Z Q A b d = ((Real.sqrt ((Q d : ℝ) * (Q d + 2) - Z d * (Z d + 2)) / 2 : ℝ) : ℂ) :=
    if_pos ⟨hq.symm, ha.symm, by omega⟩
  have hpos : 0 < (Q d : ℝ) * (Q d + 2) - Z d * (Z d + 2) := by
    have : 0 < Q d * (Q d + 2) - Z d * (Z d + 2) := by
      have h1 : Q d * (Q d + 2) - Z d * (Z d + 2) = (Q d - Z d) * (Q d + Z d + 2) := by ring
      rw [h1]
      exact mul_pos (by omega) (by omega)
    exact_mod_cast this
  have e2 : (Q d : ℝ) * (Q d + 2) - Z d * (Z d + 2) = 4 * sq Z Q b := by
    unfold sq
    rw [hz, hq]
    push_cast
    ring
  rw [e]
  constructor
  · rw [← Complex.ofReal_mul]
    congr 1
    have := Real.mul_self_sqrt hpos.le
    rw [div_mul_div_comm, this, e2]
    ring
  · rw [Complex.ofReal_ne_zero]
    have := Real.sqrt_pos.2 hpos
    positivity

theorem Mult.sq_zero {c b : Nat} (hb : b ∈ v.row c) (hz : Z b = -Q b) : sq Z Q b = 0 := by
  unfold sq
  rw [hz]
  push_cast
  ring

theorem Mult.sq_comm {c : Nat} {σ : Nat → Nat → ℂ}
    (hu : ∀ b ∈ v.row c, ∀ bp ∈ v.row c, comm (v.R c) (v.R c) (sUp Z Q A) σ b bp = 0)
    (hd : ∀ b ∈ v.row c, ∀ bp ∈ v.row c, comm (v.R c) (v.R c) (sDn Z Q A) σ b bp = 0)
    {b bp : Nat} (hb : b ∈ v.row c) (hbp : bp ∈ v.row c) :
    ((sq Z Q b : ℝ) : ℂ) * σ b bp = ((sq Z Q bp : ℝ) : ℂ) * σ b bp := by
  have hu' : ∀ b ∈ v.row c, ∀ bp ∈ v.row c, ∑ y ∈ v.R c, sUp Z Q A b y * σ y bp = ∑ y ∈ v.R c, σ b y * sUp Z Q A y bp :=
    fun b hb bp hbp => sub_eq_zero.1 (hu b hb bp hbp)
  have hd' : ∀ b ∈ v.row c, ∀ bp ∈ v.row c, ∑ y ∈ v.R c, sDn Z Q A b y * σ y bp = ∑ y ∈ v.R c, σ b y * sDn Z Q A y bp :=
    fun b hb bp hbp => sub_eq_zero.1 (hd b hb bp hbp)
  by_cases e1 : Z b = -Q b
  · by_cases e2 : Z bp = -Q bp
    · rw [h.sq_zero hb e1, h.sq_zero hbp e2]
    · obtain ⟨d, m1, m2, m3, m4⟩ := h.down hbp e2
      have := hu' b hb d m1
      rw [h.sum_left0 hb e1, h.sum_right m1 hbp (by omega) m3.symm m4.symm] at this
      have h2 := (h.sUp_sq hbp m1 m2 m3 m4).2
      have : σ b bp = 0 := by
        rcases mul_eq_zero.1 this.symm with h | h
        · exact h
        · exact absurd h h2
      rw [this]; simp
  · obtain ⟨d, m1, m2, m3, m4⟩ := h.down hb e1
    have s1 := h.sUp_sq hb m1 m2 m3 m4
    have k1 := hd' d m1 bp hbp
    simp only [sDn] at k1
    have e3 : ∑ y ∈ v.R c, sUp Z Q A y d * σ y bp = σ b bp * sUp Z Q A b d := by
      rw [← h.sum_right m1 hb (by omega) m3.symm m4.symm (fun y => σ y bp)]
      exact sum_congr rfl fun y _ => mul_comm _ _
    have e4 : ∑ y ∈ v.R c, σ d y * sUp Z Q A bp y = ∑ y ∈ v.R c, sUp Z Q A bp y * σ d y :=
      sum_congr rfl fun y _ => mul_comm _ _
    rw [e3, e4] at k1
    by_cases e2 : Z bp = -Q bp
    · rw [h.sum_left0 hbp e2] at k1
      have : σ b bp = 0 := by
        rcases mul_eq_zero.1 k1 with h | h
        · exact h
        · exact absurd h s1.2
      rw [this]; simp
    · obtain ⟨d', n1, n2, n3, n4⟩ := h.down hbp e2
      have s2 := h.sUp_sq hbp n1 n2 n3 n4
      rw [h.sum_left hbp n1 n2 n3 n4 (fun y => σ d y)] at k1
      have k2 := hu' b hb d' n1
      rw [h.sum_left hb m1 m2 m3 m4 (fun y => σ y d'), h.sum_right n1 hbp (by omega) n3.symm n4.symm] at k2
      rw [← s1.1, ← s2.1]
      linear_combination sUp Z Q A b d * k1 + sUp Z Q A bp d' * k2

/-- A matrix that commutes with `S⁺` and `S⁻`: elements between different spins or projections. -/
theorem Mult.comm_diff {c : Nat} {σ : Nat → Nat → ℂ}
    (hu : ∀ b ∈ v.row c, ∀ bp ∈ v.row c, comm (v.R c) (v.R c) (sUp Z Q A) σ b bp = 0)
    (hd : ∀ b ∈ v.row c, ∀ bp ∈ v.row c, comm (v.R c) (v.R c) (sDn Z Q A) σ b bp = 0)
    {b bp : Nat} (hb : b ∈ v.row c) (hbp : bp ∈ v.row c) (hne : ¬ (Z b = Z bp ∧ Q b = Q bp)) : σ b bp = 0 := by
  by_contra h0
  have k1 := mul_right_cancel₀ h0 (h.sq_comm hu hd hb hbp)
  have fu : sUp (fun b => -Z b) Q A = sDn Z Q A := by funext b y; exact sUp_flip b y
  have fd : sDn (fun b => -Z b) Q A = sUp Z Q A := by funext b y; exact sDn_flip b y
  have k2 := mul_right_cancel₀ h0 (h.flip.sq_comm (σ := σ) (by rw [fu]; exact hd) (by rw [fd]; exact hu) hb hbp)
  have k1' := Complex.ofReal_injective k1
  have k2' := Complex.ofReal_injective k2
  unfold sq at k1' k2'
  push_cast at k2'
  have r1 := h.rng c b hb
  have r2 := h.rng c bp hbp
  have z : (Z b : ℝ) = Z bp := by linarith
  have z' : Z b = Z bp := by exact_mod_cast z
  have q : (Q b : ℝ) * (Q b + 2) = Q bp * (Q bp + 2) := by rw [z] at k1'; linarith
  have q' : Q b * (Q b + 2) = Q bp * (Q bp + 2) := by exact_mod_cast q
  have q2 : (Q b - Q bp) * (Q b + Q bp + 2) = 0 := by linarith
  rcases mul_eq_zero.1 q2 with e | e
  · exact hne ⟨z', by omega⟩
  · omega

/-- Elements of corresponding members. -/
theorem Mult.comm_same {c : Nat} {σ : Nat → Nat → ℂ}
    (hu : ∀ b ∈ v.row c, ∀ bp ∈ v.row c, comm (v.R c) (v.R c) (sUp Z Q A) σ b bp = 0) :
    ∀ (k : Nat) (b bp b' bp' : Nat), b ∈ v.row c → bp ∈ v.row c → b' ∈ v.row c → bp' ∈ v.row c → Z b = Z bp →
      Q b = Q bp → Z b' = Z bp' → Q b = Q b' → A b = A b' → Q bp = Q bp' → A bp = A bp' → Z b = Z b' + 2 * k →
      σ b bp = σ b' bp' := by
  intro k
  induction k with
  | zero =>
    intro b bp b' bp' hb hbp hb' hbp' h1 h2 h3 h4 h5 h6 h7 h8
    rw [h.inj c b hb b' hb' (by omega) h4 h5, h.inj c bp hbp bp' hbp' (by omega) h6 h7]
  | succ k ih =>
    intro b bp b' bp' hb hbp hb' hbp' h1 h2 h3 h4 h5 h6 h7 h8
    have r := h.rng c b' hb'
    obtain ⟨d, m1, m2, m3, m4⟩ := h.down hb (by omega)
    obtain ⟨d', n1, n2, n3, n4⟩ := h.down hbp (by omega)
    rw [← ih d d' b' bp' m1 n1 hb' hbp' (by omega) (by omega) h3 (by omega) (by omega) (by omega) (by omega) (by omega)]
    have k2 := sub_eq_zero.1 (hu b hb d' n1)
    rw [h.sum_left hb m1 m2 m3 m4 (fun y => σ y d'), h.sum_right n1 hbp (by omega) n3.symm n4.symm] at k2
    have s1 := h.sUp_sq hb m1 m2 m3 m4
    have e : sUp Z Q A bp d' = sUp Z Q A b d := by
      unfold sUp
      rw [if_pos ⟨n3.symm, n4.symm, by omega⟩, if_pos ⟨m3.symm, m4.symm, by omega⟩]
      rw [show Q d' = Q d by omega, show Z d' = Z d by omega]
    rw [e, mul_comm] at k2
    exact (mul_right_cancel₀ s1.2 k2).symm

theorem Mult.isotropic {σ : Nat → Nat → Nat → ℂ}
    (hu : ∀ c, ∀ b ∈ v.row c, ∀ bp ∈ v.row c, comm (v.R c) (v.R c) (sUp Z Q A) (σ c) b bp = 0)
    (hd : ∀ c, ∀ b ∈ v.row c, ∀ bp ∈ v.row c, comm (v.R c) (v.R c) (sDn Z Q A) (σ c) b bp = 0) :
    Isotropic v Z Q A σ where
  diff c b hb bp hbp hne := h.comm_diff (hu c) (hd c) hb hbp hne
  same c b hb bp hbp b' hb' bp' hbp' h1 h2 h3 h4 h5 h6 h7 := by
    have r1 := h.rng c b hb
    have r2 := h.rng c b' hb'
    rcases le_total (Z b') (Z b) with hle | hle
    · exact h.comm_same (hu c) ((Z b - Z b') / 2).toNat b bp b' bp' hb hbp hb' hbp' h1 h2 h3 h4 h5 h6 h7 (by omega)
    · exact (h.comm_same (hu c) ((Z b' - Z b) / 2).toNat b' bp' b bp hb' hbp' hb hbp h3 (by omega) h1 h4.symm h5.symm h6.symm
        h7.symm (by omega)).symm

/-- The converse. -/
theorem Isotropic.comm_up {ρ : Nat → Nat → Nat → ℂ} (hρ : Isotropic v Z Q A ρ) {c b bp : Nat} (hb : b ∈ v.row c)
    (hbp : bp ∈ v.row c) : comm (v.R c) (v.R c) (sUp Z Q A) (ρ c) b bp = 0 := by
  have rb := h.rng c b hb
  have rp := h.rng c bp hbp
  unfold comm
  by_cases e : Q b = Q bp ∧ Z b = Z bp + 2
  · obtain ⟨d, m1, m2, m3, m4⟩ := h.down hb (by omega)
    obtain ⟨u, n1, n2, n3, n4⟩ := h.up hbp (by omega)
    rw [h.sum_left hb m1 m2 m3 m4 (fun y => ρ c y bp), h.sum_right hbp n1 n2 n3 n4,
      hρ.same c d m1 bp hbp b hb u n1 (by omega) (by omega) (by omega) (by omega) (by omega) (by omega) (by omega)]
    have : sUp Z Q A u bp = sUp Z Q A b d := by
      unfold sUp
      rw [if_pos ⟨n3, n4, n2⟩, if_pos ⟨m3.symm, m4.symm, by omega⟩, m3, show Z bp = Z d by omega, e.1]
    rw [this]
    ring
  · rw [sum_eq_zero, sum_eq_zero, sub_zero]
    · intro y hy
      have hy' : y ∈ v.row c := by simpa [View.R] using hy
      by_cases e2 : Q y = Q bp ∧ A y = A bp ∧ Z y = Z bp + 2
      · rw [hρ.diff c b hb y hy' (by rintro ⟨a1, a2⟩; exact e ⟨by omega, by omega⟩), zero_mul]
      · rw [sUp, if_neg e2, mul_zero]
    · intro y hy
      have hy' : y ∈ v.row c := by simpa [View.R] using hy
      by_cases e2 : Q b = Q y ∧ A b = A y ∧ Z b = Z y + 2
      · rw [hρ.diff c y hy' bp hbp (by rintro ⟨a1, a2⟩; exact e ⟨by omega, by omega⟩), mul_zero]
      · rw [sUp, if_neg e2, zero_mul]

theorem Isotropic.comm_dn {ρ : Nat → Nat → Nat → ℂ} (hρ : Isotropic v Z Q A ρ) {c b bp : Nat} (hb : b ∈ v.row c)
    (hbp : bp ∈ v.row c) : comm (v.R c) (v.R c) (sDn Z Q A) (ρ c) b bp = 0 := by
  have fu : sUp (fun b => -Z b) Q A = sDn Z Q A := by funext b y; exact sUp_flip b y
  rw [← fu]
  exact hρ.flip.comm_up h.flip hb hbp

end

end

end Verif
