import Verif.Lemmas.SpinDict
import Verif.Lemmas.SpinDiag
import Verif.Spec.SpinBasis
import Verif.Spec.SpinMult
import Verif.Props.Multiplets

/-! Matrix elements of the spin and of tunnelling operators in a basis of spin multiplets. -/

namespace Verif
open Verif.Spec Matrix

variable {n : Nat}

/-- An orthonormal set of `2 ^ n` vectors is complete. -/
theorem ip_complete {ψ : Nat → Occ n → ℂ}
    (ho : ∀ a b, a < 2 ^ n → b < 2 ^ n → ip (ψ a) (ψ b) = if a = b then 1 else 0) (x y : Occ n → ℂ) :
    ip x y = ∑ c ∈ Finset.range (2 ^ n), ip x (ψ c) * ip (ψ c) y := by
  let U : Matrix (Occ n) (Fin (2 ^ n)) ℂ := fun s c => ψ c s
  have hU : Uᴴ * U = 1 := by
    ext a b
    rw [Matrix.mul_apply, Matrix.one_apply]
    have := ho a b a.2 b.2
    rw [ip_eq_sum] at this
    exact this.trans (if_congr Fin.ext_iff.symm rfl rfl)
  have hU' : U * Uᴴ = 1 := by
    exact (Matrix.mul_eq_one_comm_of_card_eq (Fin (2 ^ n)) (Occ n) ℂ (by simp)).1 hU
  have e : ip x y = ∑ c : Fin (2 ^ n), ip x (ψ c) * ip (ψ c) y := by
    have h1 : ip x y = ip x ((U * Uᴴ) *ᵥ y) := by rw [hU', Matrix.one_mulVec]
    rw [h1, ← Matrix.mulVec_mulVec]
    unfold ip
    rw [Matrix.dotProduct_mulVec]
    rfl
  rw [e, Finset.sum_range]

theorem ip_conj (x y : Occ n → ℂ) : starRingEnd ℂ (ip x y) = ip y x := by
  rw [ip_eq_sum, ip_eq_sum, map_sum]
  refine Finset.sum_congr rfl fun s _ => ?_
  rw [map_mul, Complex.conj_conj, mul_comm]

/-- The states of `v` have the quantum numbers of the table and form complete multiplets. -/
structure SpinRows (n : Nat) (si : SI) (v : View) : Prop extends Mult v si.spinZ si.spinS si.multNo where
  qn : ∀ c, ∀ b ∈ v.row c, ∃ α : Nat, HasQn si b c (si.spinZ b) (si.spinS b) α ∧ si.multNo b = α
  uniq : ∀ b b' c z q α, HasQn si b c z q α → HasQn si b' c z q α → b = b'
  raise : ∀ b c z q α, HasQn si b c z q α → z ≠ q → ∃ b', HasQn si b' c (z + 2) q α
  range : ∀ b c z q α, HasQn si b c z q α → -q ≤ z ∧ z ≤ q ∧ (z + q) % 2 = 0

section
variable {si : SI} {H : Matrix (Occ n) (Occ n) ℂ} {ψ : Nat → Occ n → ℂ} {E : Nat → ℝ} {v : View}
  (hB : SpinBasis si H ψ E) (hR : SpinRows n si v)
include hB hR

theorem spin_lt {c b : Nat} (hb : b ∈ v.row c) : b < 2 ^ n := by
  obtain ⟨α, h, -⟩ := hR.qn c b hb
  exact (hB.qn _ _ _ _ _ h).1

/-- The state above `y` in its multiplet. -/
theorem spin_raise {c y : Nat} (hy : y ∈ v.row c) (hz : si.spinZ y ≠ si.spinS y) :
    ∃ u ∈ v.row c, si.spinZ u = si.spinZ y + 2 ∧ si.spinS u = si.spinS y ∧ si.multNo u = si.multNo y ∧
      cP *ᵥ ψ y = ((Real.sqrt ((si.spinS y : ℝ) * (si.spinS y + 2) - si.spinZ y * (si.spinZ y + 2)) / 2 : ℝ) : ℂ) • ψ u := by
  obtain ⟨α, h1, h2⟩ := hR.qn c y hy
  obtain ⟨r1, r2, r3⟩ := hR.rng c y hy
  obtain ⟨u, hu, e1, e2, e3⟩ := hR.full c y hy (si.spinZ y + 2) (by omega) (by omega) (by omega)
  refine ⟨u, hu, e1, e2, e3, ?_⟩
  obtain ⟨β, g1, g2⟩ := hR.qn c u hu
  have : β = α := by rw [e3, h2] at g2; exact_mod_cast g2.symm
  subst this
  rw [e1, e2] at g1
  rw [hB.up y u c _ _ _ h1 g1]
  push_cast
  rfl

theorem spin_top {c y : Nat} (hy : y ∈ v.row c) (hz : si.spinZ y = si.spinS y) : cP *ᵥ ψ y = 0 := by
  obtain ⟨α, h1, h2⟩ := hR.qn c y hy
  rw [hz] at h1
  exact hB.top y c _ _ h1

/-- Matrix elements of `S⁺` between states of one charge. -/
theorem spin_elem {c x y : Nat} (hx : x ∈ v.row c) (hy : y ∈ v.row c) :
    ip (ψ x) (cP *ᵥ ψ y) = sUp si.spinZ si.spinS si.multNo x y := by
  by_cases hz : si.spinZ y = si.spinS y
  · rw [spin_top hB hR hy hz]
    unfold sUp
    split
    · rw [hz, sub_self]; simp [ip]
    · simp [ip]
  · obtain ⟨u, hu, e1, e2, e3, e4⟩ := spin_raise hB hR hy hz
    rw [e4, ip_smul_right, hB.orth x u (spin_lt hB hR hx) (spin_lt hB hR hu)]
    unfold sUp
    by_cases hxu : x = u
    · subst hxu
      rw [if_pos rfl, if_pos ⟨e2, e3, e1⟩, mul_one]
    · rw [if_neg hxu, if_neg, mul_zero]
      rintro ⟨f1, f2, f3⟩
      exact hxu (hR.inj c x hx u hu (f3.trans e1.symm) (f1.trans e2.symm) (f2.trans e3.symm))

/-- `S⁺` does not connect considered and other states. -/
theorem spin_out {c x y : Nat} (hx : x ∈ v.row c) (hy : y < 2 ^ n) (hn : y ∉ v.row c) :
    ip (ψ x) (cP *ᵥ ψ y) = 0 ∧ ip (ψ y) (cP *ᵥ ψ x) = 0 := by
  constructor
  · obtain ⟨c', z, q, α, h1⟩ := hB.has y hy
    by_cases hz : z = q
    · subst hz
      rw [hB.top y c' z α h1]
      simp [ip]
    · obtain ⟨u, hu⟩ := hR.raise y c' z q α h1 hz
      rw [hB.up y u c' z q α h1 hu, ip_smul_right, hB.orth x u (spin_lt hB hR hx) (hB.qn _ _ _ _ _ hu).1]
      rw [if_neg, mul_zero]
      rintro rfl
      obtain ⟨β, g1, g2⟩ := hR.qn c x hx
      have e := Option.some.inj (hu.symm.trans g1)
      simp only [List.cons.injEq, Nat.cast_inj, and_true] at e
      obtain ⟨rfl, e2, e3, rfl⟩ := e
      have r := hR.range y c' z q α h1
      obtain ⟨w, hw, w1, w2, w3⟩ := hR.full c' x hx z (by omega) (by omega) (by omega)
      obtain ⟨γ, f1, f2⟩ := hR.qn c' w hw
      have : γ = α := by rw [w3, g2] at f2; exact_mod_cast f2.symm
      subst this
      rw [w1, w2, ← e3] at f1
      exact hn (hR.uniq w y c' z q γ f1 h1 ▸ hw)
  · by_cases hz : si.spinZ x = si.spinS x
    · rw [spin_top hB hR hx hz]; simp [ip]
    · obtain ⟨u, hu, e1, e2, e3, e4⟩ := spin_raise hB hR hx hz
      rw [e4, ip_smul_right, hB.orth y u hy (spin_lt hB hR hu), if_neg, mul_zero]
      rintro rfl
      exact hn hu

theorem sum_spin_row {c : Nat} (f : Nat → ℂ) (hf : ∀ y, y < 2 ^ n → y ∉ v.row c → f y = 0) :
    ∑ y ∈ (v.row c).toFinset, f y = ∑ y ∈ Finset.range (2 ^ n), f y := by
  refine Finset.sum_subset ?_ ?_
  · intro y hy
    exact Finset.mem_range.2 (spin_lt hB hR (List.mem_toFinset.1 hy))
  · intro y hy hn
    exact hf y (Finset.mem_range.1 hy) (fun h => hn (List.mem_toFinset.2 h))

/-- Commutators in the basis. -/
theorem comm_up {c c' x b : Nat} (hx : x ∈ v.row c') (hb : b ∈ v.row c) (M : Matrix (Occ n) (Occ n) ℂ)
    {T : Nat → Nat → ℂ} (hT1 : ∀ y ∈ v.row c', T y b = ip (ψ y) (M *ᵥ ψ b))
    (hT2 : ∀ y ∈ v.row c, T x y = ip (ψ x) (M *ᵥ ψ y)) :
    comm (v.row c').toFinset (v.row c).toFinset (sUp si.spinZ si.spinS si.multNo) T x b
      = ip (ψ x) (brk cP M *ᵥ ψ b) := by
  have e1 : ∑ y ∈ (v.row c').toFinset, sUp si.spinZ si.spinS si.multNo x y * T y b
      = ip (ψ x) ((cP * M) *ᵥ ψ b) := by
    rw [Finset.sum_congr rfl fun y hy => by
      rw [← spin_elem hB hR hx (List.mem_toFinset.1 hy), hT1 y (List.mem_toFinset.1 hy)]]
    rw [sum_spin_row hB hR (fun y => ip (ψ x) (cP *ᵥ ψ y) * ip (ψ y) (M *ᵥ ψ b))
      (fun y hy hn => by rw [(spin_out hB hR hx hy hn).1, zero_mul])]
    have := ip_complete hB.orth (cPᴴ *ᵥ ψ x) (M *ᵥ ψ b)
    rw [ip_adj, conjTranspose_conjTranspose, Matrix.mulVec_mulVec] at this
    rw [this]
    refine Finset.sum_congr rfl fun y _ => ?_
    rw [ip_adj, conjTranspose_conjTranspose]
  have e2 : ∑ y ∈ (v.row c).toFinset, T x y * sUp si.spinZ si.spinS si.multNo y b
      = ip (ψ x) ((M * cP) *ᵥ ψ b) := by
    rw [Finset.sum_congr rfl fun y hy => by
      rw [← spin_elem hB hR (List.mem_toFinset.1 hy) hb, hT2 y (List.mem_toFinset.1 hy)]]
    rw [sum_spin_row hB hR (fun y => ip (ψ x) (M *ᵥ ψ y) * ip (ψ y) (cP *ᵥ ψ b))
      (fun y hy hn => by rw [(spin_out hB hR hb hy hn).2, mul_zero])]
    have := ip_complete hB.orth (Mᴴ *ᵥ ψ x) (cP *ᵥ ψ b)
    rw [ip_adj, conjTranspose_conjTranspose, Matrix.mulVec_mulVec] at this
    rw [this]
    refine Finset.sum_congr rfl fun y _ => ?_
    rw [ip_adj, conjTranspose_conjTranspose]
  unfold comm brk
  rw [e1, e2, Matrix.sub_mulVec]
  unfold ip
  rw [dotProduct_sub]

theorem spin_elem_dn {c x y : Nat} (hx : x ∈ v.row c) (hy : y ∈ v.row c) :
    ip (ψ x) (cM *ᵥ ψ y) = sDn si.spinZ si.spinS si.multNo x y := by
  unfold sDn
  rw [← spin_elem hB hR hy hx, cM_eq, ← ip_adj, ← ip_conj, spin_elem hB hR hy hx]
  unfold sUp
  split
  · exact Complex.conj_ofReal _
  · simp

theorem comm_dn {c c' x b : Nat} (hx : x ∈ v.row c') (hb : b ∈ v.row c) (M : Matrix (Occ n) (Occ n) ℂ)
    {T : Nat → Nat → ℂ} (hT1 : ∀ y ∈ v.row c', T y b = ip (ψ y) (M *ᵥ ψ b))
    (hT2 : ∀ y ∈ v.row c, T x y = ip (ψ x) (M *ᵥ ψ y)) :
    comm (v.row c').toFinset (v.row c).toFinset (sDn si.spinZ si.spinS si.multNo) T x b
      = ip (ψ x) (brk cM M *ᵥ ψ b) := by
  have out : ∀ {c x y}, x ∈ v.row c → y < 2 ^ n → y ∉ v.row c →
      ip (ψ x) (cM *ᵥ ψ y) = 0 ∧ ip (ψ y) (cM *ᵥ ψ x) = 0 := by
    intro c x y hx hy hn
    obtain ⟨h1, h2⟩ := spin_out hB hR hx hy hn
    rw [cM_eq, ← ip_adj, ← ip_adj, ← ip_conj, ← ip_conj (ψ x) (cP *ᵥ ψ y), h1, h2]
    simp
  have e1 : ∑ y ∈ (v.row c').toFinset, sDn si.spinZ si.spinS si.multNo x y * T y b
      = ip (ψ x) ((cM * M) *ᵥ ψ b) := by
    rw [Finset.sum_congr rfl fun y hy => by
      rw [← spin_elem_dn hB hR hx (List.mem_toFinset.1 hy), hT1 y (List.mem_toFinset.1 hy)]]
    rw [sum_spin_row hB hR (fun y => ip (ψ x) (cM *ᵥ ψ y) * ip (ψ y) (M *ᵥ ψ b))
      (fun y hy hn => by rw [(out hx hy hn).1, zero_mul])]
    have := ip_complete hB.orth (cMᴴ *ᵥ ψ x) (M *ᵥ ψ b)
    rw [ip_adj, conjTranspose_conjTranspose, Matrix.mulVec_mulVec] at this
    rw [this]
    refine Finset.sum_congr rfl fun y _ => ?_
    rw [ip_adj, conjTranspose_conjTranspose]
  have e2 : ∑ y ∈ (v.row c).toFinset, T x y * sDn si.spinZ si.spinS si.multNo y b
      = ip (ψ x) ((M * cM) *ᵥ ψ b) := by
    rw [Finset.sum_congr rfl fun y hy => by
      rw [← spin_elem_dn hB hR (List.mem_toFinset.1 hy) hb, hT2 y (List.mem_toFinset.1 hy)]]
    rw [sum_spin_row hB hR (fun y => ip (ψ x) (M *ᵥ ψ y) * ip (ψ y) (cM *ᵥ ψ b))
      (fun y hy hn => by rw [(out hb hy hn).2, mul_zero])]
    have := ip_complete hB.orth (Mᴴ *ᵥ ψ x) (cM *ᵥ ψ b)
    rw [ip_adj, conjTranspose_conjTranspose, Matrix.mulVec_mulVec] at this
    rw [this]
    refine Finset.sum_congr rfl fun y _ => ?_
    rw [ip_adj, conjTranspose_conjTranspose]
  unfold comm brk
  rw [e1, e2, Matrix.sub_mulVec]
  unfold ip
  rw [dotProduct_sub]

end

end Verif
