import Verif.Spec.Phases
import Verif.Props.ShiftRTD

/-! C69: the results do not depend on the phases of the states. -/

namespace Verif

open Finset
open scoped ComplexConjugate

noncomputable section

theorem conj_unit {z : ℂ} (h : ‖z‖ = 1) : conj z = z⁻¹ := by
  rw [Complex.inv_def, Complex.normSq_eq_norm_sq, h]; simp

theorem ne_unit {z : ℂ} (h : ‖z‖ = 1) : z ≠ 0 := by
  rintro rfl; simp at h

namespace Phases
variable {v : View} {u w z : Nat → ℂ} {T T' : Nat → Nat → Nat → ℂ} {tl tl' : Nat → Nat → ℂ}
  (hp : Phases v u w z T T' tl tl')
include hp

theorem cu (b : Nat) : conj (u b) = (u b)⁻¹ := conj_unit (hp.state b)
theorem cw (b : Nat) : conj (w b) = (w b)⁻¹ := conj_unit (hp.lead b)
theorem cz (b : Nat) : conj (z b) = (z b)⁻¹ := conj_unit (hp.single b)
theorem nu (b : Nat) : u b ≠ 0 := ne_unit (hp.state b)
theorem nw (b : Nat) : w b ≠ 0 := ne_unit (hp.lead b)
theorem nz (b : Nat) : z b ≠ 0 := ne_unit (hp.single b)

end Phases

/-- **C69** for the Pauli approach: the factors are the same, and with them everything that is made from them: the kernel,
and for every vector of populations the currents (`Pauli.genCurrent` reads no amplitudes, only the factors). -/
theorem c69_pauli {v : View} {la : Lab} (h : VOk v la) {u w z : Nat → ℂ} {L : Leads} {T' : Nat → Nat → Nat → ℂ}
    {tl tl' : Nat → Nat → ℂ} (hp : Phases v u w z L.Tba T' tl tl') (E : Nat → ℝ) :
    Pauli.genFct v E (L.withTba T') = Pauli.genFct v E L := by
  unfold Pauli.genFct
  apply fillFct_congr h
  intro q c b l hc hb
  unfold Pauli.amp
  have e : (L.withTba T').Tba l b c * (L.withTba T').Tba l c b = L.Tba l b c * L.Tba l c b := by
    show T' l b c * T' l c b = _
    rw [hp.add l q c b hc hb, hp.remove l q c b hc hb, hp.cu, hp.cu, hp.cw]
    have := hp.nu b; have := hp.nu c; have := hp.nw l
    field_simp
  rw [e]
  rfl

namespace RTD

section
variable {s : In} {la : Lab} (h : VOk s.v la) {u w z : Nat → ℂ} {T' : Nat → Nat → Nat → ℂ} {tl' : Nat → Nat → ℂ}
  (hp : Phases s.v u w z s.L.Tba T' s.tl tl')

theorem addD_ph (x : Vert) {t2 t2' : ℂ} (p1 eta1 : Int) (E2 E3 : ℝ) (a3 : Nat) (q3 : Int) (a4 : Nat) (q4 : Int)
    (ht : t2' = t2) : addD (s.withTba T' tl') x t2' p1 eta1 E2 E3 a3 q3 a4 q4 = addD s x t2 p1 eta1 E2 E3 a3 q3 a4 q4 := by
  subst ht; rfl

theorem addX_ph (x : Vert) {t2 t2' : ℂ} (p1 eta1 : Int) (E2 E3 : ℝ) (a3 : Nat) (q3 : Int) (a4 : Nat) (q4 : Int)
    (ht : t2' = t2) : addX (s.withTba T' tl') x t2' p1 eta1 E2 E3 a3 q3 a4 q4 = addX s x t2 p1 eta1 E2 E3 a3 q3 a4 q4 := by
  subst ht; rfl

include h hp

theorem blockUp_ph (x : Vert) {t t' : ℂ} {a0 a1p c : Nat} (h0 : a0 ∈ s.v.row c) (h1 : a1p ∈ s.v.row (c + 1))
    (ht : t' = w x.r0 * u a1p * t * conj (u a0)) :
    blockUp (s.withTba T' tl') x t' a0 a1p c = blockUp s x t a0 a1p c := by
  unfold blockUp
  refine loop_congr h (by omega) fun c2 e2 a2 ha2 => ?_
  obtain rfl : c2 = c + 1 + 1 := by omega
  have k := hp.add x.r1 _ _ _ ha2 h1
  have n0 := hp.nu a0; have n1 := hp.nu a1p; have n2 := hp.nu a2; have m0 := hp.nw x.r0; have m1 := hp.nw x.r1
  refine if_congr ?_ rfl ?_
  · show ‖t' * T' x.r1 a2 a1p‖ < s.cut2 ↔ _
    rw [k, ht]
    simp [hp.state, hp.lead]
  have main : ∀ r r' (c3 : Nat) a3, (c3 : Int) = (c : Int) + 1 → a3 ∈ s.v.row c3 →
      (r = x.r1 ∧ r' = x.r0 ∨ r = x.r0 ∧ r' = x.r1) →
      t' * T' x.r1 a2 a1p * conj (T' r a2 a3) * conj (T' r' a3 a0) =
        t * s.L.Tba x.r1 a2 a1p * conj (s.L.Tba r a2 a3) * conj (s.L.Tba r' a3 a0) := by
    intro r r' c3 a3 e3 ha3 hr
    obtain rfl : c3 = c + 1 := by omega
    have n3 := hp.nu a3
    rw [k, ht, hp.add r _ _ _ ha2 ha3, hp.add r' _ _ _ ha3 h0]
    simp only [map_mul, hp.cu, hp.cw, Complex.conj_conj, map_inv₀, inv_inv]
    rcases hr with ⟨rfl, rfl⟩ | ⟨rfl, rfl⟩ <;> field_simp
  refine both_congr ?_ ?_
  · refine loop_congr h (by omega) fun c3 e3 a3 ha3 => ?_
    exact both_congr (addD_ph _ _ _ _ _ _ _ _ _ (main _ _ c3 a3 e3 ha3 (Or.inl ⟨rfl, rfl⟩)))
      (addX_ph _ _ _ _ _ _ _ _ _ (main _ _ c3 a3 e3 ha3 (Or.inr ⟨rfl, rfl⟩)))
  · refine loop_congr h (by omega) fun c3 e3 a3 ha3 => ?_
    refine both_congr (addD_ph _ _ _ _ _ _ _ _ _ ?_) (addX_ph _ _ _ _ _ _ _ _ _ ?_)
    · have := main _ _ c3 a3 e3 ha3 (Or.inr ⟨rfl, rfl⟩)
      show t' * T' x.r1 a2 a1p * conj (T' x.r1 a3 a0) * conj (T' x.r0 a2 a3) = _
      linear_combination this
    · have := main _ _ c3 a3 e3 ha3 (Or.inl ⟨rfl, rfl⟩)
      show t' * T' x.r1 a2 a1p * conj (T' x.r0 a3 a0) * conj (T' x.r1 a2 a3) = _
      linear_combination this

theorem blockDown_ph (x : Vert) {t t' : ℂ} {a0 a1p c : Nat} (h0 : a0 ∈ s.v.row c) (h1 : a1p ∈ s.v.row (c + 1))
    (ht : t' = w x.r0 * u a1p * t * conj (u a0)) :
    blockDown (s.withTba T' tl') x t' a0 a1p c = blockDown s x t a0 a1p c := by
  unfold blockDown
  refine loop_congr h (by omega) fun c2 e2 a2 ha2 => ?_
  obtain rfl : c = c2 + 1 := by omega
  have k := hp.add x.r1 _ _ _ h0 ha2
  have n0 := hp.nu a0; have n1 := hp.nu a1p; have n2 := hp.nu a2; have m0 := hp.nw x.r0; have m1 := hp.nw x.r1
  refine if_congr ?_ rfl ?_
  · show ‖t' * T' x.r1 a0 a2‖ < s.cut2 ↔ _
    rw [k, ht]
    simp [hp.state, hp.lead]
  have main : ∀ r r' (c3 : Nat) a3, (c3 : Int) = ((c2 + 1 : Nat) : Int) → a3 ∈ s.v.row c3 →
      (r = x.r1 ∧ r' = x.r0 ∨ r = x.r0 ∧ r' = x.r1) →
      t' * T' x.r1 a0 a2 * conj (T' r a1p a3) * conj (T' r' a3 a2) =
        t * s.L.Tba x.r1 a0 a2 * conj (s.L.Tba r a1p a3) * conj (s.L.Tba r' a3 a2) := by
    intro r r' c3 a3 e3 ha3 hr
    obtain rfl : c3 = c2 + 1 := by omega
    have n3 := hp.nu a3
    rw [k, ht, hp.add r _ _ _ h1 ha3, hp.add r' _ _ _ ha3 ha2]
    simp only [map_mul, hp.cu, hp.cw, Complex.conj_conj, map_inv₀, inv_inv]
    rcases hr with ⟨rfl, rfl⟩ | ⟨rfl, rfl⟩ <;> field_simp
  refine both_congr ?_ ?_
  · refine loop_congr h (by omega) fun c3 e3 a3 ha3 => ?_
    exact both_congr (addD_ph _ _ _ _ _ _ _ _ _ (main _ _ c3 a3 e3 ha3 (Or.inl ⟨rfl, rfl⟩)))
      (addX_ph _ _ _ _ _ _ _ _ _ (main _ _ c3 a3 e3 ha3 (Or.inr ⟨rfl, rfl⟩)))
  · refine loop_congr h (by omega) fun c3 e3 a3 ha3 => ?_
    refine both_congr (addD_ph _ _ _ _ _ _ _ _ _ ?_) (addX_ph _ _ _ _ _ _ _ _ _ ?_)
    · have := main _ _ c3 a3 e3 ha3 (Or.inr ⟨rfl, rfl⟩)
      show t' * T' x.r1 a0 a2 * conj (T' x.r1 a3 a2) * conj (T' x.r0 a1p a3) = _
      linear_combination this
    · have := main _ _ c3 a3 e3 ha3 (Or.inl ⟨rfl, rfl⟩)
      show t' * T' x.r1 a0 a2 * conj (T' x.r0 a3 a2) * conj (T' x.r1 a1p a3) = _
      linear_combination this

theorem blockSame_ph (x : Vert) {t t' : ℂ} {a0 a1p c : Nat} (h0 : a0 ∈ s.v.row c) (h1 : a1p ∈ s.v.row (c + 1))
    (ht : t' = w x.r0 * u a1p * t * conj (u a0)) :
    blockSame (s.withTba T' tl') x t' a0 a1p c = blockSame s x t a0 a1p c := by
  unfold blockSame
  refine loop_congr h (by omega) fun c2 e2 a2 ha2 => ?_
  obtain rfl : c2 = c := by omega
  have k := hp.add x.r1 _ _ _ h1 ha2
  have n0 := hp.nu a0; have n1 := hp.nu a1p; have n2 := hp.nu a2; have m0 := hp.nw x.r0; have m1 := hp.nw x.r1
  refine if_congr ?_ rfl ?_
  · show ‖t' * conj (T' x.r1 a1p a2)‖ < s.cut2 ↔ _
    rw [k, ht]
    simp [hp.state, hp.lead]
  have up : ∀ (c3 : Nat) a3, (c3 : Int) = (c2 : Int) + 1 → a3 ∈ s.v.row c3 →
      t' * conj (T' x.r1 a1p a2) * T' x.r1 a3 a2 * conj (T' x.r0 a3 a0) =
        t * conj (s.L.Tba x.r1 a1p a2) * s.L.Tba x.r1 a3 a2 * conj (s.L.Tba x.r0 a3 a0) := by
    intro c3 a3 e3 ha3
    obtain rfl : c3 = c2 + 1 := by omega
    have n3 := hp.nu a3
    rw [k, ht, hp.add x.r1 _ _ _ ha3 ha2, hp.add x.r0 _ _ _ ha3 h0]
    simp only [map_mul, hp.cu, hp.cw, Complex.conj_conj, map_inv₀, inv_inv]
    field_simp
  have dn : ∀ (c3 : Nat) a3, (c3 : Int) = (c2 : Int) - 1 → a3 ∈ s.v.row c3 →
      t' * conj (T' x.r1 a1p a2) * T' x.r1 a0 a3 * conj (T' x.r0 a2 a3) =
        t * conj (s.L.Tba x.r1 a1p a2) * s.L.Tba x.r1 a0 a3 * conj (s.L.Tba x.r0 a2 a3) := by
    intro c3 a3 e3 ha3
    obtain rfl : c2 = c3 + 1 := by omega
    have n3 := hp.nu a3
    rw [k, ht, hp.add x.r1 _ _ _ h0 ha3, hp.add x.r0 _ _ _ ha2 ha3]
    simp only [map_mul, hp.cu, hp.cw, Complex.conj_conj, map_inv₀, inv_inv]
    field_simp
  refine both_congr (both_congr ?_ ?_) (both_congr ?_ ?_)
  · refine loop_congr h (by omega) fun c3 e3 a3 ha3 => ?_
    exact addD_ph _ _ _ _ _ _ _ _ _ (up c3 a3 e3 ha3)
  · refine loop_congr h (by omega) fun c3 e3 a3 ha3 => ?_
    refine addX_ph _ _ _ _ _ _ _ _ _ ?_
    have := dn c3 a3 e3 ha3
    show t' * conj (T' x.r1 a1p a2) * conj (T' x.r0 a2 a3) * T' x.r1 a0 a3 = _
    linear_combination this
  · refine loop_congr h (by omega) fun c3 e3 a3 ha3 => ?_
    exact addD_ph _ _ _ _ _ _ _ _ _ (dn c3 a3 e3 ha3)
  · refine loop_congr h (by omega) fun c3 e3 a3 ha3 => ?_
    refine addX_ph _ _ _ _ _ _ _ _ _ ?_
    have := up c3 a3 e3 ha3
    show t' * conj (T' x.r1 a1p a2) * conj (T' x.r0 a3 a0) * T' x.r1 a3 a2 = _
    linear_combination this

theorem blockNext_ph (x : Vert) {t t' : ℂ} {a0 a1p c : Nat} (h0 : a0 ∈ s.v.row c) (h1 : a1p ∈ s.v.row (c + 1))
    (ht : t' = w x.r0 * u a1p * t * conj (u a0)) :
    blockNext (s.withTba T' tl') x t' a0 a1p c = blockNext s x t a0 a1p c := by
  unfold blockNext
  refine loop_congr h (by omega) fun c2 e2 a2 ha2 => ?_
  obtain rfl : c2 = c + 1 := by omega
  have k := hp.add x.r1 _ _ _ ha2 h0
  have n0 := hp.nu a0; have n1 := hp.nu a1p; have n2 := hp.nu a2; have m0 := hp.nw x.r0; have m1 := hp.nw x.r1
  have up : ∀ (c3 : Nat) a3, (c3 : Int) = (c : Int) + 2 → a3 ∈ s.v.row c3 →
      t' * conj (T' x.r1 a2 a0) * T' x.r1 a3 a1p * conj (T' x.r0 a3 a2) =
        t * conj (s.L.Tba x.r1 a2 a0) * s.L.Tba x.r1 a3 a1p * conj (s.L.Tba x.r0 a3 a2) := by
    intro c3 a3 e3 ha3
    obtain rfl : c3 = c + 1 + 1 := by omega
    have n3 := hp.nu a3
    rw [k, ht, hp.add x.r1 _ _ _ ha3 h1, hp.add x.r0 _ _ _ ha3 ha2]
    simp only [map_mul, hp.cu, hp.cw, Complex.conj_conj, map_inv₀, inv_inv]
    field_simp
  have dn : ∀ (c3 : Nat) a3, (c3 : Int) = (c : Int) → a3 ∈ s.v.row c3 →
      t' * conj (T' x.r1 a2 a0) * T' x.r1 a2 a3 * conj (T' x.r0 a1p a3) =
        t * conj (s.L.Tba x.r1 a2 a0) * s.L.Tba x.r1 a2 a3 * conj (s.L.Tba x.r0 a1p a3) := by
    intro c3 a3 e3 ha3
    obtain rfl : c3 = c := by omega
    have n3 := hp.nu a3
    rw [k, ht, hp.add x.r1 _ _ _ ha2 ha3, hp.add x.r0 _ _ _ h1 ha3]
    simp only [map_mul, hp.cu, hp.cw, Complex.conj_conj, map_inv₀, inv_inv]
    field_simp
  refine both_congr (both_congr ?_ ?_) (both_congr ?_ ?_)
  · refine loop_congr h (by omega) fun c3 e3 a3 ha3 => ?_
    exact addD_ph _ _ _ _ _ _ _ _ _ (up c3 a3 e3 ha3)
  · refine loop_congr h (by omega) fun c3 e3 a3 ha3 => ?_
    refine addX_ph _ _ _ _ _ _ _ _ _ ?_
    have := dn c3 a3 e3 ha3
    show t' * conj (T' x.r1 a2 a0) * conj (T' x.r0 a1p a3) * T' x.r1 a2 a3 = _
    linear_combination this
  · refine loop_congr h (by omega) fun c3 e3 a3 ha3 => ?_
    exact addD_ph _ _ _ _ _ _ _ _ _ (dn c3 a3 e3 ha3)
  · refine loop_congr h (by omega) fun c3 e3 a3 ha3 => ?_
    refine addX_ph _ _ _ _ _ _ _ _ _ ?_
    have := up c3 a3 e3 ha3
    show t' * conj (T' x.r1 a2 a0) * conj (T' x.r0 a3 a2) * T' x.r1 a3 a1p = _
    linear_combination this

theorem col2_ph {a0 c : Nat} (h0 : a0 ∈ s.v.row c) : col2 (s.withTba T' tl') a0 c = col2 s a0 c := by
  unfold col2
  refine congrArg (fun k => s.v.ind0 a0 a0 (c : Int) >>= k) (funext fun i0 => ?_)
  refine collect_congr fun r _ => ?_
  refine loop_congr h (by omega) fun c1 e1 a1p ha1 => ?_
  obtain rfl : c1 = c + 1 := by omega
  have k := hp.add r.1 _ _ _ ha1 h0
  unfold vertex
  refine if_congr ?_ rfl ?_
  · show ‖T' r.1 a1p a0‖ = 0 ↔ _
    rw [k]
    simp [hp.state, hp.lead]
  refine congrArg (fun k => s.v.ind0 a1p a1p ((c : Int) + 1) >>= k) (funext fun i1 => ?_)
  dsimp only
  exact both_congr (both_congr (blockUp_ph h hp ⟨r.1, r.2, i0, i1, _⟩ h0 ha1 k)
      (blockDown_ph h hp ⟨r.1, r.2, i0, i1, _⟩ h0 ha1 k))
    (both_congr (blockSame_ph h hp ⟨r.1, r.2, i0, i1, _⟩ h0 ha1 k) (blockNext_ph h hp ⟨r.1, r.2, i0, i1, _⟩ h0 ha1 k))

omit h in
theorem gamma_ph {a b c : Nat} (hb : b ∈ s.v.row (c + 1)) (ha : a ∈ s.v.row c) (l lp : Nat) :
    (s.withTba T' tl').gamma a b l lp = s.gamma a b l lp := by
  unfold In.gamma
  refine sum_congr rfl fun n _ => ?_
  show T' l a b * conj (T' lp a b) * tl' l n * conj (tl' lp n) = _
  rw [hp.remove l _ _ _ hb ha, hp.remove lp _ _ _ hb ha, hp.tleads, hp.tleads]
  simp only [map_mul, hp.cu, hp.cw, hp.cz, Complex.conj_conj, map_inv₀, inv_inv]
  have n0 := hp.nu a; have n1 := hp.nu b; have m0 := hp.nw l; have m1 := hp.nw lp; have := hp.nz n
  field_simp

omit h in
theorem energy1_ph {a b c : Nat} (hb : b ∈ s.v.row (c + 1)) (ha : a ∈ s.v.row c) (i j : Int) (l : Nat) :
    energy1 (s.withTba T' tl') a b i j l = energy1 s a b i j l := by
  unfold energy1
  simp only [gamma_ph hp hb ha]
  rfl

omit h in
theorem energy2_ph {a b c : Nat} (hb : b ∈ s.v.row (c + 1)) (ha : a ∈ s.v.row c) (i j : Int) (l : Nat) :
    energy2 (s.withTba T' tl') a b i j l = energy2 s a b i j l := by
  unfold energy2
  simp only [gamma_ph hp hb ha]
  rfl

omit h in
theorem groupE_ph {e e' : Nat → Nat → Int → Int → Nat → List Call}
    (he : ∀ a b c i j l, b ∈ s.v.row (c + 1) → a ∈ s.v.row c → e' a b i j l = e a b i j l) {b c : Nat}
    (hb : b ∈ s.v.row c) (hlo : ∀ a ∈ s.v.low c, ∃ c', c = c' + 1 ∧ a ∈ s.v.row c') :
    groupE s.v la e' c b = groupE s.v la e c b := by
  unfold groupE
  refine congrArg₂ _ (List.flatMap_congr fun a ha => List.flatMap_congr fun l _ => ?_)
    (List.flatMap_congr fun a ha => List.flatMap_congr fun l _ => ?_)
  · obtain ⟨c', rfl, ha'⟩ := hlo a ha
    exact he _ _ _ _ _ _ hb ha'
  · exact he _ _ _ _ _ _ ha hb

end
end RTD
end
end Verif
