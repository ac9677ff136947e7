import Verif.Model.Specfunc
import Mathlib.Tactic.Linarith
import Mathlib.Tactic.Positivity
import Mathlib.Tactic.FieldSimp
import Mathlib.Tactic.Ring
import Mathlib.Tactic.NormNum

/-! C32: the occupation and rate factors. -/

namespace Verif

noncomputable section

/-- **C32**, `fermi_func`: values in `[0, 1]`, strictly below one and never above one half for
positive arguments; never increasing; strictly decreasing below the cut-off; `f(x) + f(-x) = 1`
inside the cut-off; the Fermi function up to the cut-off and zero above it. -/
theorem c32_fermi :
    (∀ x, 0 ≤ fermiFunc x ∧ fermiFunc x < 1) ∧
    (∀ x y, x ≤ y → fermiFunc y ≤ fermiFunc x) ∧
    (∀ x y, x < y → y ≤ 709.77 → fermiFunc y < fermiFunc x) ∧
    (∀ x, |x| ≤ 709.77 → fermiFunc x + fermiFunc (-x) = 1) ∧
    (∀ x, x ≤ 709.77 → fermiFunc x = 1 / (Real.exp x + 1)) ∧
    (∀ x, 709.77 < x → fermiFunc x = 0) := by
  have hpos : ∀ x, 0 < Real.exp x + 1 := fun x => by positivity
  have hin : ∀ x, x ≤ 709.77 → fermiFunc x = 1 / (Real.exp x + 1) := by
    intro x hx; unfold fermiFunc; rw [if_neg (by linarith)]
  have hout : ∀ x, 709.77 < x → fermiFunc x = 0 := by
    intro x hx; unfold fermiFunc; rw [if_pos hx]
  have hlt : ∀ x y, x < y → y ≤ 709.77 → fermiFunc y < fermiFunc x := by
    intro x y hxy hy
    rw [hin y hy, hin x (by linarith)]
    exact one_div_lt_one_div_of_lt (hpos x) (by have := Real.exp_lt_exp.2 hxy; linarith)
  have h01 : ∀ x, 0 ≤ fermiFunc x ∧ fermiFunc x < 1 := by
    intro x
    by_cases hx : x ≤ 709.77
    · rw [hin x hx]
      refine ⟨by positivity, ?_⟩
      rw [div_lt_one (hpos x)]
      have := Real.exp_pos x
      linarith
    · rw [hout x (by linarith)]; norm_num
  refine ⟨h01, ?_, hlt, ?_, hin, hout⟩
  · intro x y hxy
    by_cases hy : y ≤ 709.77
    · rcases hxy.lt_or_eq with h | h
      · exact (hlt x y h hy).le
      · rw [h]
    · rw [hout y (by linarith)]; exact (h01 x).1
  · intro x hx
    have h1 := abs_le.1 hx
    rw [hin x h1.2, hin (-x) (by linarith), Real.exp_neg]
    have := Real.exp_pos x
    have := (hpos x).ne'
    field_simp
    ring

/-- A transition energy is inside the band of a lead (`itype` 0 and 2), or the band is
infinite (`itype` 1 and 3). -/
def InBand (Ecb T Dm Dp : ℝ) (itype : Int) : Prop :=
  itype = 1 ∨ itype = 3 ∨ (0 < T ∧ Dm < Ecb ∧ Ecb < Dp)

/-- **C32**, `func_pauli`: two nonnegative numbers; inside the band they are `2π f` and
`2π (1 - f)`, hence add to `2π`; outside both vanish; for `itype` 1 and 3 they do not depend
on the band. -/
theorem c32_pauli (Ecb mu T Dm Dp : ℝ) (itype : Int) :
    0 ≤ (funcPauli Ecb mu T Dm Dp itype).1 ∧ 0 ≤ (funcPauli Ecb mu T Dm Dp itype).2 ∧
    (InBand Ecb T Dm Dp itype →
      (funcPauli Ecb mu T Dm Dp itype).1 = 2 * Real.pi * fermiFunc ((Ecb - mu) / T) ∧
      (funcPauli Ecb mu T Dm Dp itype).2 = 2 * Real.pi * (1 - fermiFunc ((Ecb - mu) / T)) ∧
      (funcPauli Ecb mu T Dm Dp itype).1 + (funcPauli Ecb mu T Dm Dp itype).2 = 2 * Real.pi) ∧
    (0 < T → ¬ InBand Ecb T Dm Dp itype → funcPauli Ecb mu T Dm Dp itype = (0, 0)) ∧
    (∀ Dm' Dp', itype = 1 ∨ itype = 3 →
      funcPauli Ecb mu T Dm Dp itype = funcPauli Ecb mu T Dm' Dp' itype) := by
  have hf := c32_fermi.1 ((Ecb - mu) / T)
  have hpi := Real.pi_pos
  have hcond : 0 < T → (((Dm - mu) / T < (Ecb - mu) / T ∧ (Ecb - mu) / T < (Dp - mu) / T) ↔
      (Dm < Ecb ∧ Ecb < Dp)) := by
    intro hT
    rw [div_lt_div_iff_of_pos_right hT, div_lt_div_iff_of_pos_right hT]
    constructor
    · rintro ⟨a, b⟩; exact ⟨by linarith, by linarith⟩
    · rintro ⟨a, b⟩; exact ⟨by linarith, by linarith⟩
  have hdef : funcPauli Ecb mu T Dm Dp itype =
      open Classical in
      if itype = 1 ∨ itype = 3 ∨ ((Dm - mu) / T < (Ecb - mu) / T ∧ (Ecb - mu) / T < (Dp - mu) / T)
      then (2 * Real.pi * fermiFunc ((Ecb - mu) / T), 2 * Real.pi * (1 - fermiFunc ((Ecb - mu) / T)))
      else (0, 0) := rfl
  refine ⟨?_, ?_, ?_, ?_, ?_⟩
  · rw [hdef]; split
    · exact mul_nonneg (by positivity) hf.1
    · exact le_refl _
  · rw [hdef]; split
    · exact mul_nonneg (by positivity) (by linarith [hf.2])
    · exact le_refl _
  · intro hb
    have : itype = 1 ∨ itype = 3 ∨
        ((Dm - mu) / T < (Ecb - mu) / T ∧ (Ecb - mu) / T < (Dp - mu) / T) := by
      rcases hb with h | h | ⟨h1, h2⟩
      · exact Or.inl h
      · exact Or.inr (Or.inl h)
      · exact Or.inr (Or.inr ((hcond h1).2 h2))
    rw [hdef, if_pos this]
    exact ⟨rfl, rfl, by simp only; ring⟩
  · intro hT hb
    rw [hdef, if_neg]
    rintro (h | h | h)
    · exact hb (Or.inl h)
    · exact hb (Or.inr (Or.inl h))
    · exact hb (Or.inr (Or.inr ⟨hT, (hcond hT).1 h⟩))
  · intro Dm' Dp' hi
    have h1 : ∀ P : Prop, itype = 1 ∨ itype = 3 ∨ P := by
      intro P
      rcases hi with h | h
      · exact Or.inl h
      · exact Or.inr (Or.inl h)
    rw [hdef, if_pos (h1 _)]
    unfold funcPauli
    simp only
    rw [if_pos (h1 _)]

/-- A transition inside a finite band. -/
example : InBand 0.5 1 (-60) 60 0 := Or.inr (Or.inr ⟨by norm_num, by norm_num, by norm_num⟩)

/-- A transition outside. -/
example : ¬ InBand 70 1 (-60) 60 2 := by
  rintro (h | h | ⟨_, _, h⟩)
  · norm_num at h
  · norm_num at h
  · norm_num at h

end

end Verif
