import Verif.Spec.Hops
import Mathlib.Algebra.BigOperators.Group.Finset.Basic
import Mathlib.Analysis.SpecialFunctions.Exp

/-! Independent levels. -/

namespace Verif

open Finset

noncomputable section

/-- The considered states are all occupations of `N` levels by electrons that do not interact: `occ b` is the set of
occupied levels, `ε i` the energy of the level `i` (and `E0` that of the empty system), and an electron of the lead `l`
enters the empty level `i` with the amplitude `t l i` up to a phase. -/
structure Levels (v : View) (E : Nat → ℝ) (L : Leads) (N : Nat) (E0 : ℝ) (ε : Nat → ℝ) (t : Nat → Nat → ℂ)
    (occ : Nat → Finset Nat) : Prop where
  sub : ∀ q b, b ∈ v.row q → occ b ⊆ range N
  card : ∀ q b, b ∈ v.row q → (occ b).card = q
  inj : ∀ q b b', b ∈ v.row q → b' ∈ v.row q → occ b = occ b' → b = b'
  surj : ∀ S, S ⊆ range N → ∃ b, b ∈ v.row S.card ∧ occ b = S
  energy : ∀ q b, b ∈ v.row q → E b = E0 + ∑ i ∈ occ b, ε i
  enter : ∀ l q b c i, l < v.nleads → b ∈ v.row q → c ∈ v.row (q + 1) → i ∉ occ b → occ c = insert i (occ b) →
    Complex.normSq (L.Tba l c b) = Complex.normSq (t l i)
  none : ∀ l q b c, l < v.nleads → b ∈ v.row q → c ∈ v.row (q + 1) → ¬ occ b ⊆ occ c → L.Tba l c b = 0

open Classical in
/-- The rate at which the lead `l` broadens the level at the energy `x` to which it is coupled with the amplitude `t`. -/
def Leads.width (L : Leads) (l : Nat) (t : ℂ) (x : ℝ) : ℝ :=
  if L.InBand l x then 2 * Real.pi * Complex.normSq t else 0

/-- The occupation of the lead `l` at the energy `x`; the program takes it to be zero far above the chemical potential. -/
def Leads.filling (L : Leads) (l : Nat) (x : ℝ) : ℝ :=
  if (x - L.mu l) / L.T l ≤ 709.77 then 1 / (Real.exp ((x - L.mu l) / L.T l) + 1) else 0

/-- The mean occupation of the level `i`: the average of the occupations of the leads, weighted by the widths. -/
def Leads.mean (L : Leads) (nleads : Nat) (ε : Nat → ℝ) (t : Nat → Nat → ℂ) (i : Nat) : ℝ :=
  (∑ l ∈ range nleads, L.width l (t l i) (ε i) * L.filling l (ε i)) / ∑ l ∈ range nleads, L.width l (t l i) (ε i)

/-- The probability of the set `S` of occupied levels. -/
def Leads.prob (L : Leads) (nleads N : Nat) (ε : Nat → ℝ) (t : Nat → Nat → ℂ) (S : Finset Nat) : ℝ :=
  ∏ i ∈ range N, if i ∈ S then L.mean nleads ε t i else 1 - L.mean nleads ε t i

end

end Verif
