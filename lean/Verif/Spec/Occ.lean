/-! Occupation lists, as a user sees them (independent of the model). -/

namespace Verif.Spec

/-- A list of `n` zeros and ones. -/
def IsOcc (n : Nat) (s : List Nat) : Prop := s.length = n ∧ ∀ d ∈ s, d = 0 ∨ d = 1

/-- Twice the spin projection: electrons in the first half of the orbitals minus
electrons in the second half. -/
def twoSz (n : Nat) (s : List Nat) : Int :=
  ((s.take (n / 2)).sum : Int) - ((s.drop (n / 2)).sum : Int)

/-- The values of `sz` that states of charge `c` can have. -/
def AdmSz (n c : Nat) (sz : Int) : Prop :=
  sz.natAbs ≤ min c (n - c) ∧ (sz - c) % 2 = 0

/-- The values of total spin a state of charge `c` and projection `sz` can have. -/
def AdmSsq (n c : Nat) (sz ssq : Int) : Prop :=
  (sz.natAbs : Int) ≤ ssq ∧ ssq ≤ (min c (n - c) : Nat) ∧ (ssq - sz) % 2 = 0

/-- The Lin index (number whose binary digits are the occupations) of an occupation list. -/
def linIndex (s : List Nat) : Nat := s.foldl (fun acc d => 2 * acc + d) 0

/-- `x` is named by the Python index `i` of an array of length `N`. -/
def Names (N : Nat) (i : Int) (x : Nat) : Prop := i = x ∨ i = (x : Int) - N

end Verif.Spec
