import Verif.Model.Rotate

/-! What a block diagonal set of eigenvectors and a change of basis are. -/

namespace Verif.Spec

/-- The states `0, …, N-1` are divided into sectors `s ∈ I`: the states of sector `s` are `row s`, and
`vec s` is a square matrix of the size of the sector. -/
structure Sectors {ι : Type} (N : Nat) (I : List ι) (row : ι → List Nat) (vec : ι → Arr) : Prop where
  rows : ∀ s ∈ I, (row s).Nodup
  lt : ∀ s ∈ I, ∀ b ∈ row s, b < N
  cover : ∀ b, b < N → ∃ s ∈ I, b ∈ row s
  disj : ∀ s ∈ I, ∀ s' ∈ I, ∀ b, b ∈ row s → b ∈ row s' → s = s'
  dims : ∀ s ∈ I, (vec s).dims = [(row s).length, (row s).length]

/-- `P` is the block diagonal matrix with the blocks `vec s`. -/
structure BlockDiag {ι : Type} (N : Nat) (I : List ι) (row : ι → List Nat) (vec : ι → Arr) (P : Arr) :
    Prop where
  dims : P.dims = [N, N]
  inside : ∀ s ∈ I, ∀ (i j : Nat) (hi : i < (row s).length) (hj : j < (row s).length),
    P.val [(row s)[i], (row s)[j]] = (vec s).val [i, j]
  outside : ∀ b a, (¬ ∃ s ∈ I, b ∈ row s ∧ a ∈ row s) → P.val [b, a] = 0

/-- The entry `(b, a)` of `P† T0[l] P`. -/
noncomputable def rotated (N : Nat) (P T0 : Arr) (l b a : Nat) : ℂ :=
  ∑ b' ∈ Finset.range N, ∑ a' ∈ Finset.range N,
    starRingEnd ℂ (P.val [b', b]) * T0.val [l, b', a'] * P.val [a', a]

/-- `T[l] = P† T0[l] P` for all `l < L`. -/
def Rotated (L N : Nat) (P T0 T : Arr) : Prop :=
  T.dims = [L, N, N] ∧ ∀ l b a, l < L → b < N → a < N → T.val [l, b, a] = rotated N P T0 l b a

/-- `T[l]` is Hermitian for all `l < L`. -/
def Herm (L N : Nat) (T : Arr) : Prop :=
  ∀ l b a, l < L → b < N → a < N → T.val [l, a, b] = starRingEnd ℂ (T.val [l, b, a])

end Verif.Spec
