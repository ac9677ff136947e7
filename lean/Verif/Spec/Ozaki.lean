import Verif.Model.Ozaki

/-! The continued fraction of the hyperbolic tangent and what is assumed of the diagonalisation. -/

namespace Verif

open Finset

noncomputable section

/-- The symmetric matrix with zeros on the diagonal and `B` beside it. -/
def triMat (B : List ℝ) (j k : Nat) : ℝ := if k = j + 1 then B.getD j 0 else if j = k + 1 then B.getD k 0 else 0

/-- What is assumed of `eigh_tridiagonal`: the columns are orthonormal eigenvectors. -/
def EighTriOk (eigh : EighTri) : Prop :=
  ∀ N (B : List ℝ), B.length + 1 = N → ∀ i < N,
    (∀ j < N, ∑ k ∈ range N, triMat B j k * (eigh N B).vec k i = (eigh N B).val i * (eigh N B).vec j i) ∧
    ∀ i' < N, ∑ j ∈ range N, (eigh N B).vec j i * (eigh N B).vec j i' = if i = i' then 1 else 0

/-- `a + y²/(a + 2 + y²/(a + 4 + …))` with `n` fractions. -/
def cfTail (y : ℝ) : Nat → ℝ → ℝ
  | 0, a => a
  | n + 1, a => a + y ^ 2 / cfTail y n (a + 2)

/-- Lambert's continued fraction `y/(1 + y²/(3 + y²/(5 + …)))` of `tanh y`, up to the number `2 n - 1`. -/
def tanhCF (n : Nat) (y : ℝ) : ℝ := y / cfTail y (n - 1) 1

end

end Verif
