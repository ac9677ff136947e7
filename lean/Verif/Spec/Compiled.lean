import Verif.Model.Compiled
import Verif.Model.Parallel

/-!
What it means that the parallel loop of the compiled `generate_kern` computes a given array.
-/

namespace Verif

noncomputable section

/-- The cell an update changes, and the summand. -/
def MWr.cell (w : MWr) : (Nat × Nat) × ℝ := ((w.row.toNat, w.col.toNat), w.val)

/-- The cell an update changes, and the summand. -/
def VWr.cell (w : VWr) : Nat × ℝ := (w.pos.toNat, w.val)

/-- The loop `for i in prange(kh.nelements)` of `generate_kern`, executed on zeros, computes the
matrix `m`: each iteration can be computed without an access outside of an array, all its updates
are inside of a matrix of the shape of `m`, the loop can be completed, and however the memory
accesses of the iterations are interleaved, the result is `m`. -/
def CKH.Computes (kh : CKH) (E : Nat → ℝ) (coup : Nat → Nat → Int → Py (List KCall)) (m : Mat) :
    Prop :=
  ∃ prog : Nat → List MWr,
    (∀ i < kh.nelements, kh.iterWrites E coup i = .ok (prog i)) ∧
    (∀ i, kh.nelements ≤ i → prog i = []) ∧
    (∀ i, ∀ w ∈ prog i, 0 ≤ w.row ∧ w.row < m.rows ∧ 0 ≤ w.col ∧ w.col < m.cols) ∧
    (∃ x, PEnd (fun i => (prog i).map MWr.cell) x) ∧
    ∀ x, PEnd (fun i => (prog i).map MWr.cell) x → ∀ r c, x (r, c) = m.val r c

/-- The same when no matrix is stored: the loop computes the vector `y` from the vector `phi0`. -/
def CKH.ComputesFree (kh : CKH) (E : Nat → ℝ) (coup : Nat → Nat → Int → Py (List KCall))
    (phi0 : Vec) (y : Vec) : Prop :=
  ∃ prog : Nat → List VWr,
    (∀ i < kh.nelements, kh.iterWritesFree E coup phi0 i = .ok (prog i)) ∧
    (∀ i, kh.nelements ≤ i → prog i = []) ∧
    (∀ i, ∀ w ∈ prog i, 0 ≤ w.pos ∧ w.pos < y.size) ∧
    (∃ x, PEnd (fun i => (prog i).map VWr.cell) x) ∧
    ∀ x, PEnd (fun i => (prog i).map VWr.cell) x → ∀ r, x r = y.val r

end

end Verif
