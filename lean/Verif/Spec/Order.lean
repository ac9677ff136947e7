import Verif.Spec.Solve
import Verif.Spec.Labels

/-!
The iterations of the loop of `generate_kern` over the elements of the density matrix, and the rows
they write to.
-/

namespace Verif

noncomputable section

/-- The elements of charge `c` the loop runs over: pairs of states for the approaches with
coherences (aprclass.py:246-254), single states for Pauli (pauli.py:68-74). -/
def Kind.elems (k : Kind) (v : View) (la : Lab) (c : Nat) : List (Nat × Nat) :=
  match k with
  | .pauli => (v.row c).map fun b => (b, b)
  | _ => (combsR2 (v.row c)).filter fun p => la.inc c p.1 p.2

/-- The calls made by the iteration for the element `p` of charge `c`. -/
def Kind.iter (k : Kind) (v : View) (lib : NumLib) (E : Nat → ℝ) (L : Leads) (c : Nat)
    (p : Nat × Nat) : Py (List KCall) :=
  match k with
  | .pauli => do
    let f ← Pauli.genFct v E L
    Pauli.coup v f p.1 c
  | .lindblad => do
    let t ← Lindblad.genFct v E L
    let r ← Lindblad.coup v t p.1 p.2 c
    pure (.energy (E p.1 - E p.2) p.1 p.2 c :: r)
  | .vn1 => do
    let f ← genFct1vN v lib E L
    let r ← VN1.coup v L.Tba f p.1 p.2 c
    pure (.energy (E p.1 - E p.2) p.1 p.2 c :: r)
  | .redfield => do
    let f ← genFct1vN v lib E L
    let r ← Redfield.coup v L.Tba f p.1 p.2 c
    pure (.energy (E p.1 - E p.2) p.1 p.2 c :: r)

/-- One of the calls changes an entry of row `r` of some kernel with `n` columns. -/
def Writes (v : View) (n : Nat) (ks : List KCall) (r : Nat) : Prop :=
  ∃ k ∈ ks, ∃ m m' j, n ≤ m.rows ∧ m.cols = n ∧ j < n ∧ v.callKern m k = .ok m' ∧
    m'.val r j ≠ m.val r j

end

end Verif
