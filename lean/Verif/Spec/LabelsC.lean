import Verif.Spec.Labels

/-!
What the 2vN approach relies on about the indexing object: every element `(b, bp)` of a density matrix that is block diagonal
in the charge has its own label, those of the diagonal elements are the labels below `npauli`.
-/

namespace Verif

/-- The object labels all ordered pairs of states with the same charge: `lab c b bp`. `ix1 q c b` is the label of the first
order element between charge `q + 1` and `q`. -/
structure VOkC (v : View) (lab ix1 : Nat → Nat → Nat → Nat) : Prop where
  len : v.ncharge + 1 ≤ v.statesdm.length
  last : ∀ c, v.ncharge ≤ c → v.row c = []
  nodup : ∀ c, (v.row c).Nodup
  disj : ∀ c c' b, b ∈ v.row c → b ∈ v.row c' → c = c'
  ind0 : ∀ c b bp, b ∈ v.row c → bp ∈ v.row c → v.ind0 b bp c = .ok (lab c b bp : Int)
  lab_lt : ∀ c b bp, b ∈ v.row c → bp ∈ v.row c → lab c b bp < v.ndm0
  lab_diag : ∀ c b bp, b ∈ v.row c → bp ∈ v.row c → (lab c b bp < v.npauli ↔ b = bp)
  lab_inj : ∀ c b bp c' b' bp', b ∈ v.row c → bp ∈ v.row c → b' ∈ v.row c' → bp' ∈ v.row c' →
    lab c b bp = lab c' b' bp' → c = c' ∧ b = b' ∧ bp = bp'
  lab_surj : ∀ k, k < v.ndm0 → ∃ c b bp, b ∈ v.row c ∧ bp ∈ v.row c ∧ lab c b bp = k
  np_le : v.npauli ≤ v.ndm0
  ind1 : ∀ q c b, c ∈ v.row (q + 1) → b ∈ v.row q → v.ind1 c b q = .ok (ix1 q c b)
  ix1_lt : ∀ q c b, c ∈ v.row (q + 1) → b ∈ v.row q → ix1 q c b < v.ndm1
  ix1_inj : ∀ q c b q' c' b', c ∈ v.row (q + 1) → b ∈ v.row q → c' ∈ v.row (q' + 1) → b' ∈ v.row q' →
    ix1 q c b = ix1 q' c' b' → q = q' ∧ c = c' ∧ b = b'

end Verif
