import Verif.Model.Kernel

/-!
What the approaches may rely on about the indexing object (`View`). `Lab` names the answers
of the four look-up functions; `VOk` says that they label the elements of a density matrix
that is block diagonal in the charge: every diagonal element has its own label below
`npauli`; an off-diagonal element is either left out or shares a label from
`npauli..ndm0-1` with its transpose and with nothing else; of the two the one met first in
`itertools.combinations` is the stored one.

`Verif.Props.View` shows that objects of class `StateIndexingDM` with 'Lin', 'charge' or
'sz' indexing satisfy this after any history.

With 'ssq' indexing the members of a spin multiplet share labels; `VMul` and `VRep` say what
is left of the above then (`Verif.Props.MultipletKern`).
-/

namespace Verif

/-- Names for the answers of the look-up functions. The first argument is the charge (for
`ix1` the charge of the second state). -/
structure Lab where
  inc : Nat → Nat → Nat → Bool
  can : Nat → Nat → Nat → Bool
  lab : Nat → Nat → Nat → Nat
  ix1 : Nat → Nat → Nat → Nat

/-- The considered states of charge `c`. -/
def View.row (v : View) (c : Nat) : List Nat := v.statesdm[c]?.getD []

/-- The object labels a density matrix, possibly giving one label to several elements. -/
structure VMul (v : View) (la : Lab) : Prop where
  len : v.ncharge + 1 ≤ v.statesdm.length
  last : ∀ c, v.ncharge ≤ c → v.row c = []
  nodup : ∀ c, (v.row c).Nodup
  disj : ∀ c c' b, b ∈ v.row c → b ∈ v.row c' → c = c'
  ind0 : ∀ c b bp, b ∈ v.row c → bp ∈ v.row c →
    v.ind0 b bp c = .ok (if la.inc c b bp then (la.lab c b bp : Int) else -1)
  conj0 : ∀ c b bp, b ∈ v.row c → bp ∈ v.row c → la.inc c b bp = true →
    v.conj0 b bp c = .ok (la.can c b bp)
  inc_diag : ∀ c b, b ∈ v.row c → la.inc c b b = true
  inc_symm : ∀ c b bp, b ∈ v.row c → bp ∈ v.row c → la.inc c b bp = la.inc c bp b
  can_diag : ∀ c b, b ∈ v.row c → la.can c b b = true
  can_off : ∀ c b bp, b ∈ v.row c → bp ∈ v.row c → b ≠ bp → la.inc c b bp = true →
    la.can c bp b = !la.can c b bp
  lab_diag : ∀ c b, b ∈ v.row c → la.lab c b b < v.npauli
  lab_off : ∀ c b bp, b ∈ v.row c → bp ∈ v.row c → b ≠ bp → la.inc c b bp = true →
    v.npauli ≤ la.lab c b bp ∧ la.lab c b bp < v.ndm0
  lab_symm : ∀ c b bp, b ∈ v.row c → bp ∈ v.row c → la.inc c b bp = true →
    la.lab c b bp = la.lab c bp b
  np_le : v.npauli ≤ v.ndm0
  ndm0r : v.ndm0r = v.ndm0 + (v.ndm0 - v.npauli)
  ind1 : ∀ q c b, c ∈ v.row (q + 1) → b ∈ v.row q → v.ind1 c b q = .ok (la.ix1 q c b)
  ix1_lt : ∀ q c b, c ∈ v.row (q + 1) → b ∈ v.row q → la.ix1 q c b < v.ndm1
  ix1_inj : ∀ q c b q' c' b', c ∈ v.row (q + 1) → b ∈ v.row q → c' ∈ v.row (q' + 1) →
    b' ∈ v.row q' → la.ix1 q c b = la.ix1 q' c' b' → q = q' ∧ c = c' ∧ b = b'

/-- Each label is represented by exactly one element, which `uni` marks: the one whose equation
is set up. It is a diagonal element, or one of those met in `itertools.combinations`, and it is
not stored conjugated. -/
structure VRep (v : View) (la : Lab) (uni : Nat → Nat → Nat → Bool) : Prop extends VMul v la where
  bool0 : ∀ c b bp, b ∈ v.row c → bp ∈ v.row c → la.inc c b bp = true →
    v.bool0 b bp c = .ok (uni c b bp)
  uni_can : ∀ c b bp, b ∈ v.row c → bp ∈ v.row c → la.inc c b bp = true → uni c b bp = true →
    la.can c b bp = true
  uni_ord : ∀ c b bp, b ∈ v.row c → bp ∈ v.row c → b ≠ bp → la.inc c b bp = true →
    uni c b bp = true → (b, bp) ∈ combs2 (v.row c)
  uni_inj : ∀ c b bp c' b' bp', b ∈ v.row c → bp ∈ v.row c → la.inc c b bp = true →
    b' ∈ v.row c' → bp' ∈ v.row c' → la.inc c' b' bp' = true → uni c b bp = true →
    uni c' b' bp' = true → la.lab c b bp = la.lab c' b' bp' → c = c' ∧ b = b' ∧ bp = bp'
  uni_surj : ∀ k, k < v.ndm0 → ∃ c b bp, b ∈ v.row c ∧ bp ∈ v.row c ∧ la.inc c b bp = true ∧
    uni c b bp = true ∧ la.lab c b bp = k

/-- The object labels a density matrix, each label belonging to one element and its mirror
image. -/
structure VOk (v : View) (la : Lab) : Prop extends VMul v la where
  bool0 : ∀ c b bp, b ∈ v.row c → bp ∈ v.row c → la.inc c b bp = true →
    v.bool0 b bp c = .ok (la.can c b bp)
  can_ord : ∀ c b bp, (b, bp) ∈ combs2 (v.row c) → la.inc c b bp = true → la.can c b bp = true
  lab_inj : ∀ c b bp c' b' bp', b ∈ v.row c → bp ∈ v.row c → la.inc c b bp = true →
    b' ∈ v.row c' → bp' ∈ v.row c' → la.inc c' b' bp' = true →
    la.lab c b bp = la.lab c' b' bp' →
    c = c' ∧ ((b = b' ∧ bp = bp') ∨ (b = bp' ∧ bp = b'))
  lab_surj : ∀ k, k < v.ndm0 → ∃ c b bp, b ∈ v.row c ∧ bp ∈ v.row c ∧ la.inc c b bp = true ∧
    la.lab c b bp = k

/-- All fields at once. -/
theorem VOk.intro {v : View} {la : Lab}
    (len : v.ncharge + 1 ≤ v.statesdm.length)
    (last : ∀ c, v.ncharge ≤ c → v.row c = [])
    (nodup : ∀ c, (v.row c).Nodup)
    (disj : ∀ c c' b, b ∈ v.row c → b ∈ v.row c' → c = c')
    (ind0 : ∀ c b bp, b ∈ v.row c → bp ∈ v.row c →
    v.ind0 b bp c = .ok (if la.inc c b bp then (la.lab c b bp : Int) else -1))
    (bool0 : ∀ c b bp, b ∈ v.row c → bp ∈ v.row c → la.inc c b bp = true →
    v.bool0 b bp c = .ok (la.can c b bp))
    (conj0 : ∀ c b bp, b ∈ v.row c → bp ∈ v.row c → la.inc c b bp = true →
    v.conj0 b bp c = .ok (la.can c b bp))
    (inc_diag : ∀ c b, b ∈ v.row c → la.inc c b b = true)
    (inc_symm : ∀ c b bp, b ∈ v.row c → bp ∈ v.row c → la.inc c b bp = la.inc c bp b)
    (can_diag : ∀ c b, b ∈ v.row c → la.can c b b = true)
    (can_off : ∀ c b bp, b ∈ v.row c → bp ∈ v.row c → b ≠ bp → la.inc c b bp = true →
    la.can c bp b = !la.can c b bp)
    (can_ord : ∀ c b bp, (b, bp) ∈ combs2 (v.row c) → la.inc c b bp = true → la.can c b bp = true)
    (lab_diag : ∀ c b, b ∈ v.row c → la.lab c b b < v.npauli)
    (lab_off : ∀ c b bp, b ∈ v.row c → bp ∈ v.row c → b ≠ bp → la.inc c b bp = true →
    v.npauli ≤ la.lab c b bp ∧ la.lab c b bp < v.ndm0)
    (lab_symm : ∀ c b bp, b ∈ v.row c → bp ∈ v.row c → la.inc c b bp = true →
    la.lab c b bp = la.lab c bp b)
    (lab_inj : ∀ c b bp c' b' bp', b ∈ v.row c → bp ∈ v.row c → la.inc c b bp = true →
    b' ∈ v.row c' → bp' ∈ v.row c' → la.inc c' b' bp' = true →
    la.lab c b bp = la.lab c' b' bp' →
    c = c' ∧ ((b = b' ∧ bp = bp') ∨ (b = bp' ∧ bp = b')))
    (lab_surj : ∀ k, k < v.ndm0 → ∃ c b bp, b ∈ v.row c ∧ bp ∈ v.row c ∧ la.inc c b bp = true ∧
    la.lab c b bp = k)
    (np_le : v.npauli ≤ v.ndm0)
    (ndm0r : v.ndm0r = v.ndm0 + (v.ndm0 - v.npauli))
    (ind1 : ∀ q c b, c ∈ v.row (q + 1) → b ∈ v.row q → v.ind1 c b q = .ok (la.ix1 q c b))
    (ix1_lt : ∀ q c b, c ∈ v.row (q + 1) → b ∈ v.row q → la.ix1 q c b < v.ndm1)
    (ix1_inj : ∀ q c b q' c' b', c ∈ v.row (q + 1) → b ∈ v.row q → c' ∈ v.row (q' + 1) →
    b' ∈ v.row q' → la.ix1 q c b = la.ix1 q' c' b' → q = q' ∧ c = c' ∧ b = b')
    : VOk v la :=
  { len := len, last := last, nodup := nodup, disj := disj, ind0 := ind0, bool0 := bool0, conj0 :=
    conj0, inc_diag := inc_diag, inc_symm := inc_symm, can_diag := can_diag, can_off := can_off,
    can_ord := can_ord, lab_diag := lab_diag, lab_off := lab_off, lab_symm := lab_symm, lab_inj :=
    lab_inj, lab_surj := lab_surj, np_le := np_le, ndm0r := ndm0r, ind1 := ind1, ix1_lt := ix1_lt,
    ix1_inj := ix1_inj }

/-- Position of the imaginary part of the element with label `k`. -/
def View.imag (v : View) (k : Nat) : Nat := v.ndm0 + k - v.npauli

/-- The density matrix stored in the vector `φ`: the element `(a, ap)` of charge `c` has its
real part at the label and its imaginary part, with the sign for the stored one of the pair,
at the position of the imaginary part; elements left out are zero. -/
noncomputable def dens (v : View) (la : Lab) (φ : Nat → ℝ) (c a ap : Nat) : ℂ :=
  if la.inc c a ap then
    ⟨φ (la.lab c a ap), if a = ap then 0 else
      if la.can c a ap then φ (v.imag (la.lab c a ap)) else -φ (v.imag (la.lab c a ap))⟩
  else 0

end Verif
