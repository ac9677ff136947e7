import Verif.Spec.Labels
import Verif.Model.Approach
import Mathlib.Analysis.SpecialFunctions.Sqrt

/-! Spin multiplets of eigenstates. `Z` and `Q` are twice the projection and twice the total spin
of a state, `A` numbers the multiplets of equal charge and spin. -/

namespace Verif

open Finset
open scoped ComplexConjugate

noncomputable section

/-- The considered states form complete multiplets. -/
structure Mult (v : View) (Z Q A : Nat → Int) : Prop where
  rng : ∀ c, ∀ b ∈ v.row c, -Q b ≤ Z b ∧ Z b ≤ Q b ∧ (Z b + Q b) % 2 = 0
  full : ∀ c, ∀ b ∈ v.row c, ∀ z, -Q b ≤ z → z ≤ Q b → (z + Q b) % 2 = 0 →
    ∃ b' ∈ v.row c, Z b' = z ∧ Q b' = Q b ∧ A b' = A b
  inj : ∀ c, ∀ b ∈ v.row c, ∀ b' ∈ v.row c, Z b = Z b' → Q b = Q b' → A b = A b' → b = b'

/-- Matrix elements `⟨b|S⁺|y⟩` between members of multiplets. -/
def sUp (Z Q A : Nat → Int) (b y : Nat) : ℂ :=
  if Q b = Q y ∧ A b = A y ∧ Z b = Z y + 2 then
    ((Real.sqrt ((Q y : ℝ) * (Q y + 2) - Z y * (Z y + 2)) / 2 : ℝ) : ℂ)
  else 0

/-- Matrix elements `⟨b|S⁻|y⟩`. -/
def sDn (Z Q A : Nat → Int) (b y : Nat) : ℂ := sUp Z Q A y b

/-- The density matrix does not distinguish the members of a multiplet: elements between states
of different spin or projection vanish, corresponding elements are equal. -/
structure Isotropic (v : View) (Z Q A : Nat → Int) (ρ : Nat → Nat → Nat → ℂ) : Prop where
  diff : ∀ c, ∀ b ∈ v.row c, ∀ bp ∈ v.row c, ¬ (Z b = Z bp ∧ Q b = Q bp) → ρ c b bp = 0
  same : ∀ c, ∀ b ∈ v.row c, ∀ bp ∈ v.row c, ∀ b' ∈ v.row c, ∀ bp' ∈ v.row c,
    Z b = Z bp → Q b = Q bp → Z b' = Z bp' → Q b = Q b' → A b = A b' → Q bp = Q bp' → A bp = A bp' →
    ρ c b bp = ρ c b' bp'

/-- Commutator of `X` with `M`, a matrix with rows `B` and columns `P`. -/
def comm (B P : Finset Nat) (X M : Nat → Nat → ℂ) (b a : Nat) : ℂ :=
  ∑ y ∈ B, X b y * M y a - ∑ y ∈ P, M b y * X y a

/-- The system is symmetric under rotations of all spins. Members of a multiplet have equal
energies. The leads `i` and `k + i` are the two spin directions of one lead: they have the same
parameters, and the parts of their tunnelling matrices that add an electron, with spin up and down,
form a spinor, e.g. `[S⁺, T_{k+i}] = T_i`. -/
structure SpinSymm (v : View) (Z Q A : Nat → Int) (E : Nat → ℝ) (L : Leads) (k : Nat) : Prop where
  energy : ∀ c, ∀ b ∈ v.row c, ∀ y ∈ v.row c, Q b = Q y → A b = A y → E b = E y
  nleads : v.nleads = 2 * k
  same : ∀ i < k, L.mu (k + i) = L.mu i ∧ L.T (k + i) = L.T i ∧ L.Dm (k + i) = L.Dm i ∧ L.Dp (k + i) = L.Dp i
  herm : ∀ l b c, L.Tba l b c = conj (L.Tba l c b)
  plusUp : ∀ i < k, ∀ q, ∀ x ∈ v.row (q + 1), ∀ b ∈ v.row q,
    comm (v.row (q + 1)).toFinset (v.row q).toFinset (sUp Z Q A) (L.Tba i) x b = 0
  plusDn : ∀ i < k, ∀ q, ∀ x ∈ v.row (q + 1), ∀ b ∈ v.row q,
    comm (v.row (q + 1)).toFinset (v.row q).toFinset (sUp Z Q A) (L.Tba (k + i)) x b = L.Tba i x b
  minusUp : ∀ i < k, ∀ q, ∀ x ∈ v.row (q + 1), ∀ b ∈ v.row q,
    comm (v.row (q + 1)).toFinset (v.row q).toFinset (sDn Z Q A) (L.Tba i) x b = L.Tba (k + i) x b
  minusDn : ∀ i < k, ∀ q, ∀ x ∈ v.row (q + 1), ∀ b ∈ v.row q,
    comm (v.row (q + 1)).toFinset (v.row q).toFinset (sDn Z Q A) (L.Tba (k + i)) x b = 0

/-- One label for corresponding elements of multiplets, an equation for each label. `uni` marks the
elements whose equations are set up. -/
structure MultLab (v : View) (la : Lab) (uni : Nat → Nat → Nat → Bool) (Z Q A : Nat → Int) : Prop extends
    VRep v la uni, Mult v Z Q A where
  inc : ∀ c, ∀ b ∈ v.row c, ∀ bp ∈ v.row c, (la.inc c b bp = true ↔ Z b = Z bp ∧ Q b = Q bp)
  same_lab : ∀ c, ∀ b ∈ v.row c, ∀ bp ∈ v.row c, ∀ b' ∈ v.row c, ∀ bp' ∈ v.row c, Z b = Z bp → Q b = Q bp →
    Z b' = Z bp' → Q b = Q b' → A b = A b' → Q bp = Q bp' → A bp = A bp' →
    la.lab c b bp = la.lab c b' bp' ∧ la.can c b bp = la.can c b' bp'
  uni_low : ∀ c, ∀ b ∈ v.row c, ∀ bp ∈ v.row c, la.inc c b bp = true →
    (uni c b bp = true ↔ la.can c b bp = true ∧ Z b = -Q b)

/-- `w` considers the same states and leads as `v`, and at least the same elements. -/
structure SameStates (v w : View) (la la' : Lab) : Prop where
  nleads : w.nleads = v.nleads
  ncharge : w.ncharge = v.ncharge
  row : ∀ c b, b ∈ w.row c ↔ b ∈ v.row c
  inc : ∀ c b bp, b ∈ v.row c → bp ∈ v.row c → la.inc c b bp = true → la'.inc c b bp = true

/-- `φ` and `φ'` hold the same density matrix. -/
def SameDens (v w : View) (la la' : Lab) (φ φ' : Nat → ℝ) : Prop :=
  ∀ c, ∀ b ∈ v.row c, ∀ bp ∈ v.row c, dens w la' φ' c b bp = dens v la φ c b bp

/-- The equations for `v`, with one unknown per multiplet, say the same as those for `w`: density matrices
that do not distinguish the members of a multiplet can be stored in both; they change in the same way, are
stationary in both or in neither, have the same trace and give the same currents. -/
structure SameReduced (v w : View) (la la' : Lab) (Z Q A : Nat → Int) (m m' : Mat) (cur cur' : Vec → Py (List CEv)) :
    Prop where
  exist : ∀ φ : Vec, ∃ φ' : Vec, φ'.size = w.ndm0r ∧ SameDens v w la la' φ.val φ'.val
  back : ∀ φ' : Vec, Isotropic v Z Q A (dens w la' φ'.val) → ∃ φ : Vec, φ.size = v.ndm0r ∧
    SameDens v w la la' φ.val φ'.val
  unique : ∀ φ φ' ψ ψ' : Vec, SameDens v w la la' φ.val φ'.val → SameDens v w la la' ψ.val ψ'.val →
    ((∀ i < v.ndm0r, φ.val i = ψ.val i) ↔ ∀ i < w.ndm0r, φ'.val i = ψ'.val i)
  step : ∀ φ φ' : Vec, SameDens v w la la' φ.val φ'.val →
    SameDens v w la la' (fun i => ∑ j ∈ range v.ndm0r, m.val i j * φ.val j)
      (fun i => ∑ j ∈ range w.ndm0r, m'.val i j * φ'.val j)
  zero : ∀ φ φ' : Vec, SameDens v w la la' φ.val φ'.val →
    ((∀ i < v.ndm0r, ∑ j ∈ range v.ndm0r, m.val i j * φ.val j = 0) ↔
      ∀ i < w.ndm0r, ∑ j ∈ range w.ndm0r, m'.val i j * φ'.val j = 0)
  norm : ∃ nv nw, v.genNormVec (Vec.zeros v.ndm0r) = .ok nv ∧ w.genNormVec (Vec.zeros w.ndm0r) = .ok nw ∧
    ∀ φ φ' : Vec, SameDens v w la la' φ.val φ'.val →
      ∑ i ∈ range v.ndm0r, nv.val i * φ.val i = ∑ i ∈ range w.ndm0r, nw.val i * φ'.val i
  cur : ∀ φ φ' : Vec, φ.size = v.ndm0r → φ'.size = w.ndm0r → SameDens v w la la' φ.val φ'.val →
    ∃ evs evs', cur φ = .ok evs ∧ cur' φ' = .ok evs' ∧ ∀ l < v.nleads,
      current evs' l = current evs l ∧ energyCurrent evs' l = energyCurrent evs l

end

end Verif
