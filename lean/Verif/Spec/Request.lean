import Verif.Model.Params

/-!
What a user asks for with an argument `hsingle`, `coulomb`, `tleads` or `velph`: the value requested for a label, if any.
-/

namespace Verif

open Classical in
/-- Arguments are dictionaries, lists of rows, of which later ones replace earlier ones with the same labels, or arrays, of
which the labels in `inArray` are read. -/
noncomputable def Param.asks {κ : Type} [DecidableEq κ] (inArray : List Nat → κ → Prop) : Param κ → κ → Option ℂ
  | .dict d, k => d.get? k
  | .list rows, k => (rows.reverse.find? fun e => e.1 = k).map Prod.snd
  | .array shape val, k => if inArray shape k then some (val k) else none
  | .other, _ => none

/-- The labels read from an array `hsingle`; if the Hamiltonian is completed to a Hermitian one, those on and above the
diagonal. -/
def inSquare (herm : Bool) (shape : List Nat) (k : Nat × Nat) : Prop :=
  k.1 < shape.headD 0 ∧ k.2 < shape.headD 0 ∧ (herm = true → k.1 ≤ k.2)

/-- The labels read from an array `tleads`. -/
def inPairs : List Nat → Nat × Nat → Prop
  | a :: b :: _, k => k.1 < a ∧ k.2 < b
  | _, _ => False

/-- The labels read from an array `velph`. -/
def inTriples : List Nat → Nat × Nat × Nat → Prop
  | a :: b :: c :: _, k => k.1 < a ∧ k.2.1 < b ∧ k.2.2 < c
  | _, _ => False

/-- The request for one spin species, `a` the number of its first labels and `b` of its second labels, repeated for the
other; nothing is requested between the species. -/
def bothSpins (a b : Nat) (f : Nat × Nat → Option ℂ) (k : Nat × Nat) : Option ℂ :=
  if k.1 < a ∧ k.2 < b then f k else if a ≤ k.1 ∧ b ≤ k.2 then f (k.1 - a, k.2 - b) else none

/-- The same with and without the symmetry 'spin'; only labels of the first species are allowed with it. -/
def requested (sym : Option (Nat × Nat)) (f : Nat × Nat → Option ℂ) : Nat × Nat → Option ℂ :=
  match sym with
  | none => f
  | some (a, b) => bothSpins a b f

def FirstSpin (sym : Option (Nat × Nat)) (f : Nat × Nat → Option ℂ) : Prop :=
  ∀ a b, sym = some (a, b) → ∀ k, f k ≠ none → k.1 < a ∧ k.2 < b

/-- The same for `velph`, whose first label is that of a bath. -/
def requested3 (nss : Option Nat) (f : Nat × Nat × Nat → Option ℂ) (k : Nat × Nat × Nat) : Option ℂ :=
  requested (nss.map fun m => (m, m)) (fun p => f (k.1, p)) k.2

/-- What is asked for with `coulomb`. -/
def CoulombArg.asks : CoulombArg → Nat × Nat × Nat × Nat → Option ℂ
  | .dict d, k => d.get? k
  | .list rows, k => (rows.reverse.find? fun e => e.1 = k).map Prod.snd
  | .other, _ => none

/-- The rows of a list are not zero. -/
def CoulombArg.NoZeros : CoulombArg → Prop
  | .list rows => ∀ e ∈ rows, e.2 ≠ 0
  | _ => True

end Verif
