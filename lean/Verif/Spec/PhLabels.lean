import Verif.Spec.Labels

/-!
What the electron-phonon approaches may rely on about the second indexing object `si_elph`
(`e` below), next to `VOk v la` for `si`: it considers the same states; every ordered pair of
states of equal charge is either left out or has a label of its own; and pairs are left out
consistently with the coherences of `si`.

`Verif.Props.ElPh` shows this for an object of class `StateIndexingDMc` that considers the same
states.
-/

namespace Verif

/-- `el c b a` is the label of the pair `b, a` of charge `c`. -/
structure PhOk (v e : View) (la : Lab) (el : Nat → Nat → Nat → Option Nat) : Prop where
  ncharge : e.ncharge = v.ncharge
  states : ∀ c : Nat, c < v.ncharge → e.states c = .ok (v.row c)
  ind0 : ∀ c b a, b ∈ v.row c → a ∈ v.row c →
    e.ind0 b a c = .ok (match el c b a with | some k => (k : Int) | none => -1)
  bool0 : ∀ c b a, b ∈ v.row c → a ∈ v.row c → e.bool0 b a c = .ok (el c b a).isSome
  lt : ∀ c b a k, b ∈ v.row c → a ∈ v.row c → el c b a = some k → k < e.ndm0
  inj : ∀ c b a c' b' a' k, b ∈ v.row c → a ∈ v.row c → b' ∈ v.row c' → a' ∈ v.row c' →
    el c b a = some k → el c' b' a' = some k → c = c' ∧ b = b' ∧ a = a'
  diag : ∀ c b, b ∈ v.row c → (el c b b).isSome = true
  symm : ∀ c b a, b ∈ v.row c → a ∈ v.row c → (el c b a).isSome = (el c a b).isSome
  inc : ∀ c b x y, b ∈ v.row c → x ∈ v.row c → y ∈ v.row c → la.inc c x y = true →
    (el c b x).isSome = (el c b y).isSome

end Verif
