import Verif.Model.Fock
import Verif.Spec.Fermi
import Verif.Spec.Occ

/-!
The second-quantised operators that the many-body matrices should represent, and what a
consistent indexing of Fock states is.
-/

namespace Verif.Spec

variable {n : Nat}

/-- The operators of a dictionary `{(i, j): h}`: `h d+_j d_i`, with the Hermitian conjugate for
`i ≠ j` when `herm` is set. -/
noncomputable def hopTerm (herm : Bool) (e : (Fin n × Fin n) × ℂ) : Matrix (Occ n) (Occ n) ℂ :=
  let i := e.1.1
  let j := e.1.2
  e.2 • (cre j * ann i) + if herm = true ∧ i ≠ j then star e.2 • (cre i * ann j) else 0

noncomputable def hopOp (herm : Bool) (hs : List ((Fin n × Fin n) × ℂ)) :
    Matrix (Occ n) (Occ n) ℂ := (hs.map (hopTerm herm)).sum

/-- The operator of an entry `(m, n, k, l): U`: `U d+_m d+_n d_k d_l`, with the Hermitian
conjugate `U* d+_l d+_k d_n d_m` when `herm` is set, except for entries with
`m = l` and `n = k` and, if `mLessN` is set, for entries with `l > k`. -/
noncomputable def coulTerm (herm mLessN : Bool) (e : (Fin n × Fin n × Fin n × Fin n) × ℂ) :
    Matrix (Occ n) (Occ n) ℂ :=
  let m := e.1.1
  let p := e.1.2.1
  let k := e.1.2.2.1
  let l := e.1.2.2.2
  e.2 • (cre m * cre p * ann k * ann l) +
    if herm = true ∧ ¬ (m = l ∧ p = k) ∧ ¬ (mLessN = true ∧ l > k) then
      star e.2 • (cre l * cre k * ann p * ann m) else 0

noncomputable def coulOp (herm mLessN : Bool) (cs : List ((Fin n × Fin n × Fin n × Fin n) × ℂ)) :
    Matrix (Occ n) (Occ n) ℂ := (cs.map (coulTerm herm mLessN)).sum

/-- The coupling of lead `a`: the sum of `t d+_i + t* d_i` over the entries `(a, i): t`. -/
noncomputable def tunOp (a : Nat) (ts : List ((Nat × Fin n) × ℂ)) : Matrix (Occ n) (Occ n) ℂ :=
  (ts.map fun e => if e.1.1 = a then e.2 • cre e.1.2 + star e.2 • ann e.1.2 else 0).sum

/-- The coupling of bath `a`: the sum of `v d+_i d_j` over the entries `(a, i, j): v`. -/
noncomputable def phOp (a : Nat) (vs : List ((Nat × Fin n × Fin n) × ℂ)) :
    Matrix (Occ n) (Occ n) ℂ :=
  (vs.map fun e => if e.1.1 = a then e.2 • (cre e.1.2.1 * ann e.1.2.2) else 0).sum

/-! Dictionaries as the code sees them: labels are natural numbers. -/

def hopKeys (hs : List ((Fin n × Fin n) × ℂ)) : Dict (Nat × Nat) ℂ :=
  hs.map fun e => ((e.1.1.val, e.1.2.val), e.2)

def coulKeys (cs : List ((Fin n × Fin n × Fin n × Fin n) × ℂ)) :
    Dict (Nat × Nat × Nat × Nat) ℂ :=
  cs.map fun e => ((e.1.1.val, e.1.2.1.val, e.1.2.2.1.val, e.1.2.2.2.val), e.2)

def tunKeys (ts : List ((Nat × Fin n) × ℂ)) : Dict (Nat × Nat) ℂ :=
  ts.map fun e => ((e.1.1, e.1.2.val), e.2)

def phKeys (vs : List ((Nat × Fin n × Fin n) × ℂ)) : Dict (Nat × Nat × Nat) ℂ :=
  vs.map fun e => ((e.1.1, e.1.2.1.val, e.1.2.2.val), e.2)

/-- The indices `0, ..., nmany-1` and the occupations that have not been removed name each
other, and the lists by charge and by spin projection are right. -/
structure Consistent (n : Nat) (si : SI) : Prop where
  state : ∀ b : Nat, b < si.nmany → ∃ s : Occ n, si.getState b = .ok (ofOcc s) ∧
    si.getInd (ofOcc s) = .ok (some b)
  index : ∀ s : Occ n, si.getInd (ofOcc s) = .ok none ∨
    ∃ b : Nat, b < si.nmany ∧ si.getInd (ofOcc s) = .ok (some b) ∧ si.getState b = .ok (ofOcc s)
  charges : ∀ c : Nat, c ≤ n → ∃ l, si.getLst (some c) none none = .ok (some l) ∧ l.Nodup ∧
    ∀ b : Nat, b ∈ l ↔ b < si.nmany ∧ ∃ s : Occ n, si.getState b = .ok (ofOcc s) ∧ s.count = c
  szs : (si.indexing = .sz ∨ si.indexing = .ssq) → ∀ (c : Nat) (sz : Int), c ≤ n → AdmSz n c sz →
    ∃ l, si.getLst (some c) (some sz) none = .ok (some l) ∧ l.Nodup ∧
      ∀ b : Nat, b ∈ l ↔ b < si.nmany ∧ ∃ s : Occ n, si.getState b = .ok (ofOcc s) ∧
        s.count = c ∧ twoSz n (ofOcc s) = sz

end Verif.Spec
