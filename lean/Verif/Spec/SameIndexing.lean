import Verif.Spec.Basis

/-! Two calculations for one system, with different indexing and different eigenstates. -/

namespace Verif

open Finset
open scoped ComplexConjugate

noncomputable section

/-- What the calculations for `v` and `w` have in common, where the new eigenstates are formed from the old ones with
the amplitudes `U`: to every density matrix for `v` belongs the one for `w` (`exist`), different ones to different ones
(`unique`); it changes in the same way (`step`), is stationary in both or in neither (`zero`), has the same trace, as
formed with the vectors of `gen_norm_vec` (`norm`), and gives the same currents (`cur`). -/
structure SameSystem (v w : View) (la la' : Lab) (U : Nat → Nat → ℂ) (m m' : Mat) (cur cur' : Vec → Py (List CEv)) :
    Prop where
  exist : ∀ φ : Vec, ∃ φ' : Vec, φ'.size = w.ndm0r ∧ NewDens w U (dens v la φ.val) (dens w la' φ'.val)
  unique : ∀ φ χ φ' : Vec, NewDens w U (dens v la φ.val) (dens w la' φ'.val) →
    NewDens w U (dens v la χ.val) (dens w la' φ'.val) → ∀ i < v.ndm0r, φ.val i = χ.val i
  step : ∀ φ φ' : Vec, NewDens w U (dens v la φ.val) (dens w la' φ'.val) →
    NewDens w U (dens v la fun i => ∑ j ∈ range v.ndm0r, m.val i j * φ.val j)
      (dens w la' fun i => ∑ j ∈ range w.ndm0r, m'.val i j * φ'.val j)
  zero : ∀ φ φ' : Vec, NewDens w U (dens v la φ.val) (dens w la' φ'.val) →
    ((∀ i < v.ndm0r, ∑ j ∈ range v.ndm0r, m.val i j * φ.val j = 0) ↔
      ∀ i < w.ndm0r, ∑ j ∈ range w.ndm0r, m'.val i j * φ'.val j = 0)
  norm : ∃ nv nw, v.genNormVec (Vec.zeros v.ndm0r) = .ok nv ∧ w.genNormVec (Vec.zeros w.ndm0r) = .ok nw ∧
    ∀ φ φ' : Vec, NewDens w U (dens v la φ.val) (dens w la' φ'.val) →
      ∑ i ∈ range v.ndm0r, nv.val i * φ.val i = ∑ i ∈ range w.ndm0r, nw.val i * φ'.val i
  cur : ∀ φ φ' : Vec, φ.size = v.ndm0r → φ'.size = w.ndm0r → NewDens w U (dens v la φ.val) (dens w la' φ'.val) →
    ∃ evs evs', cur φ = .ok evs ∧ cur' φ' = .ok evs' ∧ ∀ l < v.nleads,
      current evs' l = current evs l ∧ energyCurrent evs' l = energyCurrent evs l

end

end Verif
