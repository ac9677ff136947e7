import Verif.Model.SpinOps
import Verif.Spec.SpinOps
import Verif.Props.Fock
import Verif.Lemmas.DMDict
import Mathlib.Tactic.NoncommRing
import Mathlib.Tactic.LinearCombination

/-! Algebra of the spin operators, and closed forms of the matrices the code builds. -/

namespace Verif

open Verif.Spec Function

variable {n : Nat}

/-! ### Algebra -/

theorem ann_cre {K : Type} [CommRing K] (i j : Fin n) :
    (ann i * cre j : Matrix (Occ n) (Occ n) K) = (if i = j then 1 else 0) - cre j * ann i := by
  by_cases h : i = j
  · subst h
    rw [if_pos rfl, ← ann_cre_self i]
    noncomm_ring
  · rw [if_neg h, zero_sub]
    exact eq_neg_of_add_eq_zero_left (ann_cre_ne h)

/-- The commutator of two one-particle operators. -/
theorem bil_comm {K : Type} [CommRing K] (a b c d : Fin n) :
    (cre a * ann b * (cre c * ann d) - cre c * ann d * (cre a * ann b) : Matrix (Occ n) (Occ n) K)
      = (if b = c then cre a * ann d else 0) - (if a = d then cre c * ann b else 0) := by
  have h1 : (cre a * ann b * (cre c * ann d) : Matrix (Occ n) (Occ n) K)
      = (if b = c then cre a * ann d else 0) - cre a * cre c * (ann b * ann d) := by
    have : (cre a * ann b * (cre c * ann d) : Matrix (Occ n) (Occ n) K)
        = cre a * (ann b * cre c) * ann d := by noncomm_ring
    rw [this, ann_cre]
    split <;> noncomm_ring
  have h2 : (cre c * ann d * (cre a * ann b) : Matrix (Occ n) (Occ n) K)
      = (if a = d then cre c * ann b else 0) - cre c * cre a * (ann d * ann b) := by
    have : (cre c * ann d * (cre a * ann b) : Matrix (Occ n) (Occ n) K)
        = cre c * (ann d * cre a) * ann b := by noncomm_ring
    rw [this, ann_cre]
    by_cases e : a = d
    · rw [if_pos e, if_pos e.symm]; noncomm_ring
    · rw [if_neg e, if_neg (Ne.symm e)]; noncomm_ring
  have e1 : (cre c * cre a : Matrix (Occ n) (Occ n) K) = -(cre a * cre c) :=
    eq_neg_of_add_eq_zero_left (cre_cre c a)
  have e2 : (ann d * ann b : Matrix (Occ n) (Occ n) K) = -(ann b * ann d) :=
    eq_neg_of_add_eq_zero_left (ann_ann d b)
  rw [h1, h2, e1, e2]
  noncomm_ring

theorem up_inj {i j : Fin (n / 2)} : (up i : Fin n) = up j ↔ i = j := by
  simp [up, Fin.ext_iff]

theorem dn_inj {i j : Fin (n / 2)} : (dn i : Fin n) = dn j ↔ i = j := by
  simp [dn, Fin.ext_iff]

theorem up_ne_dn (i j : Fin (n / 2)) : (up i : Fin n) ≠ dn j := by
  simp only [up, dn, ne_eq, Fin.mk.injEq]
  omega

/-- The commutator of two sums of one-particle operators. -/
theorem sum_comm_bil {ι : Type} [Fintype ι] [DecidableEq ι] (a b c d : ι → Fin n) :
    ((∑ i, cre (a i) * ann (b i)) * (∑ i, cre (c i) * ann (d i))
      - (∑ i, cre (c i) * ann (d i)) * (∑ i, cre (a i) * ann (b i)) : Matrix (Occ n) (Occ n) ℤ)
      = ∑ i, ∑ j, ((if b i = c j then cre (a i) * ann (d j) else 0)
        - (if a i = d j then cre (c j) * ann (b i) else 0)) := by
  rw [Finset.sum_mul_sum, Finset.sum_mul_sum]
  rw [Finset.sum_comm (f := fun i j => cre (c i) * ann (d i) * (cre (a j) * ann (b j)))]
  rw [← Finset.sum_sub_distrib]
  refine Finset.sum_congr rfl fun i _ => ?_
  rw [← Finset.sum_sub_distrib]
  exact Finset.sum_congr rfl fun j _ => bil_comm _ _ _ _

/-- `[S⁺, S⁻] = 2 Sᶻ`. -/
theorem plus_minus : (spinPlus * spinMinus - spinMinus * spinPlus : Matrix (Occ n) (Occ n) ℤ)
    = spinZ2 := by
  unfold spinPlus spinMinus spinZ2
  rw [sum_comm_bil]
  refine Finset.sum_congr rfl fun i _ => ?_
  simp only [dn_inj, up_inj, Finset.sum_sub_distrib, Finset.sum_ite_eq, Finset.mem_univ, if_true]

/-- `[2 Sᶻ, S⁻] = -2 S⁻`. -/
theorem z_minus : (spinZ2 * spinMinus - spinMinus * spinZ2 : Matrix (Occ n) (Occ n) ℤ)
    = -2 * spinMinus := by
  have h1 := sum_comm_bil (n := n) (up (n := n)) up dn up
  have h2 := sum_comm_bil (n := n) (dn (n := n)) dn dn up
  have e : (spinZ2 * spinMinus - spinMinus * spinZ2 : Matrix (Occ n) (Occ n) ℤ) = 
      ((∑ i, cre (up i) * ann (up i)) * (∑ i, cre (dn i) * ann (up i))
        - (∑ i, cre (dn i) * ann (up i)) * (∑ i, cre (up i) * ann (up i))) -
      ((∑ i, cre (dn i) * ann (dn i)) * (∑ i, cre (dn i) * ann (up i))
        - (∑ i, cre (dn i) * ann (up i)) * (∑ i, cre (dn i) * ann (dn i))) := by
    unfold spinZ2 spinMinus
    rw [Finset.sum_sub_distrib]
    noncomm_ring
  rw [e, h1, h2]
  simp only [up_ne_dn, (up_ne_dn _ _).symm, dn_inj, up_inj, Finset.sum_sub_distrib,
    Finset.sum_ite_eq, Finset.mem_univ, if_true, if_false, Finset.sum_const_zero]
  unfold spinMinus
  noncomm_ring

theorem minus_transpose : (spinMinus : Matrix (Occ n) (Occ n) ℤ).transpose = spinPlus := by
  unfold spinMinus spinPlus
  rw [Matrix.transpose_sum]
  refine Finset.sum_congr rfl fun i _ => ?_
  rw [Matrix.transpose_mul]
  rfl

theorem z_transpose : (spinZ2 : Matrix (Occ n) (Occ n) ℤ).transpose = spinZ2 := by
  unfold spinZ2
  rw [Matrix.transpose_sum]
  refine Finset.sum_congr rfl fun i _ => ?_
  rw [Matrix.transpose_sub, Matrix.transpose_mul, Matrix.transpose_mul]
  rfl

/-- `[2 Sᶻ, S⁺] = 2 S⁺`. -/
theorem z_plus : (spinZ2 * spinPlus - spinPlus * spinZ2 : Matrix (Occ n) (Occ n) ℤ)
    = 2 * spinPlus := by
  have h := congrArg Matrix.transpose (z_minus (n := n))
  rw [Matrix.transpose_sub, Matrix.transpose_mul, Matrix.transpose_mul, minus_transpose, z_transpose]
    at h
  have h2 : (-2 * spinMinus : Matrix (Occ n) (Occ n) ℤ).transpose = -2 * spinPlus := by
    rw [← minus_transpose, neg_mul, neg_mul, Matrix.transpose_neg, two_mul, two_mul,
      Matrix.transpose_add]
  rw [h2] at h
  have h3 := congrArg Neg.neg h
  rw [neg_sub] at h3
  rw [h3]
  noncomm_ring

theorem square_transpose : (spinSquare4 : Matrix (Occ n) (Occ n) ℤ).transpose = spinSquare4 := by
  unfold spinSquare4
  rw [two_mul]
  simp only [Matrix.transpose_add, Matrix.transpose_mul, ← minus_transpose, Matrix.transpose_transpose,
    z_transpose]

/-- `4 S² = 4 S⁺S⁻ + 2 Sᶻ (2 Sᶻ - 2)`. -/
theorem square_eq : (spinSquare4 : Matrix (Occ n) (Occ n) ℤ)
    = 4 * (spinPlus * spinMinus) + spinZ2 * spinZ2 - 2 * spinZ2 := by
  unfold spinSquare4
  rw [← plus_minus]
  noncomm_ring

/-- `4 S² = 4 S⁻S⁺ + 2 Sᶻ (2 Sᶻ + 2)`. -/
theorem square_eq' : (spinSquare4 : Matrix (Occ n) (Occ n) ℤ)
    = 4 * (spinMinus * spinPlus) + spinZ2 * spinZ2 + 2 * spinZ2 := by
  unfold spinSquare4
  rw [← plus_minus]
  noncomm_ring

/-- `S²` commutes with `S⁻`. -/
theorem square_minus : (spinSquare4 * spinMinus : Matrix (Occ n) (Occ n) ℤ)
    = spinMinus * spinSquare4 := by
  have hz := z_minus (n := n)
  have h1 : (spinZ2 * spinMinus : Matrix (Occ n) (Occ n) ℤ) = spinMinus * spinZ2 - 2 * spinMinus := by
    rw [sub_eq_iff_eq_add] at hz
    rw [hz]
    noncomm_ring
  have h2 : (spinZ2 * spinZ2 * spinMinus : Matrix (Occ n) (Occ n) ℤ)
      = spinMinus * spinZ2 * spinZ2 - 4 * (spinMinus * spinZ2) + 4 * spinMinus := by
    rw [mul_assoc, h1, mul_sub, ← mul_assoc, h1]
    have : (spinZ2 * (2 * spinMinus) : Matrix (Occ n) (Occ n) ℤ) = 2 * (spinZ2 * spinMinus) := by
      noncomm_ring
    rw [this, h1]
    noncomm_ring
  have e1 : (spinSquare4 * spinMinus : Matrix (Occ n) (Occ n) ℤ)
      = 4 * (spinMinus * spinPlus * spinMinus) + spinZ2 * spinZ2 * spinMinus
        + 2 * (spinZ2 * spinMinus) := by
    rw [square_eq']; noncomm_ring
  have e2 : (spinMinus * spinSquare4 : Matrix (Occ n) (Occ n) ℤ)
      = 4 * (spinMinus * spinPlus * spinMinus) + spinMinus * spinZ2 * spinZ2
        - 2 * (spinMinus * spinZ2) := by
    rw [square_eq]; noncomm_ring
  rw [e1, e2, h2, h1]
  noncomm_ring

theorem square_plus : (spinSquare4 * spinPlus : Matrix (Occ n) (Occ n) ℤ)
    = spinPlus * spinSquare4 := by
  have h := congrArg Matrix.transpose (square_minus (n := n))
  rw [Matrix.transpose_mul, Matrix.transpose_mul, minus_transpose, square_transpose] at h
  exact h.symm

/-! ### Sectors -/

/-- `lst` lists the states with charge `c` and spin projection `sz`; `st p` is the occupation of the
state at position `p`. -/
structure Sector (n : Nat) (si : SI) (c : Nat) (sz : Int) (lst : List Nat) (st : Nat → Occ n) :
    Prop where
  lst_eq : si.lstSz c sz = .ok lst
  basis : Basis n si lst st
  mem : ∀ p, p < lst.length → (st p).count = c ∧ twoSz n (ofOcc (st p)) = sz
  has : ∀ u : Occ n, u.count = c → twoSz n (ofOcc u) = sz → ∃ k ind,
    si.getInd (ofOcc u) = .ok (some k) ∧ pyIndex lst k = .ok ind ∧ ind < lst.length ∧ st ind = u

theorem lstSz_ok {si : SI} {c : Nat} {sz : Int} {l : List Nat}
    (h : si.getLst (some c) (some sz) none = .ok (some l)) : si.lstSz c sz = .ok l := by
  unfold SI.lstSz
  rw [h]
  rfl

theorem index_full {si : SI} (hc : Consistent n si) (hN : si.nmany = 2 ^ n) (u : Occ n) :
    ∃ b : Nat, b < si.nmany ∧ si.getInd (ofOcc u) = .ok (some b) ∧ si.getState b = .ok (ofOcc u) := by
  obtain ⟨st, hf⟩ := hc.full
  have h := full_bij hf hN (fun s => if s = u then 1 else 0)
  rw [Finset.sum_ite_eq', if_pos (Finset.mem_univ _)] at h
  rcases hf.has u with ⟨_, h2⟩ | ⟨b, hb, h2, h3⟩
  · rw [Finset.sum_eq_zero] at h
    · exact absurd h zero_ne_one
    · intro k hk
      rw [if_neg (h2 k (Finset.mem_range.1 hk))]
  · exact ⟨b, hb, h2, by rw [hf.get b hb, (h3 b hb).2 rfl]⟩

theorem sector_exists {si : SI} (hc : Consistent n si) (hN : si.nmany = 2 ^ n)
    (hix : si.indexing = .sz ∨ si.indexing = .ssq) {c : Nat} {sz : Int} (hcn : c ≤ n)
    (hsz : AdmSz n c sz) :
    ∃ lst st, si.getLst (some c) (some sz) none = .ok (some lst) ∧ Sector n si c sz lst st := by
  obtain ⟨l, h1, h2, h3⟩ := hc.szs hix c sz hcn hsz
  obtain ⟨st, hst⟩ := hc.basis h2 (fun b hb => ((h3 b).1 hb).1)
  refine ⟨l, st, h1, lstSz_ok h1, hst, ?_, ?_⟩
  · intro p hp
    obtain ⟨_, t, g1, g2⟩ := (h3 _).1 (List.getElem_mem hp)
    rw [ofOcc_inj' (hst.get p hp) g1]
    exact g2
  · intro u hu1 hu2
    obtain ⟨b, hb, e1, e2⟩ := index_full hc hN u
    obtain ⟨ind, hi, e3, e4⟩ := pyIndex_get ((h3 b).2 ⟨hb, u, e2, hu1, hu2⟩)
    refine ⟨b, ind, e1, e3, hi, ?_⟩
    have := hst.get ind hi
    rw [e4] at this
    exact ofOcc_inj' this e2

/-! ### One column -/

theorem hop_apply {src dst : Fin n} (hne : src ≠ dst) (s' s : Occ n) :
    (cre dst * ann src : Matrix (Occ n) (Occ n) ℤ) s' s
      = if (s src = true ∧ s dst = false) ∧ s' = update (update s src false) dst true then
        sgn s src * sgn s dst * (if src > dst then 1 else -1) else 0 := by
  rw [hop_mono hne (K := ℤ) s' s]
  by_cases h : s src = true ∧ s dst = false
  · simp only [h, and_self, if_true, true_and]
    split <;> simp
  · simp only [h, if_false, false_and]

theorem flipStep_ok {si : SI} {lst : List Nat} {st : Nat → Occ n} (hb : Basis n si lst st)
    (s : Occ n) (src dst : Fin n) (hne : src ≠ dst) (lo hi extra : Nat)
    (hsign : (-1 : ℤ) ^ (((ofOcc s).take lo).sum + ((ofOcc s).take hi).sum + extra)
      = sgn s src * sgn s dst * (if src > dst then 1 else -1))
    (hhas : s src = true → s dst = false → ∃ k ind,
      si.getInd (ofOcc (update (update s src false) dst true)) = .ok (some k) ∧
      pyIndex lst k = .ok ind ∧ ind < lst.length ∧ st ind = update (update s src false) dst true)
    (m : IMat) (hr : m.rows = lst.length) (j1 : Nat) (hj : j1 < m.cols) :
    ∃ m' : IMat, flipStep si lst j1 (ofOcc s) src dst lo hi extra m = .ok m' ∧ m'.rows = m.rows ∧
      m'.cols = m.cols ∧ ∀ p q, p < lst.length → m'.val p q =
        if q = j1 ∧ (s src = true ∧ s dst = false) ∧ st p = update (update s src false) dst true then
          2 * (cre dst * ann src : Matrix (Occ n) (Occ n) ℤ) (st p) s
        else m.val p q := by
  unfold flipStep
  rw [pyGet_ofOcc, pyGet_ofOcc]
  simp only [py_bind_ok]
  by_cases h : s src = true ∧ s dst = false
  · obtain ⟨h1, h2⟩ := h
    obtain ⟨k, ind, g1, g2, g3, g4⟩ := hhas h1 h2
    rw [if_pos (by simp [h1, h2]), pySet_ofOcc0]
    simp only [py_bind_ok]
    rw [pySet_ofOcc1]
    simp only [py_bind_ok, g1, g2]
    unfold IMat.put
    rw [if_pos ⟨by rw [hr]; exact g3, hj⟩]
    refine ⟨_, rfl, rfl, rfl, ?_⟩
    intro p q hp
    have hone : st p = update (update s src false) dst true ↔ p = ind := by
      constructor
      · intro e
        exact hb.inj _ _ hp g3 (by rw [e, g4])
      · rintro rfl; exact g4
    by_cases hq : p = ind ∧ q = j1
    · simp only [if_pos hq]
      rw [if_pos ⟨hq.2, ⟨h1, h2⟩, hone.2 hq.1⟩, hop_apply hne,
        if_pos (⟨⟨h1, h2⟩, hone.2 hq.1⟩ : (s src = true ∧ s dst = false) ∧ _), hsign]
    · simp only [if_neg hq]
      rw [if_neg]
      rintro ⟨e1, _, e2⟩
      exact hq ⟨hone.1 e2, e1⟩
  · rw [if_neg (by
      intro hh
      apply h
      obtain ⟨a, b⟩ := hh
      by_cases x : s src = true <;> by_cases y : s dst = true <;> simp_all)]
    refine ⟨m, rfl, rfl, rfl, ?_⟩
    intro p q _
    rw [if_neg]
    rintro ⟨_, hh, _⟩
    exact h hh

/-- What the operators of the two functions have in common: `src` and `dst` are disjoint lists of
orbitals without repetitions. -/
structure Flips (src dst : Fin (n / 2) → Fin n) : Prop where
  src_inj : ∀ i j, src i = src j → i = j
  ne : ∀ i j, src i ≠ dst j

theorem flips_once {src dst : Fin (n / 2) → Fin n} (hf : Flips src dst) (s' s : Occ n)
    (i j : Fin (n / 2)) (hi : (cre (dst i) * ann (src i) : Matrix (Occ n) (Occ n) ℤ) s' s ≠ 0)
    (hj : (s (src j) = true ∧ s (dst j) = false) ∧
      s' = update (update s (src j) false) (dst j) true) : i = j := by
  rw [hop_apply (hf.ne i i)] at hi
  have hi' : (s (src i) = true ∧ s (dst i) = false) ∧
      s' = update (update s (src i) false) (dst i) true := by
    by_contra hh
    exact hi (if_neg hh)
  by_contra hij
  have e : s' (src i) = false := by
    rw [hi'.2, update_of_ne (hf.ne i i), update_self]
  rw [hj.2, update_of_ne (hf.ne i j), update_of_ne (fun e => hij (hf.src_inj _ _ e)), hi'.1.1] at e
  cases e

/-- The inner loop. -/
theorem flipColumn_ok {si : SI} {lst : List Nat} {st : Nat → Occ n} (hb : Basis n si lst st)
    {src dst : Fin (n / 2) → Fin n} (hf : Flips src dst) (s : Occ n)
    (fs fd lo hi : Nat → Nat) (extra : Nat)
    (hfs : ∀ i : Fin (n / 2), fs i = src i) (hfd : ∀ i : Fin (n / 2), fd i = dst i)
    (hsign : ∀ i : Fin (n / 2),
      (-1 : ℤ) ^ (((ofOcc s).take (lo i)).sum + ((ofOcc s).take (hi i)).sum + extra)
      = sgn s (src i) * sgn s (dst i) * (if src i > dst i then 1 else -1))
    (hhas : ∀ i, s (src i) = true → s (dst i) = false → ∃ k ind,
      si.getInd (ofOcc (update (update s (src i) false) (dst i) true)) = .ok (some k) ∧
      pyIndex lst k = .ok ind ∧ ind < lst.length ∧
      st ind = update (update s (src i) false) (dst i) true)
    (m : IMat) (hr : m.rows = lst.length) (j1 : Nat) (hj : j1 < m.cols)
    (h0 : ∀ p, p < lst.length → m.val p j1 = 0) :
    ∃ m' : IMat, (List.range (n / 2)).foldlM (fun m (j2 : Nat) =>
        flipStep si lst j1 (ofOcc s) (fs j2) (fd j2) (lo j2) (hi j2) extra m) m = .ok m' ∧
      m'.rows = m.rows ∧ m'.cols = m.cols ∧ ∀ p q, p < lst.length → m'.val p q =
        if q = j1 then
          2 * (∑ i, cre (dst i) * ann (src i) : Matrix (Occ n) (Occ n) ℤ) (st p) s
        else m.val p q := by
  have key := foldlM_range_inv (f := fun (m : IMat) (j2 : Nat) =>
        flipStep si lst j1 (ofOcc s) (fs j2) (fd j2) (lo j2) (hi j2) extra m)
    (fun t (m' : IMat) => m'.rows = m.rows ∧ m'.cols = m.cols ∧
      ∀ p q, p < lst.length → m'.val p q =
        if q = j1 then
          2 * ∑ i : Fin (n / 2), if (i : Nat) < t then
            (cre (dst i) * ann (src i) : Matrix (Occ n) (Occ n) ℤ) (st p) s else 0
        else m.val p q) (n / 2) m ?_ ?_
  · obtain ⟨m', e, h1, h2, h3⟩ := key
    refine ⟨m', e, h1, h2, ?_⟩
    intro p q hp
    rw [h3 p q hp]
    simp only [Fin.is_lt, if_true, Matrix.sum_apply]
  · refine ⟨rfl, rfl, ?_⟩
    intro p q hp
    by_cases hq : q = j1
    · subst hq; simp [h0 p hp]
    · simp [hq]
  · rintro t ht m1 ⟨r1, c1, v1⟩
    let i0 : Fin (n / 2) := ⟨t, ht⟩
    obtain ⟨m2, e2, r2, c2, v2⟩ := flipStep_ok hb s (src i0) (dst i0) (hf.ne i0 i0) (lo t) (hi t) extra
      (hsign i0) (hhas i0) m1 (by rw [r1, hr]) j1 (by rw [c1]; exact hj)
    refine ⟨m2, ?_, by rw [r2, r1], by rw [c2, c1], ?_⟩
    · have a1 := hfs i0
      have a2 := hfd i0
      simp only [i0] at a1 a2 e2
      rw [a1, a2]
      exact e2
    · intro p q hp
      rw [v2 p q hp]
      by_cases hq : q = j1
      · have split : ∀ F : Fin (n / 2) → ℤ, (∑ i : Fin (n / 2), if (i : Nat) < t + 1 then F i else 0)
            = (∑ i : Fin (n / 2), if (i : Nat) < t then F i else 0) + F i0 := by
          intro F
          have : ∀ i : Fin (n / 2), (if (i : Nat) < t + 1 then F i else 0)
              = (if (i : Nat) < t then F i else 0) + if i = i0 then F i else 0 := by
            intro i
            by_cases h1 : (i : Nat) < t
            · have : i ≠ i0 := fun e => by rw [e] at h1; exact absurd h1 (lt_irrefl t)
              simp [h1, this, Nat.lt_succ_of_lt h1]
            · by_cases h2 : i = i0
              · subst h2
                simp [i0]
              · have : ¬ (i : Nat) < t + 1 := by
                  intro h3
                  apply h2
                  apply Fin.ext
                  show (i : Nat) = t
                  omega
                simp [h1, h2, this]
          simp only [this, Finset.sum_add_distrib, Finset.sum_ite_eq', Finset.mem_univ, if_true]
        rw [if_pos hq, split]
        by_cases hcond : (s (src i0) = true ∧ s (dst i0) = false) ∧
            st p = update (update s (src i0) false) (dst i0) true
        · rw [if_pos ⟨hq, hcond.1, hcond.2⟩]
          have : (∑ i : Fin (n / 2), if (i : Nat) < t then
            (cre (dst i) * ann (src i) : Matrix (Occ n) (Occ n) ℤ) (st p) s else 0) = 0 := by
            refine Finset.sum_eq_zero fun i _ => ?_
            by_cases h1 : (i : Nat) < t
            · rw [if_pos h1]
              by_contra h2
              have := flips_once hf (st p) s i i0 h2 hcond
              rw [this] at h1
              exact absurd h1 (lt_irrefl t)
            · rw [if_neg h1]
          rw [this, zero_add]
        · rw [if_neg (fun h => hcond ⟨h.2.1, h.2.2⟩), v1 p q hp, if_pos hq,
            hop_apply (hf.ne i0 i0) (st p) s, if_neg hcond, add_zero]
      · rw [if_neg (fun h => hq h.1), v1 p q hp, if_neg hq, if_neg hq]

/-- The outer loop. -/
theorem flipMatrix_ok {si : SI} {lst lst' : List Nat} {st st' : Nat → Occ n} (hb : Basis n si lst st)
    (hb' : Basis n si lst' st')
    {src dst : Fin (n / 2) → Fin n} (hf : Flips src dst)
    (fs fd lo hi : Nat → Nat) (extra : Nat)
    (hfs : ∀ i : Fin (n / 2), fs i = src i) (hfd : ∀ i : Fin (n / 2), fd i = dst i)
    (hsign : ∀ (s : Occ n) (i : Fin (n / 2)),
      (-1 : ℤ) ^ (((ofOcc s).take (lo i)).sum + ((ofOcc s).take (hi i)).sum + extra)
      = sgn s (src i) * sgn s (dst i) * (if src i > dst i then 1 else -1))
    (hhas : ∀ j, j < lst.length → ∀ i, st j (src i) = true → st j (dst i) = false → ∃ k ind,
      si.getInd (ofOcc (update (update (st j) (src i) false) (dst i) true)) = .ok (some k) ∧
      pyIndex lst' k = .ok ind ∧ ind < lst'.length ∧
      st' ind = update (update (st j) (src i) false) (dst i) true) :
    ∃ m : IMat, (List.range lst.length).foldlM (fun m (j1 : Nat) => (do
        let b ← pyGet lst j1
        let state ← si.getState b
        (List.range (n / 2)).foldlM (fun m (j2 : Nat) =>
          flipStep si lst' j1 state (fs j2) (fd j2) (lo j2) (hi j2) extra m) m : Py IMat))
        (IMat.zeros lst'.length lst.length) = .ok m ∧
      m.rows = lst'.length ∧ m.cols = lst.length ∧ ∀ p q, p < lst'.length → q < lst.length →
        m.val p q = 2 * (∑ i, cre (dst i) * ann (src i) : Matrix (Occ n) (Occ n) ℤ) (st' p) (st q) := by
  have key := foldlM_range_inv (f := fun m (j1 : Nat) => (do
        let b ← pyGet lst j1
        let state ← si.getState b
        (List.range (n / 2)).foldlM (fun m (j2 : Nat) =>
          flipStep si lst' j1 state (fs j2) (fd j2) (lo j2) (hi j2) extra m) m : Py IMat))
    (fun t (m : IMat) => m.rows = lst'.length ∧ m.cols = lst.length ∧
      ∀ p q, p < lst'.length → m.val p q =
        if q < t then
          2 * (∑ i, cre (dst i) * ann (src i) : Matrix (Occ n) (Occ n) ℤ) (st' p) (st q)
        else 0) lst.length (IMat.zeros lst'.length lst.length) ?_ ?_
  · obtain ⟨m, e, h1, h2, h3⟩ := key
    refine ⟨m, e, h1, h2, ?_⟩
    intro p q hp hq
    rw [h3 p q hp, if_pos hq]
  · exact ⟨rfl, rfl, fun p q _ => rfl⟩
  · rintro t ht m1 ⟨r1, c1, v1⟩
    obtain ⟨m2, e2, r2, c2, v2⟩ := flipColumn_ok hb' hf (st t) fs fd lo hi extra hfs hfd
      (hsign (st t)) (hhas t ht) m1 r1 t (by rw [c1]; exact ht)
      (fun p hp => by rw [v1 p t hp, if_neg (lt_irrefl t)])
    refine ⟨m2, ?_, by rw [r2, r1], by rw [c2, c1], ?_⟩
    · simp only [pyGet_nat lst ht, py_bind_ok, hb.get t ht]
      exact e2
    · intro p q hp
      rw [v2 p q hp]
      by_cases h1 : q = t
      · subst h1; simp
      · rw [if_neg h1, v1 p q hp]
        by_cases h2 : q < t
        · rw [if_pos h2, if_pos (by omega)]
        · rw [if_neg h2, if_neg (by omega)]

/-! ### The two operators -/

theorem dn_val (i : Fin (n / 2)) : ((dn i : Fin n) : Nat) = n / 2 + i := rfl

theorem up_val (i : Fin (n / 2)) : ((up i : Fin n) : Nat) = i := rfl

theorem flips_down : Flips (up (n := n)) dn := ⟨fun _ _ h => up_inj.1 h, up_ne_dn⟩

theorem flips_up : Flips (dn (n := n)) up := ⟨fun _ _ h => dn_inj.1 h, fun i j => (up_ne_dn j i).symm⟩

theorem spin_down_flip (s : Occ n) (i : Fin (n / 2)) (h1 : s (up i) = true) (h2 : s (dn i) = false) :
    Occ.count (update (update s (up i) false) (dn i) true) = Occ.count s ∧
    twoSz n (ofOcc (update (update s (up i) false) (dn i) true)) = twoSz n (ofOcc s) - 2 := by
  have hc := count_hop s (up_ne_dn i i) h1 h2
  refine ⟨hc, ?_⟩
  rw [twoSz_eq, twoSz_eq, hc, up_update _ (dn i) true
    (by rw [update_of_ne (up_ne_dn i i).symm, h2]; rfl), up_update s (up i) false (by simp [h1])]
  have a1 : ((up i : Fin n) : Nat) < n / 2 := i.isLt
  have a2 : ¬ ((dn i : Fin n) : Nat) < n / 2 := by rw [dn_val]; omega
  rw [if_pos a1, if_neg a2]
  simp only [Bool.false_eq_true, if_false]
  ring

theorem spin_up_flip (s : Occ n) (i : Fin (n / 2)) (h1 : s (dn i) = true) (h2 : s (up i) = false) :
    Occ.count (update (update s (dn i) false) (up i) true) = Occ.count s ∧
    twoSz n (ofOcc (update (update s (dn i) false) (up i) true)) = twoSz n (ofOcc s) + 2 := by
  have hc := count_hop s (up_ne_dn i i).symm h1 h2
  refine ⟨hc, ?_⟩
  rw [twoSz_eq, twoSz_eq, hc, up_update _ (up i) true
    (by rw [update_of_ne (up_ne_dn i i), h2]; rfl), up_update s (dn i) false (by simp [h1])]
  have a1 : ((up i : Fin n) : Nat) < n / 2 := i.isLt
  have a2 : ¬ ((dn i : Fin n) : Nat) < n / 2 := by rw [dn_val]; omega
  rw [if_pos a1, if_neg a2]
  simp only [if_true]
  ring

theorem sum_apply_ne {ι : Type} [Fintype ι] {F : ι → Matrix (Occ n) (Occ n) ℤ} {s' s : Occ n}
    (h : (∑ i, F i) s' s ≠ 0) : ∃ i, F i s' s ≠ 0 := by
  by_contra hh
  push Not at hh
  apply h
  rw [Matrix.sum_apply]
  exact Finset.sum_eq_zero fun i _ => hh i

/-- `S⁻` lowers the spin projection by one. -/
theorem spinMinus_support {s' s : Occ n} (h : (spinMinus : Matrix (Occ n) (Occ n) ℤ) s' s ≠ 0) :
    Occ.count s' = Occ.count s ∧ twoSz n (ofOcc s') = twoSz n (ofOcc s) - 2 := by
  obtain ⟨i, hi⟩ := sum_apply_ne h
  rw [hop_apply (up_ne_dn i i)] at hi
  have hh : (s (up i) = true ∧ s (dn i) = false) ∧
      s' = update (update s (up i) false) (dn i) true := by
    by_contra hh
    exact hi (if_neg hh)
  rw [hh.2]
  exact spin_down_flip s i hh.1.1 hh.1.2

/-- `S⁺` raises the spin projection by one. -/
theorem spinPlus_support {s' s : Occ n} (h : (spinPlus : Matrix (Occ n) (Occ n) ℤ) s' s ≠ 0) :
    Occ.count s' = Occ.count s ∧ twoSz n (ofOcc s') = twoSz n (ofOcc s) + 2 := by
  rw [← minus_transpose, Matrix.transpose_apply] at h
  have := spinMinus_support h
  omega

theorem sm_ok {si : SI} (hns : si.nsingle = n) {c : Nat} {sz : Int} {l l' : List Nat}
    {st st' : Nat → Occ n} (hs : Sector n si c sz l st) (hs' : Sector n si c (sz - 2) l' st')
    (hlow : -min (c : Int) (n - c) ≤ sz - 2) :
    ∃ m : IMat, operatorSm c sz si = .ok (some m) ∧ m.rows = l'.length ∧ m.cols = l.length ∧
      ∀ p q, p < l'.length → q < l.length →
        m.val p q = 2 * (spinMinus : Matrix (Occ n) (Occ n) ℤ) (st' p) (st q) := by
  obtain ⟨m, e, h1, h2, h3⟩ := flipMatrix_ok hs.basis hs'.basis flips_down (fun j => j)
    (fun j => n / 2 + j) (fun j => j) (fun j => n / 2 + j) 1 (fun i => rfl) (fun i => rfl) (by
      intro s i
      have a1 := pow_take s (up i)
      have a2 := pow_take s (dn i)
      rw [up_val] at a1
      rw [dn_val] at a2
      rw [pow_add, pow_add, a1, a2, if_neg]
      · ring
      · rw [gt_iff_lt, Fin.lt_def, up_val, dn_val]; omega) (by
      intro j hj i g1 g2
      have a := spin_down_flip (st j) i g1 g2
      have b := hs.mem j hj
      exact hs'.has _ (by rw [a.1, b.1]) (by rw [a.2, b.2]))
  refine ⟨m, ?_, h1, h2, h3⟩
  unfold operatorSm
  simp only [hns]
  rw [if_neg (by omega), hs.lst_eq]
  simp only [py_bind_ok, hs'.lst_eq]
  push_cast at e
  rw [e]
  rfl

theorem sp_ok {si : SI} (hns : si.nsingle = n) {c : Nat} {sz : Int} {l l' : List Nat}
    {st st' : Nat → Occ n} (hs : Sector n si c sz l st) (hs' : Sector n si c (sz + 2) l' st')
    (hlow : sz + 2 ≤ min (c : Int) (n - c)) :
    ∃ m : IMat, operatorSp c sz si = .ok (some m) ∧ m.rows = l'.length ∧ m.cols = l.length ∧
      ∀ p q, p < l'.length → q < l.length →
        m.val p q = 2 * (spinPlus : Matrix (Occ n) (Occ n) ℤ) (st' p) (st q) := by
  obtain ⟨m, e, h1, h2, h3⟩ := flipMatrix_ok hs.basis hs'.basis flips_up
    (fun j => n / 2 + j) (fun j => j) (fun j => j) (fun j => n / 2 + j) 0
    (fun i => rfl) (fun i => rfl) (by
      intro s i
      have a1 := pow_take s (up i)
      have a2 := pow_take s (dn i)
      rw [up_val] at a1
      rw [dn_val] at a2
      rw [pow_add, pow_add, a1, a2, if_pos]
      · ring
      · rw [gt_iff_lt, Fin.lt_def, up_val, dn_val]; omega) (by
      intro j hj i g1 g2
      have a := spin_up_flip (st j) i g1 g2
      have b := hs.mem j hj
      exact hs'.has _ (by rw [a.1, b.1]) (by rw [a.2, b.2]))
  refine ⟨m, ?_, h1, h2, h3⟩
  unfold operatorSp
  simp only [hns]
  rw [if_neg (by omega), hs.lst_eq]
  simp only [py_bind_ok, hs'.lst_eq]
  push_cast at e
  rw [e]
  rfl

/-! ### Products -/

theorem foldl_sum (f : Nat → ℤ) (k : Nat) (a : ℤ) :
    (List.range k).foldl (fun s i => s + f i) a = a + ∑ i ∈ Finset.range k, f i := by
  induction k with
  | zero => simp
  | succ k ih => rw [List.range_succ, List.foldl_append, ih, Finset.sum_range_succ]; simp [add_assoc]

/-- A sum over the states of a sector is a sum over all states of a function that vanishes outside. -/
theorem Sector.sum {si : SI} {c : Nat} {sz : Int} {l : List Nat} {st : Nat → Occ n}
    (hs : Sector n si c sz l st) {A : Type} [AddCommMonoid A] (f : Occ n → A)
    (hf : ∀ u, f u ≠ 0 → u.count = c ∧ twoSz n (ofOcc u) = sz) :
    ∑ k ∈ Finset.range l.length, f (st k) = ∑ u, f u := by
  have hinj : Set.InjOn st (Finset.range l.length) := by
    intro a ha b hb e
    simp only [Finset.coe_range, Set.mem_Iio] at ha hb
    exact hs.basis.inj a b ha hb e
  rw [← Finset.sum_image (f := f) hinj]
  refine Finset.sum_subset (Finset.subset_univ _) ?_
  intro u _ hu
  by_contra hne
  obtain ⟨h1, h2⟩ := hf u hne
  obtain ⟨k, ind, _, _, h3, h4⟩ := hs.has u h1 h2
  exact hu (Finset.mem_image.2 ⟨ind, Finset.mem_range.2 h3, h4⟩)

/-- The entries of a product of two matrices that stand for operators. -/
theorem Sector.dot {si : SI} {c : Nat} {sz : Int} {l : List Nat} {st : Nat → Occ n}
    (hs : Sector n si c sz l st) (X Y : Matrix (Occ n) (Occ n) ℤ) (s'' s : Occ n)
    (hY : ∀ u, Y u s ≠ 0 → u.count = c ∧ twoSz n (ofOcc u) = sz) :
    ∑ k ∈ Finset.range l.length, X s'' (st k) * Y (st k) s = (X * Y) s'' s := by
  rw [Matrix.mul_apply]
  refine hs.sum (fun u => X s'' u * Y u s) ?_
  intro u hu
  exact hY u (right_ne_zero_of_mul hu)

/-! ### The spin projection -/

theorem number_apply (i : Fin n) (s' s : Occ n) :
    (cre i * ann i : Matrix (Occ n) (Occ n) ℤ) s' s = if s' = s ∧ s i = true then 1 else 0 := by
  rw [number_mono (K := ℤ) i s' s]
  by_cases h : s i = true
  · simp only [h, if_true, and_true]; split <;> simp
  · simp [h]

theorem ofOcc_halves (hn : n % 2 = 0) (s : Occ n) :
    ofOcc s = List.ofFn (fun i : Fin (n / 2) => if s (up i) then 1 else 0) ++
      List.ofFn (fun i : Fin (n / 2) => if s (dn i) then 1 else 0) := by
  refine List.ext_getElem (by rw [ofOcc_length]; simp; omega) ?_
  intro k h1 h2
  rw [ofOcc_getElem]
  by_cases h : k < n / 2
  · rw [List.getElem_append_left (by simpa using h)]
    simp only [List.getElem_ofFn]
    rfl
  · rw [List.getElem_append_right (by simpa using h)]
    simp only [List.getElem_ofFn]
    have : (⟨k, by rwa [ofOcc_length] at h1⟩ : Fin n)
        = dn ⟨k - n / 2, by rw [ofOcc_length] at h1; omega⟩ := by
      apply Fin.ext
      rw [dn_val]
      show k = n / 2 + (k - n / 2)
      omega
    rw [this]
    simp only [List.length_ofFn]

/-- `2 Sᶻ` is diagonal; its entries are the spin projections the code counts with. -/
theorem spinZ2_apply (hn : n % 2 = 0) (s' s : Occ n) :
    (spinZ2 : Matrix (Occ n) (Occ n) ℤ) s' s = if s' = s then twoSz n (ofOcc s) else 0 := by
  unfold spinZ2
  rw [Matrix.sum_apply]
  simp only [Matrix.sub_apply, number_apply]
  by_cases h : s' = s
  · simp only [h, true_and, if_true]
    unfold twoSz
    rw [ofOcc_halves hn, List.take_left' (by simp), List.drop_left' (by simp), List.sum_ofFn,
      List.sum_ofFn, Finset.sum_sub_distrib]
    push_cast
    rfl
  · simp [h]

end Verif
