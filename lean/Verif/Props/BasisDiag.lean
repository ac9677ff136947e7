import Verif.Props.Basis
import Verif.Props.Diag
import Mathlib.LinearAlgebra.Matrix.Charpoly.Basic

/-!
C70 from the parameters of the dot to the results: two correct routines for the eigenvectors give the same energies, and
eigenstates that are connected as in `Eigenbasis` and `NewTba`.
-/

namespace Verif

open Finset Spec
open scoped ComplexConjugate

noncomputable section

/-- The eigenvalues are in ascending order, as `np.linalg.eigh` returns them. -/
def EighSorted (eigh : Eigh) : Prop := ∀ A w v, eigh A = .ok (w, v) → w.Pairwise (· ≤ ·)

/-- The array of amplitudes as a function. -/
def tbaOf (L N : Nat) (T : Arr) (l b c : Nat) : ℂ := if l < L ∧ b < N ∧ c < N then T.val [l, b, c] else 0

/-- The energies as a function. -/
def enOf (Ea : List ℝ) (b : Nat) : ℝ := Ea.getD b 0

theorem tbaOf_herm {L N : Nat} {T : Arr} (h : Herm L N T) (l b c : Nat) :
    tbaOf L N T l b c = conj (tbaOf L N T l c b) := by
  unfold tbaOf
  by_cases hx : l < L ∧ b < N ∧ c < N
  · rw [if_pos hx, if_pos ⟨hx.1, hx.2.2, hx.2.1⟩]
    exact h l c b hx.1 hx.2.2 hx.2.1
  · rw [if_neg hx, if_neg (fun e => hx ⟨e.1, e.2.2, e.2.1⟩), map_zero]

/-- An array as a matrix. -/
def matOf (N : Nat) (P : Arr) : Matrix (Fin N) (Fin N) ℂ := fun i j => P.val [i.val, j.val]

/-- The matrix of lead `l`. -/
def matL (N : Nat) (T : Arr) (l : Nat) : Matrix (Fin N) (Fin N) ℂ := fun i j => T.val [l, i.val, j.val]

section
variable {m : Nat} {A V V' : Arr} {w w' : List ℝ}

open Matrix in
theorem matOf_unitary (h : ∀ i j, i < m → j < m → ∑ x ∈ range m, conj (V.val [x, i]) * V.val [x, j]
    = if i = j then 1 else 0) : (matOf m V)ᴴ * matOf m V = 1 := by
  ext i j
  rw [Matrix.mul_apply, Matrix.one_apply]
  have := h i j i.2 j.2
  rw [Finset.sum_range] at this
  exact this.trans (if_congr (Fin.ext_iff).symm rfl rfl)

theorem matOf_eigen (hw : w.length = m) (h : ∀ (i j : Nat) (x : ℝ), i < m → w[j]? = some x →
    ∑ y ∈ range m, A.val [i, y] * V.val [y, j] = V.val [i, j] * x) :
    matOf m A * matOf m V = matOf m V * Matrix.diagonal fun i : Fin m => (enOf w i : ℂ) := by
  ext i j
  rw [Matrix.mul_apply, Matrix.mul_diagonal]
  have hj : (j : Nat) < w.length := by rw [hw]; exact j.2
  have := h i j (enOf w j) i.2 (by
    rw [List.getElem?_eq_getElem hj, enOf, List.getD_eq_getElem?_getD, List.getElem?_eq_getElem hj]
    rfl)
  rw [Finset.sum_range] at this
  exact this

/-- The eigenvalues are the same list. -/
theorem eigenvalues_unique (hl : w.length = m) (hl' : w'.length = m) (hs : w.Pairwise (· ≤ ·)) (hs' : w'.Pairwise (· ≤ ·))
    (hu : ∀ i j, i < m → j < m → ∑ x ∈ range m, conj (V.val [x, i]) * V.val [x, j] = if i = j then 1 else 0)
    (hu' : ∀ i j, i < m → j < m → ∑ x ∈ range m, conj (V'.val [x, i]) * V'.val [x, j] = if i = j then 1 else 0)
    (he : ∀ (i j : Nat) (x : ℝ), i < m → w[j]? = some x →
      ∑ y ∈ range m, A.val [i, y] * V.val [y, j] = V.val [i, j] * x)
    (he' : ∀ (i j : Nat) (x : ℝ), i < m → w'[j]? = some x →
      ∑ y ∈ range m, A.val [i, y] * V'.val [y, j] = V'.val [i, j] * x) : w = w' := by
  have key : ∀ {V : Arr} {w : List ℝ}, w.length = m →
      (∀ i j, i < m → j < m → ∑ x ∈ range m, conj (V.val [x, i]) * V.val [x, j] = if i = j then 1 else 0) →
      (∀ (i j : Nat) (x : ℝ), i < m → w[j]? = some x →
        ∑ y ∈ range m, A.val [i, y] * V.val [y, j] = V.val [i, j] * x) →
      (matOf m A).charpoly.roots = (w.map fun x : ℝ => (x : ℂ) : Multiset ℂ) := by
    intro V w hl hu he
    have h1 := matOf_unitary hu
    have h2 := matOf_eigen hl he
    have h3 : matOf m V * (matOf m V).conjTranspose = 1 := mul_eq_one_comm.1 h1
    have h4 : matOf m A = matOf m V * ((Matrix.diagonal fun i : Fin m => (enOf w i : ℂ)) * (matOf m V).conjTranspose) := by
      rw [← mul_assoc, ← h2, mul_assoc, h3, mul_one]
    rw [h4, Matrix.charpoly_mul_comm, mul_assoc, h1, mul_one, Matrix.charpoly_diagonal]
    have e : (List.ofFn fun i : Fin m => (enOf w i : ℂ)) = w.map fun x : ℝ => (x : ℂ) := by
      refine List.ext_getElem (by simp [hl]) ?_
      intro i h1 h2
      rw [List.getElem_ofFn, List.getElem_map, enOf, List.getD_eq_getElem?_getD,
        List.getElem?_eq_getElem (by simpa using h2)]
      rfl
    rw [← e, ← Fin.univ_val_map, Finset.prod_eq_multiset_prod]
    have e2 := Polynomial.roots_multiset_prod_X_sub_C (Multiset.map (fun i : Fin m => (enOf w i : ℂ)) univ.val)
    rwa [Multiset.map_map] at e2
  have e := (key hl hu he).symm.trans (key hl' hu' he')
  rw [← Multiset.map_coe, ← Multiset.map_coe] at e
  have e' := Multiset.map_injective Complex.ofReal_injective e
  exact (Multiset.coe_eq_coe.1 e').eq_of_pairwise (fun _ _ _ _ => le_antisymm) hs hs'

end

/-! The change of basis between two sets of eigenvectors. -/

section
variable {v : View} {la : Lab} (h : VOk v la) (hall : RTD.AllCoherences v la) {N L : Nat} {H P P' T0 T T' : Arr}
  {Ea : List ℝ} (hN : ∀ b, b < N ↔ ∃ q, b ∈ v.row q)

/-- The amplitude of the old state `y` in the new state `b`. -/
def overlap (N : Nat) (P P' : Arr) (b y : Nat) : ℂ := ∑ f ∈ range N, conj (P'.val [f, b]) * P.val [f, y]

theorem overlap_mat (i j : Fin N) : overlap N P P' i j = ((matOf N P').conjTranspose * matOf N P) i j := by
  rw [Matrix.mul_apply, overlap, Finset.sum_range]
  rfl

include h hN in
/-- Sums over all states are sums over one charge. -/
theorem sum_charge {q : Nat} (f : Nat → ℂ) (hf : ∀ b, b < N → b ∉ v.row q → f b = 0) :
    ∑ b ∈ (v.row q).toFinset, f b = ∑ b : Fin N, f b := by
  rw [← Finset.sum_range]
  refine Finset.sum_subset ?_ ?_
  · intro b hb
    exact mem_range.2 ((hN b).2 ⟨q, List.mem_toFinset.1 hb⟩)
  · intro b hb hn
    exact hf b (mem_range.1 hb) (fun e => hn (List.mem_toFinset.2 e))

include h hN in
/-- States of different charges do not overlap. -/
theorem overlap_zero (hP : ∀ f b, P.val [f, b] ≠ 0 → ∀ q, b ∈ v.row q → f ∈ v.row q)
    (hP' : ∀ f b, P'.val [f, b] ≠ 0 → ∀ q, b ∈ v.row q → f ∈ v.row q) {q b y : Nat} (hy : y < N) (hb : b < N)
    (hne : ¬ (b ∈ v.row q ↔ y ∈ v.row q)) : overlap N P P' b y = 0 := by
  refine Finset.sum_eq_zero fun f hf => ?_
  by_cases h1 : P'.val [f, b] = 0
  · rw [h1, map_zero, zero_mul]
  by_cases h2 : P.val [f, y] = 0
  · rw [h2, mul_zero]
  exfalso
  obtain ⟨q1, k1⟩ := (hN b).1 hb
  obtain ⟨q2, k2⟩ := (hN y).1 hy
  have e := h.disj _ _ f (hP' f b h1 q1 k1) (hP f y h2 q2 k2)
  subst e
  apply hne
  constructor
  · intro hq
    rw [h.disj _ _ _ hq k1]
    exact k2
  · intro hq
    rw [h.disj _ _ _ hq k2]
    exact k1

theorem rotated_mat (l : Nat) (b a : Fin N) : rotated N P T0 l b a
    = ((matOf N P).conjTranspose * matL N T0 l * matOf N P) b a := by
  rw [Matrix.mul_apply, rotated, Finset.sum_comm, Finset.sum_range]
  refine Finset.sum_congr rfl fun x _ => ?_
  rw [Matrix.mul_apply, Finset.sum_mul, Finset.sum_range]
  rfl

include h hall hN in
theorem basis_of_diag (hd : Diagonalises N H P Ea) (hd' : Diagonalises N H P' Ea)
    (hP : ∀ f b, P.val [f, b] ≠ 0 → ∀ q, b ∈ v.row q → f ∈ v.row q)
    (hP' : ∀ f b, P'.val [f, b] ≠ 0 → ∀ q, b ∈ v.row q → f ∈ v.row q)
    (hT : Rotated L N P T0 T) (hT' : Rotated L N P' T0 T') :
    Eigenbasis v la (enOf Ea) (overlap N P P') ∧
      NewTba v (overlap N P P') (fun _ => 1) (tbaOf L N T) (tbaOf L N T') := by
  have u1 := matOf_unitary hd.unitary
  have u1' := matOf_unitary hd'.unitary
  have u2 : matOf N P * (matOf N P).conjTranspose = 1 := mul_eq_one_comm.1 u1
  have u2' : matOf N P' * (matOf N P').conjTranspose = 1 := mul_eq_one_comm.1 u1'
  have e1 := matOf_eigen hd.length hd.eigen
  have e1' := matOf_eigen hd'.length hd'.eigen
  have hlt : ∀ {q b}, b ∈ v.row q → b < N := fun {q b} hb => (hN b).2 ⟨q, hb⟩
  have ov : ∀ {q b y}, y < N → b < N → ¬ (b ∈ v.row q ↔ y ∈ v.row q) → overlap N P P' b y = 0 :=
    fun hy hb hne => overlap_zero h hN hP hP' hy hb hne
  have hrot : ∀ l {q q' c b}, c < N → b < N → c ∈ v.row q → b ∈ v.row q' → tbaOf L N T' l c b
      = ∑ y ∈ (v.row q).toFinset, ∑ z ∈ (v.row q').toFinset,
        overlap N P P' c y * tbaOf L N T l y z * conj (overlap N P P' b z) := by
    intro l q q' c b hcN hbN hc hb
    by_cases hl : l < L
    swap
    · have e : ∀ T : Arr, ∀ x y, tbaOf L N T l x y = 0 := fun T x y => if_neg fun e => hl e.1
      simp only [e, mul_zero, zero_mul, Finset.sum_const_zero]
    have e1 : ((matOf N P').conjTranspose * matL N T0 l * matOf N P')
        = ((matOf N P').conjTranspose * matOf N P)
          * ((matOf N P).conjTranspose * matL N T0 l * matOf N P)
          * ((matOf N P').conjTranspose * matOf N P).conjTranspose := by
      generalize matL N T0 l = M
      rw [Matrix.conjTranspose_mul, Matrix.conjTranspose_conjTranspose]
      calc (matOf N P').conjTranspose * M * matOf N P'
          = (matOf N P').conjTranspose * (matOf N P * (matOf N P).conjTranspose) * M
            * (matOf N P * (matOf N P).conjTranspose) * matOf N P' := by rw [u2, mul_one, mul_one]
        _ = _ := by simp only [mul_assoc]
    rw [tbaOf, if_pos ⟨hl, hcN, hbN⟩, hT'.2 l c b hl hcN hbN, rotated_mat l ⟨c, hcN⟩ ⟨b, hbN⟩, e1, Matrix.mul_apply,
      sum_charge h hN _ (fun y hy hn => Finset.sum_eq_zero fun z _ => by
        rw [ov hy hcN (q := q) (by simp [hc, hn]), zero_mul, zero_mul])]
    rw [Finset.sum_congr rfl fun (y : Fin N) _ => sum_charge h hN
      (fun z => overlap N P P' c y * tbaOf L N T l y z * conj (overlap N P P' b z)) (q := q') (fun z hz hn => by
        rw [ov hz hbN (q := q') (by simp [hb, hn]), map_zero, mul_zero]), Finset.sum_comm]
    refine Finset.sum_congr rfl fun z _ => ?_
    rw [Matrix.mul_apply, Finset.sum_mul]
    refine Finset.sum_congr rfl fun y _ => ?_
    rw [Matrix.conjTranspose_apply, tbaOf, if_pos ⟨hl, y.2, z.2⟩, hT.2 l y z hl y.2 z.2, rotated_mat l y z,
      ← overlap_mat, ← overlap_mat]
    rfl
  refine ⟨⟨?_, ?_, ?_⟩, ⟨by simp, ?_, ?_⟩⟩
  · intro q y hy y' hy'
    rw [sum_charge h hN _ (fun b hb hn => by rw [ov (hlt hy) hb (q := q) (by simp [hy, hn]), map_zero, zero_mul])]
    have e : (((matOf N P').conjTranspose * matOf N P).conjTranspose * ((matOf N P').conjTranspose * matOf N P)) = 1 := by
      rw [Matrix.conjTranspose_mul, Matrix.conjTranspose_conjTranspose, mul_assoc, ← mul_assoc (matOf N P'), u2',
        one_mul, u1]
    have := congrFun (congrFun e ⟨y, hlt hy⟩) ⟨y', hlt hy'⟩
    rw [Matrix.mul_apply, Matrix.one_apply] at this
    refine (Finset.sum_congr rfl fun x _ => ?_).trans (this.trans (if_congr Fin.ext_iff rfl rfl))
    rw [Matrix.conjTranspose_apply, ← overlap_mat, ← overlap_mat]
    rfl
  · intro q b hb y hy hne
    have e : (Matrix.diagonal fun i : Fin N => (enOf Ea i : ℂ)) * ((matOf N P').conjTranspose * matOf N P)
        = ((matOf N P').conjTranspose * matOf N P) * Matrix.diagonal fun i : Fin N => (enOf Ea i : ℂ) := by
      have e3 : (matOf N P').conjTranspose * matOf N H
          = (Matrix.diagonal fun i : Fin N => (enOf Ea i : ℂ)) * (matOf N P').conjTranspose := by
        have : matOf N H = matOf N P' * ((Matrix.diagonal fun i : Fin N => (enOf Ea i : ℂ)) * (matOf N P').conjTranspose) := by
          rw [← mul_assoc, ← e1', mul_assoc, u2', mul_one]
        rw [this, ← mul_assoc, u1', one_mul]
      rw [← mul_assoc, ← e3, mul_assoc, e1, mul_assoc]
    have := congrFun (congrFun e ⟨b, hlt hb⟩) ⟨y, hlt hy⟩
    rw [Matrix.diagonal_mul, Matrix.mul_diagonal, ← overlap_mat, mul_comm] at this
    exact_mod_cast mul_left_cancel₀ hne this
  · intro q b hb bp hbp y hy yp hyp _ _
    rw [hall q b bp hb hbp, hall q y yp hy hyp]
  all_goals
    intro l q c hc b hb
    simp only [map_one, one_mul]
  · exact hrot l (hlt hc) (hlt hb) hc hb
  · exact hrot l (hlt hb) (hlt hc) hb hc

end

/-! From the parameters to the results. -/

theorem mapM_fst {α β γ : Type} {g g' : α → Py (β × γ)} : ∀ {l : List α} {p p' : List (β × γ)},
    l.mapM g = .ok p → l.mapM g' = .ok p' → (∀ x ∈ l, ∀ a b, g x = .ok a → g' x = .ok b → a.1 = b.1) →
    p.map Prod.fst = p'.map Prod.fst
  | [], p, p', h, h', _ => by
    cases Except.ok.inj h
    cases Except.ok.inj h'
    rfl
  | x :: l, p, p', h, h', hx => by
    rw [List.mapM_cons] at h h'
    obtain ⟨a, a1, a2⟩ := bind_iff.1 h
    obtain ⟨b, b1, b2⟩ := bind_iff.1 h'
    obtain ⟨q, q1, q2⟩ := bind_iff.1 a2
    obtain ⟨q', q1', q2'⟩ := bind_iff.1 b2
    cases Except.ok.inj q2
    cases Except.ok.inj q2'
    rw [List.map_cons, List.map_cons, hx x (by simp) a b a1 b1, mapM_fst q1 q1' fun y hy => hx y (by simp [hy])]

/-- The eigenvalues and energies do not depend on the routine. -/
theorem diagonalise_same {n : Nat} {qd : QD} (hr : ReachedSI n qd.si)
    (hix : qd.si.indexing = .Lin ∨ qd.si.indexing = .charge) {eigh eigh' : Eigh} (ho : EighOk eigh) (ho' : EighOk eigh')
    (hs : EighSorted eigh) (hs' : EighSorted eigh') (ham : Nat → Arr)
    (hham : ∀ c ≤ n, qd.hamlst c 0 = some (ham c) ∧
      (ham c).dims = [(chargeRow qd.si c).length, (chargeRow qd.si c).length] ∧
      ∀ i j, i < (chargeRow qd.si c).length → j < (chargeRow qd.si c).length →
        (ham c).val [j, i] = conj ((ham c).val [i, j]))
    {r r' : Vals × Vecs × List ℝ} (h1 : qd.diagonalise eigh = .ok r) (h2 : qd.diagonalise eigh' = .ok r') :
    r.1 = r'.1 ∧ r.2.2 = r'.2.2 := by
  have h := hr.inv
  have key : ∀ p p', (List.range qd.si.ncharge).mapM (fun (c : Nat) => qd.eigenstates eigh c none 0) = .ok p →
      (List.range qd.si.ncharge).mapM (fun (c : Nat) => qd.eigenstates eigh' c none 0) = .ok p' →
      p.map Prod.fst = p'.map Prod.fst := by
    intro p p' e e'
    refine mapM_fst e e' ?_
    intro c hc a b ha hb
    rw [h.ncharge, List.mem_range] at hc
    have hc : c ≤ n := by omega
    obtain ⟨k1, k2, k3⟩ := hham c hc
    unfold QD.eigenstates SI.getLst at ha hb
    simp only [(h.chargeRow_ok hc).1, py_bind_ok, py_pure, k1] at ha hb
    obtain ⟨w, v, g1, g2, g3, g4, g5⟩ := ho (ham c) _ k2 k3
    obtain ⟨w', v', g1', g2', g3', g4', g5'⟩ := ho' (ham c) _ k2 k3
    rw [g1] at ha
    rw [g1'] at hb
    cases Except.ok.inj ha
    cases Except.ok.inj hb
    exact eigenvalues_unique g2 g2' (hs _ _ _ g1) (hs' _ _ _ g1') g4 g4' g5 g5'
  have fin : ∀ e : Eigh, qd.diagonalise e = (do
      let p ← (List.range qd.si.ncharge).mapM fun (c : Nat) => qd.eigenstates e c none 0
      let vals := Vals.charge (p.map Prod.fst)
      let ea ← constructEa qd.si vals
      pure (vals, .charge (p.map Prod.snd), ea)) := by
    intro e
    unfold QD.diagonalise
    rcases hix with hix | hix <;> rw [hix]
  rw [fin] at h1 h2
  obtain ⟨p, p1, p2⟩ := bind_iff.1 h1
  obtain ⟨p', p1', p2'⟩ := bind_iff.1 h2
  obtain ⟨ea, e1, e2⟩ := bind_iff.1 p2
  obtain ⟨ea', e1', e2'⟩ := bind_iff.1 p2'
  cases Except.ok.inj e2
  cases Except.ok.inj e2'
  have e := key p p' p1 p1'
  rw [← e, e1] at e1'
  exact ⟨congrArg Vals.charge e, Except.ok.inj e1'⟩

theorem blockDiag_row {n N : Nat} {row : Nat → List Nat} {vec : Nat → Arr} {P : Arr} {v : View}
    (hs : Sectors N (List.range (n + 1)) row vec) (hP : BlockDiag N (List.range (n + 1)) row vec P)
    (hv : ∀ q, v.row q = if q ≤ n then row q else []) :
    ∀ f b, P.val [f, b] ≠ 0 → ∀ q, b ∈ v.row q → f ∈ v.row q := by
  intro f b hne q hb
  rw [hv] at hb ⊢
  by_cases hq : q ≤ n
  swap
  · rw [if_neg hq] at hb
    simp at hb
  rw [if_pos hq] at hb ⊢
  by_contra hf
  refine hne (hP.outside f b ?_)
  rintro ⟨s, s1, s2, s3⟩
  have := hs.disj s s1 q (by rw [List.mem_range]; omega) b s3 hb
  subst this
  exact hf s2

/-- The considered states are all states. -/
theorem view_row_all {n nleads : Nat} {indexing : String} {d : DM} {si : SI} (h : SIInv n si)
    (hd : Reach .dm n indexing d si.chargelst) (hl : si.chargelst.length = n + 1) (q : Nat) :
    (d.view nleads).row q = if q ≤ n then chargeRow si q else [] := by
  obtain ⟨hi, -, -⟩ := hd.inv
  simp only [View.row, DM.view, hi.sdm, chargeRow]
  by_cases hq : q ≤ n
  · rw [if_pos hq, List.getElem?_append_left (by omega), List.getD_eq_getElem?_getD]
  · rw [if_neg hq]
    rcases Nat.lt_or_ge (n + 1) q with h | h
    · rw [List.getElem?_eq_none (by simp; omega)]
      rfl
    · have : q = si.chargelst.length := by omega
      subst this
      simp

/-- The tunnelling amplitudes with the phase `w l` for the electrons of lead `l`. -/
def phased {n : Nat} (w : Nat → ℂ) (ts : List ((Nat × Fin n) × ℂ)) : List ((Nat × Fin n) × ℂ) :=
  ts.map fun e => (e.1, w e.1.1 * e.2)

theorem tunOp_phased {n : Nat} (w : Nat → ℂ) (r : Nat) (ts : List ((Nat × Fin n) × ℂ)) (s' s : Occ n) :
    (Occ.count s' = Occ.count s + 1 → tunOp r (phased w ts) s' s = w r * tunOp r ts s' s) ∧
    (Occ.count s = Occ.count s' + 1 → tunOp r (phased w ts) s' s = conj (w r) * tunOp r ts s' s) := by
  unfold tunOp phased
  induction ts with
  | nil => simp
  | cons e ts ih =>
    simp only [List.map_cons, List.sum_cons, Matrix.add_apply]
    constructor
    · intro hc
      rw [ih.1 hc, mul_add]
      congr 1
      by_cases hr : e.1.1 = r
      · subst hr
        have : (ann e.1.2 : Matrix (Occ n) (Occ n) ℂ) s' s = 0 := by
          by_contra hne
          have := ann_count _ _ _ hne
          omega
        rw [if_pos rfl, if_pos rfl, Matrix.add_apply, Matrix.add_apply, Matrix.smul_apply, Matrix.smul_apply,
          Matrix.smul_apply, Matrix.smul_apply, this]
        simp only [smul_eq_mul]
        ring
      · rw [if_neg hr, if_neg hr, Matrix.zero_apply, mul_zero]
    · intro hc
      rw [ih.2 hc, mul_add]
      congr 1
      by_cases hr : e.1.1 = r
      · subst hr
        have : (cre e.1.2 : Matrix (Occ n) (Occ n) ℂ) s' s = 0 := by
          by_contra hne
          have := cre_count _ _ _ hne
          omega
        rw [if_pos rfl, if_pos rfl, Matrix.add_apply, Matrix.add_apply, Matrix.smul_apply, Matrix.smul_apply,
          Matrix.smul_apply, Matrix.smul_apply, this, star_mul]
        simp only [smul_eq_mul]
        rw [show conj (w e.1.1) = star (w e.1.1) from rfl]
        ring
      · rw [if_neg hr, if_neg hr, Matrix.zero_apply, mul_zero]

theorem tba_phased {n : Nat} {si : SI} (hinv : SIInv n si) (hc : Consistent n si) (nl : Nat) (w : Nat → ℂ)
    (ts : List ((Nat × Fin n) × ℂ)) (hts : ∀ e ∈ ts, e.1.1 < nl) {T0 T0' : Arr}
    (h0 : constructTba si nl (tunKeys ts) none = .ok T0)
    (h0' : constructTba si nl (tunKeys (phased w ts)) none = .ok T0') {q c b : Nat} (hq : q + 1 ≤ n)
    (hcr : c ∈ chargeRow si (q + 1)) (hbr : b ∈ chargeRow si q) (l : Nat) :
    T0'.val [l, c, b] = w l * T0.val [l, c, b] ∧ T0'.val [l, b, c] = conj (w l) * T0.val [l, b, c] := by
  obtain ⟨T, e, -, h1⟩ := c12_tba hc nl ts hts
  cases Except.ok.inj (h0.symm.trans e)
  obtain ⟨T', e', -, h1'⟩ := c12_tba hc nl (phased w ts) (by
    intro x hx
    obtain ⟨y, hy, rfl⟩ := List.mem_map.1 hx
    exact hts y hy)
  cases Except.ok.inj (h0'.symm.trans e')
  have key : ∀ {q b}, q ≤ n → b ∈ chargeRow si q → b < si.nmany ∧ ∃ s : Occ n, si.getState b = .ok (ofOcc s) ∧ s.count = q := by
    intro q b hq hb
    obtain ⟨l, k1, -, k2⟩ := hc.charges q hq
    unfold SI.getLst at k1
    simp only [(hinv.chargeRow_ok hq).1, py_bind_ok, py_pure] at k1
    cases Except.ok.inj k1
    exact (k2 b).1 hb
  obtain ⟨hcn, sc, g1, g2⟩ := key hq hcr
  obtain ⟨hbn, sb, f1, f2⟩ := key (by omega) hbr
  rw [h1 l c b hcn hbn sc sb g1 f1, h1' l c b hcn hbn sc sb g1 f1, h1 l b c hbn hcn sb sc f1 g1,
    h1' l b c hbn hcn sb sc f1 g1]
  exact ⟨(tunOp_phased w l ts sc sb).1 (by omega), (tunOp_phased w l ts sb sc).2 (by omega)⟩

/-- Two routines for the eigenvectors: the energies are the same, and the amplitudes are connected by a change of basis. -/
theorem eigh_basis {n : Nat} {si : SI} (hr : ReachedSI n si) (hc : Consistent n si) (hix : si.indexing = .charge)
    {indexing : String} {d : DM} (hd : Reach .dm n indexing d si.chargelst) (hdi : d.si = { si with statesChanged := d.si.statesChanged })
    {eigh eigh' : Eigh} (ho : EighOk eigh) (ho' : EighOk eigh') (hes : EighSorted eigh) (hes' : EighSorted eigh')
    {nss : Option Nat} {mLessN hamSsqQ : Bool} {hs0 : Param (Nat × Nat)} {cs0 : CoulombArg} {qd0 qd : QD}
    (h0 : QD.init si nss true true mLessN hamSsqQ hs0 cs0 = .ok qd0)
    (calls : List DotCall) (hv : ∀ c ∈ calls, c.Valid) (hrun : qd0.run calls = .ok qd)
    (hs : List ((Fin n × Fin n) × ℂ)) (cs : List ((Fin n × Fin n × Fin n × Fin n) × ℂ))
    (hhs : qd.hsingle = hopKeys hs) (hcs : qd.coulomb = coulKeys cs)
    (hreal : ∀ e ∈ hs, e.1.1 = e.1.2 → star e.2 = e.2)
    (hU : ∀ m p k l U, ((m, p, k, l), U) ∈ cs → m = l → p = k → star U = U)
    (hkl : mLessN = true → ∀ m p k l U, ((m, p, k, l), U) ∈ cs → l > k → m = l ∧ p = k)
    (nl : Nat) (ts : List ((Nat × Fin n) × ℂ)) (hts : ∀ e ∈ ts, e.1.1 < nl)
    (w : Nat → ℂ) (hw : ∀ l, w l * conj (w l) = 1) :
    ∃ (T0 T0' T T' : Arr) (vals : Vals) (vecs vecs' : List Arr) (Ea : List ℝ) (U : Nat → Nat → ℂ),
      constructTba si nl (tunKeys ts) none = .ok T0 ∧ constructTba si nl (tunKeys (phased w ts)) none = .ok T0' ∧
      qd.diagonalise eigh = .ok (vals, .charge vecs, Ea) ∧ qd.diagonalise eigh' = .ok (vals, .charge vecs', Ea) ∧
      rotateTba si nl T0 (.charge vecs) none = .ok T ∧ rotateTba si nl T0' (.charge vecs') none = .ok T' ∧
      VOk (d.view nl) d.labOf ∧ RTD.AllCoherences (d.view nl) d.labOf ∧
      Eigenbasis (d.view nl) d.labOf (enOf Ea) U ∧
      NewTba (d.view nl) U w (tbaOf nl si.nmany T) (tbaOf nl si.nmany T') ∧
      Herm nl si.nmany T ∧ Herm nl si.nmany T' := by
  have hinv := hr.inv
  obtain ⟨e1, ham, hham⟩ := dot_ham hr hc (.inr hix) h0 calls hv hrun hs cs hhs hcs hreal hU hkl
  subst e1
  have hham' : ∀ c ≤ n, qd.hamlst c 0 = some (ham c) ∧
      (ham c).dims = [(chargeRow qd.si c).length, (chargeRow qd.si c).length] ∧
      ∀ i j, i < (chargeRow qd.si c).length → j < (chargeRow qd.si c).length →
        (ham c).val [j, i] = conj ((ham c).val [i, j]) := fun c hcn =>
    ⟨(hham c hcn).1, (hham c hcn).2.1, (hham c hcn).2.2.1⟩
  obtain ⟨vals, vecs, Ea, P, f1, f2, f3, f4⟩ := c54_charge hr (.inr hix) ho ham hham'
  obtain ⟨vals', vecs', Ea', P', f1', f2', f3', f4'⟩ := c54_charge hr (.inr hix) ho' ham hham'
  obtain ⟨k1, k2⟩ := diagonalise_same hr (.inr hix) ho ho' hes hes' ham hham' f1 f1'
  dsimp only at k1 k2
  subst k1 k2
  obtain ⟨T0, P1, T, g1, g2, g3, g4, g5⟩ := c16_tba hr hc hix nl ts hts f2
  obtain ⟨T0', P1', T', g1', g2', g3', g4', g5'⟩ := c16_tba hr hc hix nl ts hts f2'
  cases Except.ok.inj (g1.symm.trans g1')
  cases Except.ok.inj (g2.symm.trans f3)
  cases Except.ok.inj (g2'.symm.trans f3')
  obtain ⟨Q, q1, q2⟩ := pmtr_charge hinv (.inr hix) f2
  obtain ⟨Q', q1', q2'⟩ := pmtr_charge hinv (.inr hix) f2'
  cases Except.ok.inj (q1.symm.trans g2)
  cases Except.ok.inj (q1'.symm.trans g2')
  have hvec : ∀ {vec : List Arr}, (∀ c ≤ n, ∃ m, vec[c]? = some m ∧
      m.dims = [(chargeRow qd.si c).length, (chargeRow qd.si c).length]) →
      Sectors qd.si.nmany (List.range (n + 1)) (chargeRow qd.si) fun c => vec.getD c (Arr.zeros []) := by
    intro vec hv
    refine hinv.charge_sectors ?_
    intro c hc
    obtain ⟨m, m1, m2⟩ := hv c hc
    rw [List.getD_eq_getElem?_getD, m1]
    exact m2
  have hgetH : ∀ c ≤ n, ((List.range (n + 1)).map ham)[c]? = some (ham c) := by
    intro c hc
    rw [List.getElem?_map, List.getElem?_range (by omega)]
    rfl
  obtain ⟨H, -, hH⟩ := pmtr_charge hinv (.inr hix) (v := (List.range (n + 1)).map ham)
    (fun c hc => ⟨_, hgetH c hc, (hham' c hc).2.1⟩)
  have hH : BlockDiag qd.si.nmany (List.range (n + 1)) (chargeRow qd.si) ham H := by
    refine ⟨hH.dims, ?_, hH.outside⟩
    intro c hc i j hi hj
    rw [hH.inside c hc i j hi hj, List.getD_eq_getElem?_getD, hgetH c (by rw [List.mem_range] at hc; omega)]
    rfl
  have hlen := (hinv.qn_charge (.inr hix)).1
  have hrow := fun q => view_row_all (nleads := nl) hinv hd hlen q
  have hns : d.si.indexing ≠ .ssq := by rw [hdi]; simp [hix]
  have hnz : d.si.indexing ≠ .sz := by rw [hdi]; simp [hix]
  have hok := view_ok (nleads := nl) hd hns hlen
  have hall := RTD.all_coherences (nleads := nl) hd hns hnz hlen
  have hN : ∀ b, b < qd.si.nmany ↔ ∃ q, b ∈ (d.view nl).row q := by
    intro b
    constructor
    · intro hb
      obtain ⟨c, c1, c2⟩ := (hvec f2).cover b hb
      exact ⟨c, by rw [hrow, if_pos (by rw [List.mem_range] at c1; omega)]; exact c2⟩
    · rintro ⟨q, hq⟩
      rw [hrow] at hq
      by_cases hqn : q ≤ n
      · rw [if_pos hqn] at hq
        exact (hvec f2).lt q (by rw [List.mem_range]; omega) b hq
      · rw [if_neg hqn] at hq
        simp at hq
  obtain ⟨b1, b2⟩ := basis_of_diag hok hall hN (f4 H hH) (f4' H hH) (blockDiag_row (hvec f2) q2 hrow)
    (blockDiag_row (hvec f2') q2' hrow) g4 g4'
  have hts' : ∀ e ∈ phased w ts, e.1.1 < nl := by
    intro x hx
    obtain ⟨y, hy, rfl⟩ := List.mem_map.1 hx
    exact hts y hy
  obtain ⟨T0', P2, T2, m1, m2, m3, m4, m5⟩ := c16_tba hr hc hix nl (phased w ts) hts' f2'
  cases Except.ok.inj (m2.symm.trans g2')
  have rowN : ∀ {q b}, b ∈ (d.view nl).row q → q ≤ n ∧ b ∈ chargeRow qd.si q := by
    intro q b hb
    rw [hrow] at hb
    by_cases hqn : q ≤ n
    · rw [if_pos hqn] at hb
      exact ⟨hqn, hb⟩
    · rw [if_neg hqn] at hb
      simp at hb
  have hP' := blockDiag_row (hvec f2') q2' hrow
  have charge : ∀ {q b x}, b ∈ (d.view nl).row q → P'.val [x, b] ≠ 0 → q ≤ n ∧ x ∈ chargeRow qd.si q :=
    fun hb hne => rowN (hP' _ _ hne _ hb)
  have ph : ∀ l q c b, c ∈ (d.view nl).row (q + 1) → b ∈ (d.view nl).row q →
      tbaOf nl qd.si.nmany T2 l c b = w l * tbaOf nl qd.si.nmany T' l c b ∧
      tbaOf nl qd.si.nmany T2 l b c = conj (w l) * tbaOf nl qd.si.nmany T' l b c := by
    intro l q c b hcr hbr
    have hcN := (hN c).2 ⟨_, hcr⟩
    have hbN := (hN b).2 ⟨_, hbr⟩
    by_cases hl : l < nl
    swap
    · constructor <;> rw [tbaOf, tbaOf, if_neg (fun e => hl e.1), if_neg (fun e => hl e.1), mul_zero]
    constructor
    · rw [tbaOf, tbaOf, if_pos ⟨hl, hcN, hbN⟩, if_pos ⟨hl, hcN, hbN⟩, m4.2 l c b hl hcN hbN, g4'.2 l c b hl hcN hbN]
      unfold rotated
      rw [mul_sum]
      refine sum_congr rfl fun x _ => ?_
      rw [mul_sum]
      refine sum_congr rfl fun y _ => ?_
      by_cases hx : P'.val [x, c] = 0
      · rw [hx, map_zero, zero_mul, zero_mul, zero_mul, zero_mul, mul_zero]
      by_cases hy : P'.val [y, b] = 0
      · rw [hy, mul_zero, mul_zero, mul_zero]
      rw [(tba_phased hinv hc nl w ts hts g1 m1 (charge hcr hx).1 (charge hcr hx).2 (charge hbr hy).2 l).1]
      ring
    · rw [tbaOf, tbaOf, if_pos ⟨hl, hbN, hcN⟩, if_pos ⟨hl, hbN, hcN⟩, m4.2 l b c hl hbN hcN, g4'.2 l b c hl hbN hcN]
      unfold rotated
      rw [mul_sum]
      refine sum_congr rfl fun x _ => ?_
      rw [mul_sum]
      refine sum_congr rfl fun y _ => ?_
      by_cases hx : P'.val [x, b] = 0
      · rw [hx, map_zero, zero_mul, zero_mul, zero_mul, zero_mul, mul_zero]
      by_cases hy : P'.val [y, c] = 0
      · rw [hy, mul_zero, mul_zero, mul_zero]
      rw [(tba_phased hinv hc nl w ts hts g1 m1 (charge hcr hy).1 (charge hcr hy).2 (charge hbr hx).2 l).2]
      ring
  refine ⟨T0, T0', T, T2, vals, vecs, vecs', Ea, _, g1, m1, f1, f1', g3, m3, hok, hall, b1, ⟨hw, ?_, ?_⟩, g5, m5⟩
  · intro l q c hcr b hbr
    rw [(ph l q c b hcr hbr).1, b2.up l q c hcr b hbr, one_mul]
  · intro l q c hcr b hbr
    rw [(ph l q c b hcr hbr).2, b2.down l q c hcr b hbr, map_one, one_mul]

/-- **C70** from the parameters of the dot and of the tunnelling to the results, with 'charge' indexing and all states
considered, after any removals of Fock states: let `eigh` and `eigh'` be two routines that return ascending eigenvalues
and orthonormal eigenvectors, and let the amplitudes of lead `l` in the second calculation have an additional phase `w l`.
Both calculations have the same energies `Ea`, and the results of 1vN, Redfield and Lindblad are the same up to a unitary
change `U` of the basis which mixes only states of equal charge and energy. -/
theorem c70_eigh {n : Nat} {si : SI} (hr : ReachedSI n si) (hc : Consistent n si) (hix : si.indexing = .charge)
    {indexing : String} {d : DM} (hd : Reach .dm n indexing d si.chargelst) (hdi : d.si = { si with statesChanged := d.si.statesChanged })
    {eigh eigh' : Eigh} (ho : EighOk eigh) (ho' : EighOk eigh') (hes : EighSorted eigh) (hes' : EighSorted eigh')
    {nss : Option Nat} {mLessN hamSsqQ : Bool} {hs0 : Param (Nat × Nat)} {cs0 : CoulombArg} {qd0 qd : QD}
    (h0 : QD.init si nss true true mLessN hamSsqQ hs0 cs0 = .ok qd0)
    (calls : List DotCall) (hv : ∀ c ∈ calls, c.Valid) (hrun : qd0.run calls = .ok qd)
    (hs : List ((Fin n × Fin n) × ℂ)) (cs : List ((Fin n × Fin n × Fin n × Fin n) × ℂ))
    (hhs : qd.hsingle = hopKeys hs) (hcs : qd.coulomb = coulKeys cs)
    (hreal : ∀ e ∈ hs, e.1.1 = e.1.2 → star e.2 = e.2)
    (hU : ∀ m p k l U, ((m, p, k, l), U) ∈ cs → m = l → p = k → star U = U)
    (hkl : mLessN = true → ∀ m p k l U, ((m, p, k, l), U) ∈ cs → l > k → m = l ∧ p = k)
    (nl : Nat) (ts : List ((Nat × Fin n) × ℂ)) (hts : ∀ e ∈ ts, e.1.1 < nl)
    (w : Nat → ℂ) (hw : ∀ l, w l * conj (w l) = 1) :
    ∃ (T0 T0' T T' : Arr) (vals : Vals) (vecs vecs' : List Arr) (Ea : List ℝ) (U : Nat → Nat → ℂ),
      constructTba si nl (tunKeys ts) none = .ok T0 ∧ constructTba si nl (tunKeys (phased w ts)) none = .ok T0' ∧
      qd.diagonalise eigh = .ok (vals, .charge vecs, Ea) ∧ qd.diagonalise eigh' = .ok (vals, .charge vecs', Ea) ∧
      rotateTba si nl T0 (.charge vecs) none = .ok T ∧ rotateTba si nl T0' (.charge vecs') none = .ok T' ∧
      Eigenbasis (d.view nl) d.labOf (enOf Ea) U ∧
      (∀ (L L' : Leads) (symq : Bool) (lib : NumLib), L.Tba = tbaOf nl si.nmany T →
        L' = { L with Tba := tbaOf nl si.nmany T' } →
        (∃ f m m', genFct1vN (d.view nl) lib (enOf Ea) L = .ok f ∧ genFct1vN (d.view nl) lib (enOf Ea) L' = .ok f ∧
          VN1.kernel (d.view nl) symq (enOf Ea) L.Tba f = .ok m ∧ VN1.kernel (d.view nl) symq (enOf Ea) L'.Tba f = .ok m' ∧
          SameUpTo (d.view nl) d.labOf U m m' (fun φ => List.map (·.ev) <$> VN1.genCurrent (d.view nl) L.Tba f φ)
            (fun φ => List.map (·.ev) <$> VN1.genCurrent (d.view nl) L'.Tba f φ)) ∧
        (∃ f m m', genFct1vN (d.view nl) lib (enOf Ea) L = .ok f ∧ genFct1vN (d.view nl) lib (enOf Ea) L' = .ok f ∧
          Redfield.kernel (d.view nl) symq (enOf Ea) L.Tba f = .ok m ∧
          Redfield.kernel (d.view nl) symq (enOf Ea) L'.Tba f = .ok m' ∧
          SameUpTo (d.view nl) d.labOf U m m' (fun φ => List.map (·.ev) <$> Redfield.genCurrent (d.view nl) L.Tba f φ)
            (fun φ => List.map (·.ev) <$> Redfield.genCurrent (d.view nl) L'.Tba f φ)) ∧
        ∃ t t' m m', Lindblad.genFct (d.view nl) (enOf Ea) L = .ok t ∧ Lindblad.genFct (d.view nl) (enOf Ea) L' = .ok t' ∧
          Lindblad.kernel (d.view nl) symq (enOf Ea) t = .ok m ∧ Lindblad.kernel (d.view nl) symq (enOf Ea) t' = .ok m' ∧
          SameUpTo (d.view nl) d.labOf U m m' (Lindblad.genCurrent (d.view nl) (enOf Ea) t)
            (Lindblad.genCurrent (d.view nl) (enOf Ea) t')) := by
  obtain ⟨T0, T0', T, T', vals, vecs, vecs', Ea, U, g1, g1', f1, f1', g3, g3', hok, -, b1, b2, g5, g5'⟩ :=
    eigh_basis hr hc hix hd hdi ho ho' hes hes' h0 calls hv hrun hs cs hhs hcs hreal hU hkl nl ts hts w hw
  refine ⟨T0, T0', T, T', vals, vecs, vecs', Ea, U, g1, g1', f1, f1', g3, g3', b1, ?_⟩
  intro L L' symq lib hL hL'
  subst hL'
  rw [← hL] at b2
  have hh : ∀ l b c, L.Tba l b c = conj (L.Tba l c b) := by rw [hL]; exact tbaOf_herm g5
  exact ⟨c70_1vN hok b1 symq lib L hh (tbaOf_herm g5') b2, c70_redfield hok b1 symq lib L hh (tbaOf_herm g5') b2,
    c70_lindblad hok b1 symq L b2⟩

/-! ### Concrete cases -/

/-- There are functions as assumed of `np.linalg.eigh`, with ascending eigenvalues. -/
theorem exists_sorted : ∃ eigh, EighOk eigh ∧ EighSorted eigh := by
  classical
  obtain ⟨e, he⟩ := exists_eigh
  have key : ∀ A : Arr, ∃ p : List ℝ × Arr, p.1.Pairwise (· ≤ ·) ∧ ∀ m, A.dims = [m, m] →
      (∀ i j, i < m → j < m → A.val [j, i] = conj (A.val [i, j])) →
      p.1.length = m ∧ p.2.dims = [m, m] ∧
      (∀ i j, i < m → j < m → ∑ x ∈ range m, conj (p.2.val [x, i]) * p.2.val [x, j] = if i = j then 1 else 0) ∧
      ∀ (i j : Nat) (x : ℝ), i < m → p.1[j]? = some x →
        ∑ y ∈ range m, A.val [i, y] * p.2.val [y, j] = p.2.val [i, j] * x := by
    intro A
    by_cases hA : ∃ m, A.dims = [m, m] ∧ ∀ i j, i < m → j < m → A.val [j, i] = conj (A.val [i, j])
    swap
    · exact ⟨([], A), List.Pairwise.nil, fun m h1 h2 => absurd ⟨m, h1, h2⟩ hA⟩
    obtain ⟨m, hd, hh⟩ := hA
    obtain ⟨w, v, -, h2, h3, h4, h5⟩ := he A m hd hh
    let f : Fin m → ℝ := fun i => enOf w i
    let g : Nat → Nat := fun j => if h : j < m then (Tuple.sort f ⟨j, h⟩).val else 0
    have hg : ∀ j, j < m → g j < m := by
      intro j hj
      simp only [g, dif_pos hj]
      exact Fin.isLt _
    have hgi : ∀ i j, i < m → j < m → (g i = g j ↔ i = j) := by
      intro i j hi hj
      simp only [g, dif_pos hi, dif_pos hj]
      rw [← Fin.ext_iff, (Tuple.sort f).injective.eq_iff, Fin.mk.injEq]
    refine ⟨(List.ofFn (f ∘ Tuple.sort f), Arr.ofMat m m fun i j => v.val [i, g j]), ?_, ?_⟩
    · rw [List.pairwise_ofFn]
      intro i j hij
      exact Tuple.monotone_sort f hij.le
    intro m' hd' _
    have e : m' = m := by
      rw [hd] at hd'
      simpa using hd'.symm
    subst e
    refine ⟨List.length_ofFn, Arr.ofMat_dims _ _ _, ?_, ?_⟩
    · intro i j hi hj
      refine (h4 (g i) (g j) (hg i hi) (hg j hj)).trans (if_congr (hgi i j hi hj) rfl rfl)
    · intro i j x hi hx
      obtain ⟨hj, hx⟩ := List.getElem?_eq_some_iff.1 hx
      rw [List.length_ofFn] at hj
      rw [List.getElem_ofFn] at hx
      refine h5 i (g j) x hi ?_
      rw [← hx]
      have hgj : g j < w.length := by rw [h2]; exact hg j hj
      have e : f (Tuple.sort f ⟨j, hj⟩) = enOf w (g j) := by simp only [f, g, dif_pos hj]
      show _ = some (f (Tuple.sort f ⟨j, hj⟩))
      rw [e, enOf, List.getD_eq_getElem?_getD, List.getElem?_eq_getElem hgj]
      rfl
  choose f hf hf' using key
  refine ⟨fun A => .ok (f A), ?_, ?_⟩
  · intro A m hd hh
    exact ⟨(f A).1, (f A).2, rfl, hf' A m hd hh⟩
  · intro A w v hA
    have := hf A
    rw [Except.ok.inj hA] at this
    exact this

/-- There are different ones. -/
theorem exists_two : ∃ eigh eigh', EighOk eigh ∧ EighOk eigh' ∧ EighSorted eigh ∧ EighSorted eigh' ∧ eigh ≠ eigh' := by
  obtain ⟨e, he, hs⟩ := exists_sorted
  refine ⟨e, fun A => e A >>= fun p => .ok (p.1, ⟨p.2.dims, fun ix => -p.2.val ix⟩), he, ?_, hs, ?_, ?_⟩
  · intro A m hd hh
    obtain ⟨w, v, h1, h2, h3, h4, h5⟩ := he A m hd hh
    refine ⟨w, ⟨v.dims, fun ix => -v.val ix⟩, by dsimp only; rw [h1]; rfl, h2, h3, ?_, ?_⟩
    · intro i j hi hj
      rw [← h4 i j hi hj]
      exact Finset.sum_congr rfl fun x _ => by rw [map_neg, neg_mul_neg]
    · intro i j x hi hx
      rw [neg_mul, ← h5 i j x hi hx, ← Finset.sum_neg_distrib]
      exact Finset.sum_congr rfl fun x _ => by rw [mul_neg]
  · intro A w v hA
    obtain ⟨p, p1, p2⟩ := bind_iff.1 hA
    cases Except.ok.inj p2
    exact hs A p.1 p.2 p1
  · intro heq
    obtain ⟨w, v, h1, -, -, h4, -⟩ := he (Arr.eye 1) 1 (Arr.ofMat_dims _ _ _) (by
      intro i j hi hj
      have hi : i = 0 := by omega
      have hj : j = 0 := by omega
      subst hi hj
      show (if 0 = 0 then (1 : ℂ) else 0) = conj (if 0 = 0 then 1 else 0)
      simp)
    have := congrFun heq (Arr.eye 1)
    rw [h1] at this
    have e := congrArg Arr.val (congrArg Prod.snd (Except.ok.inj this))
    have e := congrFun e [0, 0]
    have h0 := h4 0 0 (by omega) (by omega)
    have e' : v.val [0, 0] = 0 := by
      have e : v.val [0, 0] = -v.val [0, 0] := e
      linear_combination (1 / 2 : ℂ) * e
    rw [Finset.sum_range_one, e'] at h0
    simp at h0

theorem init_dm_si {n : Nat} {indexing : String} {si : SI} {d : DM} (hi : SI.init n indexing = .ok si)
    (hd : DM.init .dm n indexing = .ok d) : d.si = { si with statesChanged := true } := by
  obtain ⟨si', h1, hinv, hch, hr⟩ := init_inv n indexing
  cases Except.ok.inj (hi.symm.trans h1)
  have hsix : SIX n 0 si := ⟨si, hinv, by simp⟩
  unfold DM.init at hd
  rw [h1] at hd
  simp only [py_bind_ok] at hd
  have hnm : si.nmany = 2 ^ n := by rw [hinv.nmany, hr]; simp
  obtain ⟨a1, a2⟩ := setStatesdm_inv (n := n) (k := 0)
    (d := DM.blank .dm si n) hsix (fun _ => rfl)
    ⟨hinv.ncharge, by omega, by simp [DM.blank, hinv.ncharge], by simp [DM.blank, hinv.ncharge],
      by simp [DM.blank], by simp [DM.blank, hinv.ncharge], by simp [DM.blank, hinv.ncharge], by simp [DM.blank, hnm]⟩
    hsix.legal rfl rfl
  unfold DM.setStatesAll at hd
  obtain ⟨d', d1, d2⟩ := bind_iff.1 hd
  have e : d' = d := by
    simp only [if_true] at d2
    exact Except.ok.inj d2
  subst e
  exact (a2 _ d1).2.2

/-- Two orbitals with a hopping amplitude, and two routines that return different eigenvectors. -/
theorem eigh_case (cs : List ((Fin 2 × Fin 2 × Fin 2 × Fin 2) × ℂ)) (hcs : cs = [] ∨ cs = [((0, 1, 1, 0), 2)]) : ∃ (si : SI) (d : DM) (eigh eigh' : Eigh) (qd0 qd : QD), SI.run 2 "charge" [] = .ok si ∧ ReachedSI 2 si ∧ Consistent 2 si ∧
    si.indexing = .charge ∧ Reach .dm 2 "charge" d si.chargelst ∧ d.si = { si with statesChanged := d.si.statesChanged } ∧ EighOk eigh ∧ EighOk eigh' ∧
    EighSorted eigh ∧ EighSorted eigh' ∧ eigh ≠ eigh' ∧
    QD.init si none true true true true (.dict (hopKeys (n := 2) [((0, 1), Complex.I)]))
      (.dict (coulKeys cs)) = .ok qd0 ∧
    qd0.run [.add (.dict (hopKeys (n := 2) [((0, 0), 1)])) (.dict [])] = .ok qd ∧
    qd.hsingle = hopKeys (n := 2) [((0, 1), Complex.I), ((0, 0), 1)] ∧
    qd.coulomb = coulKeys cs := by
  obtain ⟨si, h1, h2⟩ := run_consistent 2 (by decide) "charge" [] (by decide) (Or.inl rfl)
  have hr : ReachedSI 2 si := ⟨_, _, h1, by decide, .inl rfl⟩
  obtain ⟨eigh, eigh', t1, t2, t3, t4, t5⟩ := exists_two
  have hix : si.indexing = .charge := by
    have h3 : (SI.run 2 "charge" [] >>= fun si => pure si.indexing) = .ok .charge := by decide +kernel
    rw [h1] at h3
    exact Except.ok.inj h3
  obtain ⟨d, hd⟩ : ∃ d, DM.init .dm 2 "charge" = .ok d := by
    obtain ⟨d, hd, -⟩ := view_example' 2
    exact ⟨d, hd⟩
  have hi : SI.init 2 "charge" = .ok si := by
    unfold SI.run at h1
    obtain ⟨s, s1, s2⟩ := bind_iff.1 h1
    cases Except.ok.inj s2
    exact s1
  have hds : d.si = { si with statesChanged := d.si.statesChanged } := by
    rw [init_dm_si hi hd]
  obtain ⟨qd0, qd, g1, g2⟩ := c13_dot_succeeds h2 (.inr hix) hr.inv.ncharge true true true true
    (hs := hopKeys (n := 2) [((0, 1), Complex.I)]) (cs := coulKeys cs)
    (by simp [HsInRange, hopKeys]) (by rcases hcs with rfl | rfl <;> simp [CsInRange, coulKeys])
    [.add (.dict (hopKeys (n := 2) [((0, 0), 1)])) (.dict [])]
    (by simp [DotCall.Valid, Param.Valid, CoulombArg.Valid, hopKeys])
    (by simp [DotCall.InRange, HsInRange, CsInRange, hopKeys]; omega)
  refine ⟨si, d, eigh, eigh', qd0, qd, h1, hr, h2, hix, Reach.init hi hd, hds, t1, t2, t3, t4, t5, g1, g2, ?_⟩
  obtain ⟨-, s1, s2, s3, s4, s5, s6⟩ := init_inv' g1
  obtain ⟨p1, p2⟩ := addHam_params g1
  have g3 : qd0.add (.dict (hopKeys (n := 2) [((0, 0), 1)])) (.dict []) = .ok qd := by
    have g2' := g2
    unfold QD.run at g2'
    rw [List.foldlM_cons] at g2'
    obtain ⟨q, q1, q2⟩ := bind_iff.1 g2'
    cases Except.ok.inj q2
    exact q1
  obtain ⟨p3, p4⟩ := addHam_params g3
  rw [p3, p4]
  simp only [s2, p1, p2]
  refine ⟨rfl, ?_⟩
  rcases hcs with rfl | rfl <;> rfl

/-- A case of `c70_eigh`, with an interaction. -/
example : ∃ (si : SI) (d : DM) (eigh eigh' : Eigh) (qd0 qd : QD), SI.run 2 "charge" [] = .ok si ∧ ReachedSI 2 si ∧ Consistent 2 si ∧
    si.indexing = .charge ∧ Reach .dm 2 "charge" d si.chargelst ∧ d.si = { si with statesChanged := d.si.statesChanged } ∧ EighOk eigh ∧ EighOk eigh' ∧
    EighSorted eigh ∧ EighSorted eigh' ∧ eigh ≠ eigh' ∧
    QD.init si none true true true true (.dict (hopKeys (n := 2) [((0, 1), Complex.I)]))
      (.dict (coulKeys (n := 2) [((0, 1, 1, 0), 2)])) = .ok qd0 ∧
    qd0.run [.add (.dict (hopKeys (n := 2) [((0, 0), 1)])) (.dict [])] = .ok qd ∧
    qd.hsingle = hopKeys (n := 2) [((0, 1), Complex.I), ((0, 0), 1)] ∧
    qd.coulomb = coulKeys (n := 2) [((0, 1, 1, 0), 2)] :=
  eigh_case _ (.inr rfl)

end

end Verif
