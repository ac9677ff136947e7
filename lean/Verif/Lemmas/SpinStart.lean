import Verif.Lemmas.SpinEig
import Verif.Lemmas.SpinChain

/-! The eigenstates with the lowest spin projection. -/

namespace Verif
open Verif.Spec Matrix

variable {n : Nat}

/-- The vector with the components `f p` at the states `st p`. -/
def lift (d : Nat) (st : Nat → Occ n) (f : Nat → ℂ) : Occ n → ℂ :=
  fun s => ∑ p ∈ Finset.range d, if st p = s then f p else 0

section
variable {si : SI} {c : Nat} {z : Int} {l : List Nat} {st : Nat → Occ n} (hs : Sector n si c z l st)
include hs

theorem Sector.lift_st (f : Nat → ℂ) {p : Nat} (hp : p < l.length) : lift l.length st f (st p) = f p := by
  unfold lift
  rw [Finset.sum_eq_single p]
  · rw [if_pos rfl]
  · intro q hq hne
    rw [if_neg]
    intro e
    exact hne (hs.basis.inj q p (Finset.mem_range.1 hq) hp e)
  · intro h; exact absurd (Finset.mem_range.2 hp) h

theorem Sector.lift_sec (f : Nat → ℂ) : InSec c z (lift l.length st f) := by
  intro s hx
  unfold lift at hx
  obtain ⟨p, hp, h⟩ := Finset.exists_ne_zero_of_sum_ne_zero hx
  have : st p = s := by
    by_contra hne
    rw [if_neg hne] at h
    exact h rfl
  rw [← this]
  exact hs.mem p (Finset.mem_range.1 hp)

/-- A vector of the sector is given by its components at the listed states. -/
theorem Sector.ext {x y : Occ n → ℂ} (hx : InSec c z x) (hy : InSec c z y)
    (h : ∀ p, p < l.length → x (st p) = y (st p)) : x = y := by
  ext s
  by_cases h0 : s.count = c ∧ twoSz n (ofOcc s) = z
  · obtain ⟨k, p, _, _, hp, e⟩ := hs.has s h0.1 h0.2
    rw [← e]
    exact h p hp
  · have e1 : x s = 0 := by
      by_contra hne; exact h0 (hx s hne)
    have e2 : y s = 0 := by
      by_contra hne; exact h0 (hy s hne)
    rw [e1, e2]

theorem Sector.mulVec (A : Matrix (Occ n) (Occ n) ℂ) {x : Occ n → ℂ} (hx : InSec c z x) (s : Occ n) :
    (A *ᵥ x) s = ∑ p ∈ Finset.range l.length, A s (st p) * x (st p) := by
  rw [hs.sum (fun u => A s u * x u)]
  · rfl
  · intro u hu
    exact hx u (right_ne_zero_of_mul hu)

theorem Sector.ip (x : Occ n → ℂ) {y : Occ n → ℂ} (hy : InSec c z y) :
    ip x y = ∑ p ∈ Finset.range l.length, starRingEnd ℂ (x (st p)) * y (st p) := by
  rw [hs.sum (fun u => starRingEnd ℂ (x u) * y u)]
  · rfl
  · intro u hu
    exact hy u (right_ne_zero_of_mul hu)

end

theorem cQ_sec (hn : n % 2 = 0) {c : Nat} {z : Int} {x : Occ n → ℂ} (h : InSec c z x) :
    InSec c z (cQ *ᵥ x) := by
  intro s hs
  obtain ⟨u, _, hu⟩ := Finset.exists_ne_zero_of_sum_ne_zero hs
  have h1 := h u (right_ne_zero_of_mul hu)
  have h2 : (spinSquare4 : Matrix (Occ n) (Occ n) ℤ) s u ≠ 0 := by
    intro h0
    exact left_ne_zero_of_mul hu (by show ((spinSquare4 s u : ℤ) : ℂ) = 0; rw [h0, Int.cast_zero])
  have h3 := spinSquare4_support hn h2
  exact ⟨by rw [h3.1, h1.1], by rw [h3.2, h1.2]⟩

/-- The columns as vectors. -/
def SpinCols.col (d : Nat) (st : Nat → Occ n) (v : Nat → Nat → ℂ) (i : Nat) : Occ n → ℂ :=
  lift d st fun p => v p i

section
variable {si : SI} {c : Nat} {z : Int} {l : List Nat} {st : Nat → Occ n} (hs : Sector n si c z l st)
  {E : Nat} {q0 : Int} {m : Nat → Nat} {v : Nat → Nat → ℂ} {qs : Nat → Int} {a : Nat → Nat}
  (hv : SpinCols n l.length st E q0 m v qs a)
include hs hv

theorem SpinCols.ip_col {i j : Nat} (hi : i < l.length) (hj : j < l.length) :
    ip (SpinCols.col l.length st v i) (SpinCols.col l.length st v j) = if i = j then 1 else 0 := by
  unfold SpinCols.col
  rw [hs.ip _ (hs.lift_sec _), ← hv.orth i j hi hj]
  refine Finset.sum_congr rfl fun p hp => ?_
  rw [hs.lift_st _ (Finset.mem_range.1 hp), hs.lift_st _ (Finset.mem_range.1 hp)]

theorem SpinCols.col_spin (hn : n % 2 = 0) {i : Nat} (hi : i < l.length) :
    HasSpin (qs i) (SpinCols.col l.length st v i) := by
  unfold HasSpin SpinCols.col
  refine hs.ext (cQ_sec hn (hs.lift_sec _)) ((hs.lift_sec _).smul _) ?_
  intro p hp
  rw [hs.mulVec _ (hs.lift_sec _), Pi.smul_apply]
  rw [hs.lift_st _ hp, smul_eq_mul, mul_comm, ← hv.spin p i hp hi]
  refine Finset.sum_congr rfl fun y hy => ?_
  rw [hs.lift_st _ (Finset.mem_range.1 hy)]

/-- The columns are complete. -/
theorem SpinCols.expand {y : Occ n → ℂ} (hy : InSec c z y) :
    y = ∑ i ∈ Finset.range l.length,
      ip (SpinCols.col l.length st v i) y • SpinCols.col l.length st v i := by
  let U : Matrix (Fin l.length) (Fin l.length) ℂ := fun p i => v p i
  have hU : Uᴴ * U = 1 := by
    ext i j
    rw [Matrix.mul_apply, Matrix.one_apply]
    have := hv.orth i j i.2 j.2
    rw [Finset.sum_range] at this
    simp only [Fin.val_inj] at this
    exact this
  have hU' : U * Uᴴ = 1 := mul_eq_one_comm.1 hU
  refine hs.ext hy (InSec.sum _ fun i _ => (hs.lift_sec _).smul _) ?_
  intro p hp
  rw [Finset.sum_apply]
  have e : ∀ i ∈ Finset.range l.length,
      (ip (SpinCols.col l.length st v i) y • SpinCols.col l.length st v i) (st p)
        = ∑ x ∈ Finset.range l.length, v p i * starRingEnd ℂ (v x i) * y (st x) := by
    intro i _
    rw [Pi.smul_apply, hs.ip _ hy]
    unfold SpinCols.col
    rw [hs.lift_st _ hp, smul_eq_mul, Finset.sum_mul]
    refine Finset.sum_congr rfl fun x hx => ?_
    rw [hs.lift_st _ (Finset.mem_range.1 hx)]
    ring
  rw [Finset.sum_congr rfl e, Finset.sum_comm]
  have e2 : ∀ x ∈ Finset.range l.length, ∑ i ∈ Finset.range l.length, v p i * starRingEnd ℂ (v x i) * y (st x)
      = if p = x then y (st x) else 0 := by
    intro x hx
    have hx := Finset.mem_range.1 hx
    rw [← Finset.sum_mul]
    have := congrFun (congrFun hU' ⟨p, hp⟩) ⟨x, hx⟩
    rw [Matrix.mul_apply, Matrix.one_apply] at this
    rw [Finset.sum_range]
    have this' : ∑ i : Fin l.length, v p i * starRingEnd ℂ (v x i) = if p = x then 1 else 0 := by
      simp only [Fin.mk.injEq] at this
      exact this
    rw [this']
    split <;> simp
  rw [Finset.sum_congr rfl e2, Finset.sum_ite_eq, if_pos (Finset.mem_range.2 hp)]

/-- A vector of the sector with the `j`-th total spin. -/
theorem SpinCols.expand_spin (hn : n % 2 = 0) (hq0 : 0 ≤ q0) {j : Nat} (hj : j ≤ E) {y : Occ n → ℂ}
    (hy : InSec c z y) (hq : HasSpin (q0 + 2 * (j : Int)) y) :
    y = ∑ i ∈ Finset.range (m j),
      ip (SpinCols.col l.length st v (a j + i)) y • SpinCols.col l.length st v (a j + i) := by
  obtain ⟨h1, h2⟩ := hv.block j hj
  conv_lhs => rw [hv.expand hs hy]
  have e : (Finset.range (m j)).image (fun i => a j + i) ⊆ Finset.range l.length := by
    intro x hx
    obtain ⟨i, hi, rfl⟩ := Finset.mem_image.1 hx
    have := Finset.mem_range.1 hi
    exact Finset.mem_range.2 (by omega)
  rw [← Finset.sum_subset e, Finset.sum_image (fun x _ y _ h => by simpa using h)]
  intro i hi hne
  have hi := Finset.mem_range.1 hi
  have : qs i ≠ q0 + 2 * (j : Int) := by
    intro he
    have := (h2 i hi).1 he
    exact hne (Finset.mem_image.2 ⟨i - a j, Finset.mem_range.2 (by omega), by omega⟩)
  obtain ⟨j', hj', e'⟩ := hv.all i hi
  rw [ip_spin_ne (hv.col_spin hs hn hi) hq (by rw [e']; omega) (by omega) this, zero_smul]

end

theorem transp_ok {a : Arr} {r c : Nat} (ha : a.dims = [r, c]) :
    transp a = .ok (Arr.ofMat c r fun i j => a.mat j i) := by
  unfold transp
  rw [Arr.shape2_ok ha]
  rfl

theorem conj_of_im {x : ℂ} (h : x.im = 0) : starRingEnd ℂ x = x := Complex.conj_eq_iff_im.2 h

/-- One pass of the first loop of `construct_manybody_eigenstates_ssq_all`. -/
theorem spinBase_ok {si : SI} {c : Nat} {z : Int} {l : List Nat} {st : Nat → Occ n}
    (hs : Sector n si c z l st) {E : Nat} {q0 : Int} {m : Nat → Nat} {v : Nat → Nat → ℂ} {qs : Nat → Int}
    {a : Nat → Nat} (hv : SpinCols n l.length st E q0 m v qs a) (hn : n % 2 = 0) (hq0 : 0 ≤ q0)
    {eigh : Eigh} (he : EighOk eigh) {H : Matrix (Occ n) (Occ n) ℂ} (hH : SpinConserving H) {ham V : Arr}
    (hd : ham.dims = [l.length, l.length])
    (hval : ∀ p q, p < l.length → q < l.length → ham.val [p, q] = H (st p) (st q))
    {j : Nat} (hj : j ≤ E) (hVd : V.dims = [l.length, m j])
    (hVv : ∀ p i, p < l.length → i < m j → V.val [p, i] = v p (a j + i)) :
    ∃ (cell : List ℝ × Arr) (x : Nat → Occ n → ℂ), spinBase eigh ham V = .ok cell ∧
      cell.1.length = m j ∧ cell.2.dims = [l.length, m j] ∧
      (∀ p i, p < l.length → i < m j → cell.2.val [p, i] = x i (st p)) ∧
      Joint H c z (q0 + 2 * (j : Int)) (m j) (fun i => cell.1.getD i 0) x := by
  obtain ⟨hb1, hb2⟩ := hv.block j hj
  set col := SpinCols.col l.length st v with hcol
  have hcolsec : ∀ i, InSec c z (col i) := fun i => hs.lift_sec _
  have hcolst : ∀ p i, p < l.length → col i (st p) = v p i := fun p i hp => hs.lift_st _ hp
  have hcolspin : ∀ i, i < m j → HasSpin (q0 + 2 * (j : Int)) (col (a j + i)) := by
    intro i hi
    have := hv.col_spin hs hn (i := a j + i) (by omega)
    rwa [(hb2 (a j + i) (by omega)).2 ⟨by omega, by omega⟩] at this
  -- the reduced Hamiltonian
  let B : Nat → Nat → ℂ := fun i i' => ip (col (a j + i)) (H *ᵥ col (a j + i'))
  have hB : ∀ i i', i < m j → i' < m j → ∑ x ∈ Finset.range l.length, V.mat x i *
      ∑ y ∈ Finset.range l.length, ham.mat x y * V.mat y i' = B i i' := by
    intro i i' hi hi'
    show _ = ip _ _
    rw [hs.ip _ (hH.inSec hn (hcolsec _))]
    refine Finset.sum_congr rfl fun x hx => ?_
    have hx := Finset.mem_range.1 hx
    rw [hcolst x _ hx, conj_of_im (hv.real x _ hx (by omega)), hs.mulVec _ (hcolsec _)]
    show V.val [x, i] * _ = _
    rw [hVv x i hx hi]
    congr 1
    refine Finset.sum_congr rfl fun y hy => ?_
    have hy := Finset.mem_range.1 hy
    show ham.val [x, y] * V.val [y, i'] = _
    rw [hval x y hx hy, hVv y i' hy hi', hcolst y _ hy]
  have hBh : ∀ i i', B i' i = starRingEnd ℂ (B i i') := by
    intro i i'
    show ip _ _ = starRingEnd ℂ (ip _ _)
    have e1 : ip (col (a j + i')) (H *ᵥ col (a j + i)) = ip (H *ᵥ col (a j + i')) (col (a j + i)) := by
      rw [ip_adj, hH.herm]
    rw [e1, ip_eq_sum, ip_eq_sum, map_sum]
    refine Finset.sum_congr rfl fun s _ => ?_
    rw [map_mul, Complex.conj_conj, mul_comm]
  -- the calls
  let hamp := Arr.ofMat (m j) (m j) fun i i' => ∑ x ∈ Finset.range l.length,
    (Arr.ofMat (m j) l.length fun i j => V.mat j i).mat i x *
      (Arr.ofMat l.length (m j) fun x i' => ∑ y ∈ Finset.range l.length, ham.mat x y * V.mat y i').mat x i'
  have hhamp : ∀ i i', i < m j → i' < m j → hamp.val [i, i'] = B i i' := fun i i' hi hi' => hB i i' hi hi'
  obtain ⟨w, U, u1, u2, u3, u4, u5⟩ := he hamp (m j) (Arr.ofMat_dims _ _ _) (by
    intro i i' hi hi'
    rw [hhamp i i' hi hi', hhamp i' i hi' hi, hBh])
  let X : Nat → Occ n → ℂ := fun i => ∑ k ∈ Finset.range (m j), U.mat k i • col (a j + k)
  have hXsec : ∀ i, InSec c z (X i) := fun i => InSec.sum _ fun k _ => (hcolsec _).smul _
  have hipX : ∀ i k, k < m j → ip (col (a j + k)) (X i) = U.mat k i := by
    intro i k hk
    have e : ip (col (a j + k)) (X i) = ∑ k' ∈ Finset.range (m j),
        U.mat k' i * ip (col (a j + k)) (col (a j + k')) := by
      show ip _ (∑ _ ∈ _, _) = _
      unfold ip
      rw [dotProduct_sum]
      refine Finset.sum_congr rfl fun k' _ => ?_
      rw [dotProduct_smul, smul_eq_mul]
    rw [e, Finset.sum_eq_single k]
    · rw [hv.ip_col hs (by omega) (by omega), if_pos rfl, mul_one]
    · intro k' hk' hne
      have := Finset.mem_range.1 hk'
      rw [hv.ip_col hs (by omega) (by omega), if_neg (by omega), mul_zero]
    · intro h; exact absurd (Finset.mem_range.2 hk) h
  refine ⟨(w, Arr.ofMat l.length (m j) fun p i => ∑ k ∈ Finset.range (m j), V.mat p k * U.mat k i), X, ?_,
    u2, Arr.ofMat_dims _ _ _, ?_, ⟨fun i _ => hXsec i, ?_, ?_, ?_⟩⟩
  · unfold spinBase
    rw [transp_ok hVd]
    simp only [py_bind_ok]
    rw [matDot_ok hd hVd]
    simp only [py_bind_ok]
    rw [matDot_ok (Arr.ofMat_dims _ _ _) (Arr.ofMat_dims _ _ _)]
    simp only [py_bind_ok]
    rw [show eigh (Arr.ofMat (m j) (m j) _) = .ok (w, U) from u1]
    simp only [py_bind_ok]
    rw [matDot_ok hVd u3]
    rfl
  · intro p i hp hi
    show ∑ k ∈ Finset.range (m j), V.mat p k * U.mat k i
      = (∑ k ∈ Finset.range (m j), U.mat k i • col (a j + k)) (st p)
    rw [Finset.sum_apply]
    refine Finset.sum_congr rfl fun k hk => ?_
    rw [Pi.smul_apply, hcolst p _ hp, smul_eq_mul, mul_comm]
    show _ * V.val [p, k] = _
    rw [hVv p k hp (Finset.mem_range.1 hk)]
  · intro i hi
    show cQ *ᵥ (∑ k ∈ _, _) = _ • ∑ k ∈ _, _
    rw [Matrix.mulVec_sum, Finset.smul_sum]
    refine Finset.sum_congr rfl fun k hk => ?_
    rw [Matrix.mulVec_smul, hcolspin k (Finset.mem_range.1 hk), smul_comm]
  · intro i hi
    have hi' : i < w.length := by rw [u2]; exact hi
    show H *ᵥ (∑ k ∈ _, _) = _ • ∑ k ∈ _, _
    rw [Matrix.mulVec_sum, Finset.smul_sum]
    have e1 : ∀ k ∈ Finset.range (m j), H *ᵥ (U.mat k i • col (a j + k))
        = ∑ k' ∈ Finset.range (m j), (B k' k * U.mat k i) • col (a j + k') := by
      intro k hk
      rw [Matrix.mulVec_smul]
      conv_lhs => rw [hv.expand_spin hs hn hq0 hj (hH.inSec hn (hcolsec (a j + k)))
        (hH.hasSpin (hcolspin k (Finset.mem_range.1 hk)))]
      rw [Finset.smul_sum]
      refine Finset.sum_congr rfl fun k' _ => ?_
      rw [smul_smul, mul_comm]
    rw [Finset.sum_congr rfl e1, Finset.sum_comm]
    refine Finset.sum_congr rfl fun k' hk' => ?_
    have hk' := Finset.mem_range.1 hk'
    rw [← Finset.sum_smul, smul_smul]
    congr 1
    have := u5 k' i w[i] hk' (List.getElem?_eq_getElem hi')
    rw [show w.getD i 0 = w[i] by simp [hi'], mul_comm]
    show _ = U.val [k', i] * _
    rw [← this]
    refine Finset.sum_congr rfl fun k hk => ?_
    rw [hhamp k' k hk' (Finset.mem_range.1 hk)]
    rfl
  · intro i i' hi hi'
    have e : ip (X i) (X i') = ∑ k ∈ Finset.range (m j), starRingEnd ℂ (U.mat k i) * ip (col (a j + k)) (X i') := by
      show ip (∑ _ ∈ _, _) _ = _
      unfold ip
      rw [star_sum, sum_dotProduct]
      refine Finset.sum_congr rfl fun k _ => ?_
      rw [star_smul, smul_dotProduct, smul_eq_mul]
      rfl
    rw [e, ← u4 i i' hi hi']
    refine Finset.sum_congr rfl fun k hk => ?_
    rw [hipX i' k (Finset.mem_range.1 hk)]
    rfl

end Verif
