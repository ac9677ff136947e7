import Verif.Lemmas.SpinStart

/-! The loops of `ssquare_eigenstates` and `construct_manybody_eigenstates_ssq_all`. -/

namespace Verif
open Verif.Spec Matrix

variable {n : Nat}

theorem fold_set_range {α : Type} (N : Nat) (f : Nat → α) (step : List α → Nat → Py (List α))
    (hstep : ∀ l j, j < N → l.length = N → step l j = .ok (l.set j (f j))) (l0 : List α)
    (h0 : l0.length = N) : (List.range N).foldlM step l0 = .ok ((List.range N).map f) := by
  suffices H : ∀ t, t ≤ N → ∃ l, (List.range t).foldlM step l0 = .ok l ∧ l.length = N ∧
      ∀ j, j < t → l[j]? = some (f j) by
    obtain ⟨l, h1, h2, h3⟩ := H N (le_refl _)
    rw [h1]
    congr 1
    refine List.ext_getElem? fun j => ?_
    rcases Nat.lt_or_ge j N with hj | hj
    · rw [h3 j hj, List.getElem?_map, List.getElem?_range hj]; rfl
    · rw [List.getElem?_eq_none (by omega), List.getElem?_eq_none (by simpa using hj)]
  intro t
  induction t with
  | zero => intro _; exact ⟨l0, rfl, h0, fun j hj => absurd hj (Nat.not_lt_zero _)⟩
  | succ t ih =>
    intro ht
    obtain ⟨l, h1, h2, h3⟩ := ih (by omega)
    refine ⟨l.set t (f t), ?_, by rw [List.length_set, h2], ?_⟩
    · rw [List.range_succ, List.foldlM_append, h1]
      simp only [py_bind_ok, List.foldlM_cons, List.foldlM_nil, hstep l t (by omega) h2]
      rfl
    · intro j hj
      rcases Nat.lt_or_eq_of_le (Nat.lt_succ_iff.1 hj) with h | rfl
      · rw [List.getElem?_set_ne (by omega), h3 j h]
      · rw [List.getElem?_set_self (by omega)]

theorem colSlice_ok {a : Arr} {r c i m : Nat} (ha : a.dims = [r, c]) (h : i + m ≤ c) :
    a.colSlice i (i + m) = .ok (Arr.ofMat r m fun x y => a.mat x (i + y)) := by
  unfold Arr.colSlice
  rw [Arr.shape2_ok ha]
  simp only [py_bind_ok, py_pure, sliceLen]
  rw [show min (i + m) c - min i c = m by omega]

/-- `ssquare_eigenstates` for a sector. -/
theorem ssquareEigenstates_ok {si : SI} (hn : 1 ≤ n) (hev : n % 2 = 0) (hsi : SI.init n "ssq" = .ok si)
    {eigh : Eigh} (he : EighReal eigh) {c k : Nat} (hc : c ≤ n) (hk : k ≤ szW n c)
    {l : List Nat} {st : Nat → Occ n}
    (hl : si.getLst (some c) (some (-(szW n c : Int) + 2 * (k : Int))) none = .ok (some l))
    (hs : Sector n si c (-(szW n c : Int) + 2 * (k : Int)) l st) :
    ∃ (v : Nat → Nat → ℂ) (qs : Nat → Int) (a : Nat → Nat),
      ssquareEigenstates eigh c (-(szW n c : Int) + 2 * (k : Int)) si
        = .ok (some ((List.range (ssqE n c k + 1)).map fun j =>
          Arr.ofMat l.length (ssqM n c k j) fun p i => v p (a j + i))) ∧
      SpinCols n l.length st (ssqE n c k) ((szW n c - 2 * ssqE n c k : Nat) : Int) (ssqM n c k) v qs a := by
  obtain ⟨m, w, V, qs, a, h1, h2, h3, h4, h5, h6, h7, h8⟩ := spinCols_exist hn hev hsi he hc hk hl hs
  refine ⟨V.mat, qs, a, ?_, h7⟩
  have hns : si.nsingle = n := (SpinSI.facts ⟨hn, hev, "ssq", Or.inr rfl, hsi⟩).2.2.2
  unfold ssquareEigenstates
  rw [if_neg (by unfold szW; omega), h1]
  simp only [py_bind_ok, h2, hns]
  rw [ssqrange_sz n c k hc hk, show min k (szW n c - k) = ssqE n c k from rfl, List.foldlM_map]
  rw [fold_set_range (ssqE n c k + 1) (fun j => Arr.ofMat l.length (ssqM n c k j) fun p i =>
    V.mat p (a j + i))]
  · rfl
  · intro lst j hj hlen
    have hj' : j ≤ ssqE n c k := by omega
    have hpos := ssqM_pos n c k j hev hc hk hj'
    have hblk := (h7.block j hj').1
    have ef : (List.range (w.map fun x => round (-1 + Real.sqrt (1 + x))).length).filter
        (fun i => (w.map fun x => round (-1 + Real.sqrt (1 + x)))[i]?
          = some (((szW n c - 2 * ssqE n c k : Nat) : Int) + 2 * (j : Int)))
        = List.range' (a j) (ssqM n c k j) := by
      rw [← h8 j hj', List.length_map, h3]
      refine List.filter_congr fun i hi => ?_
      have hi' : i < w.length := by rw [h3]; simpa using hi
      rw [List.getElem?_map, List.getElem?_eq_getElem hi', Option.map_some, h5 i hi']
      simp
    rw [ef]
    rw [show (0 : Int) = ((0 : Nat) : Int) from rfl, pyGet_nat _ (by simpa using hpos)]
    simp only [py_bind_ok, List.getElem_range']
    have eg : pyGet (List.range' (a j) (ssqM n c k j)) (-1) = .ok (a j + ssqM n c k j - 1) := by
      unfold pyGet pyIdx
      rw [if_neg (by omega), if_pos (by simp; omega)]
      simp only [List.length_range']
      rw [show (-1 + (ssqM n c k j : Int)).toNat = ssqM n c k j - 1 by omega]
      rw [List.getElem?_eq_getElem (by simp; omega)]
      simp only [List.getElem_range']
      congr 1
      omega
    rw [eg]
    simp only [py_bind_ok]
    rw [show a j + ssqM n c k j - 1 + 1 = a j + ssqM n c k j by omega, show a j + 1 * 0 = a j by omega,
      colSlice_ok h4 hblk]
    simp only [py_bind_ok]
    rw [show ssqE n c k = min k (szW n c - k) from rfl, ssqToInd_row n c k j hk, pySet_nat _ _ (by omega)]
  · simp

/-! ### The table -/

theorem SpinTab.put_ok {t : SpinTab} {k q : Nat} {r : List (Option (List ℝ × Arr))} (hr : t[k]? = some r)
    (hq : q < r.length) (p : List ℝ × Arr) :
    t.put (k : Int) (q : Int) p = .ok (t.set k (r.set q (some p))) := by
  obtain ⟨hk, e⟩ := List.getElem?_eq_some_iff.1 hr
  unfold SpinTab.put
  rw [pyGet_nat _ hk, e]
  simp only [py_bind_ok]
  rw [pySet_nat _ _ hq]
  simp only [py_bind_ok]
  rw [pySet_nat _ _ hk]

theorem SpinTab.get_ok {t : SpinTab} {k q : Nat} {r : List (Option (List ℝ × Arr))} (hr : t[k]? = some r)
    {p : List ℝ × Arr} (hq : r[q]? = some (some p)) : t.get (k : Int) (q : Int) = .ok p := by
  obtain ⟨hk, e⟩ := List.getElem?_eq_some_iff.1 hr
  obtain ⟨hq', e'⟩ := List.getElem?_eq_some_iff.1 hq
  unfold SpinTab.get
  rw [pyGet_nat _ hk, e]
  simp only [py_bind_ok]
  rw [pyGet_nat _ hq', e']
  rfl

/-- A loop that fills one row of the table. -/
theorem fill_row (N K : Nat) (f : Nat → List ℝ × Arr) (step : SpinTab → Nat → Py SpinTab) (t0 : SpinTab)
    (hstep : ∀ t j, j < N → (∀ k, k ≠ K → t[k]? = t0[k]?) →
      (∃ r, t[K]? = some r ∧ r.length = N) → step t j = t.put (K : Int) (j : Int) (f j))
    (h0 : ∃ r, t0[K]? = some r ∧ r.length = N) :
    ∃ t, (List.range N).foldlM step t0 = .ok t ∧ t.length = t0.length ∧ (∀ k, k ≠ K → t[k]? = t0[k]?) ∧
      t[K]? = some ((List.range N).map fun j => some (f j)) := by
  suffices H : ∀ s, s ≤ N → ∃ t, (List.range s).foldlM step t0 = .ok t ∧ t.length = t0.length ∧
      (∀ k, k ≠ K → t[k]? = t0[k]?) ∧ ∃ r, t[K]? = some r ∧ r.length = N ∧
      ∀ j, j < s → r[j]? = some (some (f j)) by
    obtain ⟨t, h1, h2, h3, r, h4, h5, h6⟩ := H N (le_refl _)
    refine ⟨t, h1, h2, h3, ?_⟩
    rw [h4]
    congr 1
    refine List.ext_getElem? fun j => ?_
    rcases Nat.lt_or_ge j N with hj | hj
    · rw [h6 j hj, List.getElem?_map, List.getElem?_range hj]; rfl
    · rw [List.getElem?_eq_none (by omega), List.getElem?_eq_none (by simpa using hj)]
  intro s
  induction s with
  | zero =>
    intro _
    obtain ⟨r, h1, h2⟩ := h0
    exact ⟨t0, rfl, rfl, fun _ _ => rfl, r, h1, h2, fun j hj => absurd hj (Nat.not_lt_zero _)⟩
  | succ s ih =>
    intro hs
    obtain ⟨t, h1, h2, h3, r, h4, h5, h6⟩ := ih (by omega)
    have hK : K < t.length := (List.getElem?_eq_some_iff.1 h4).1
    refine ⟨t.set K (r.set s (some (f s))), ?_, by rw [List.length_set, h2], ?_, r.set s (some (f s)), ?_,
      by rw [List.length_set, h5], ?_⟩
    · rw [List.range_succ, List.foldlM_append, h1]
      simp only [py_bind_ok, List.foldlM_cons, List.foldlM_nil]
      rw [hstep t s (by omega) h3 ⟨r, h4, h5⟩, SpinTab.put_ok h4 (by omega)]
      rfl
    · intro k hk
      rw [List.getElem?_set_ne (by omega), h3 k hk]
    · rw [List.getElem?_set_self hK]
    · intro j hj
      rcases Nat.lt_or_eq_of_le (Nat.lt_succ_iff.1 hj) with h | rfl
      · rw [List.getElem?_set_ne (by omega), h6 j h]
      · rw [List.getElem?_set_self (by omega)]

/-- One pass of the loops over the projection. -/
theorem spinStep_ok {si : SI} (hns : si.nsingle = n) {c : Nat} {z z2 : Int} {k k2 E E2 : Nat} (hne : k ≠ k2)
    (hz : szToInd z c n = (k : Int)) (hz2 : szToInd z2 c n = (k2 : Int)) {q2 : Int} {g : Nat → Nat}
    (hr : ssqrange c z2 n = (List.range (E2 + 1)).map fun (j : Nat) => q2 + 2 * (j : Int))
    (hi2 : ∀ j : Nat, j ≤ E2 → ssqToInd (q2 + 2 * (j : Int)) z2 = (j : Int))
    (hi : ∀ j : Nat, j ≤ E2 → ssqToInd (q2 + 2 * (j : Int)) z = (g j : Int) ∧ g j ≤ E) {t : SpinTab}
    {cells : Nat → List ℝ × Arr}
    (hk : t[k]? = some ((List.range (E + 1)).map fun j => some (cells j)))
    (hk2 : ∃ r, t[k2]? = some r ∧ r.length = E2 + 1) {m : IMat} {y : Nat → Arr}
    (hy : ∀ j : Nat, j ≤ E2 → opDot (some m) (cells (g j)).2
      (Real.sqrt ((((q2 + 2 * (j : Int)) * (q2 + 2 * (j : Int) + 2) - z * z2 : ℤ) : ℝ))) = .ok (y j)) :
    ∃ t', spinStep c z z2 si (.ok (some m)) t = .ok t' ∧ t'.length = t.length ∧
      (∀ k', k' ≠ k2 → t'[k']? = t[k']?) ∧
      t'[k2]? = some ((List.range (E2 + 1)).map fun j => some ((cells (g j)).1, y j)) := by
  unfold spinStep
  rw [hns, hr, List.foldlM_map]
  refine fill_row (E2 + 1) k2 (fun j => ((cells (g j)).1, y j)) _ t ?_ hk2
  intro t' j hj h1 h2
  have hj' : j ≤ E2 := by omega
  simp only [py_bind_ok, hz, hz2, (hi j hj').1, hi2 j hj']
  rw [SpinTab.get_ok (p := cells (g j)) (by rw [h1 k hne]; exact hk)
    (by rw [List.getElem?_map, List.getElem?_range (by have := (hi j hj').2; omega)]; rfl)]
  simp only [py_bind_ok, hy j hj']

/-- The entries of one cell: the energies `e` and the vectors `x i` at the states `st p`. -/
structure CellIs (d m : Nat) (st : Nat → Occ n) (e : List ℝ) (x : Nat → Occ n → ℂ)
    (cell : List ℝ × Arr) : Prop where
  en : cell.1 = e
  dims : cell.2.dims = [d, m]
  val : ∀ p i, p < d → i < m → cell.2.val [p, i] = x i (st p)

theorem opDot_ok {m : IMat} {v : Arr} {d d' k : Nat} (h1 : m.rows = d') (h2 : m.cols = d)
    (hv : v.dims = [d, k]) (f : ℝ) :
    opDot (some m) v f = .ok (Arr.ofMat d' k fun i j =>
      (∑ x ∈ Finset.range d, ((m.val i x : ℤ) : ℂ) * v.mat x j) / f) := by
  unfold opDot
  simp only
  rw [matDot_ok (a := m.arr) (b := v) (r := d') (k := d) (c := k) (by
    unfold IMat.arr; rw [Arr.ofMat_dims, h1, h2]) hv]
  simp only [py_bind_ok]
  rw [Arr.shape2_ok (Arr.ofMat_dims _ _ _)]
  rfl

/-- Acting with `2 S⁺`. -/
theorem raise_cell {si : SI} {c : Nat} {z q : Int} {l l' : List Nat} {st st' : Nat → Occ n}
    (hs : Sector n si c z l st) {m : IMat} (h1 : m.rows = l'.length)
    (h2 : m.cols = l.length) (h3 : ∀ p q, p < l'.length → q < l.length →
        m.val p q = 2 * (spinPlus : Matrix (Occ n) (Occ n) ℤ) (st' p) (st q))
    {k : Nat} {e : List ℝ} {x : Nat → Occ n → ℂ} (hx : ∀ i, i < k → InSec c z (x i))
    {cell : List ℝ × Arr} (hc : CellIs l.length k st e x cell) :
    ∃ y, opDot (some m) cell.2 (lad q z) = .ok y ∧
      CellIs l'.length k st' e (fun i => raise q z (x i)) (cell.1, y) := by
  refine ⟨_, opDot_ok h1 h2 hc.dims _, hc.en, Arr.ofMat_dims _ _ _, ?_⟩
  intro p i hp hi
  show (∑ y ∈ Finset.range l.length, ((m.val p y : ℤ) : ℂ) * cell.2.val [y, i]) / ((lad q z : ℝ) : ℂ) = _
  unfold raise
  rw [Pi.smul_apply, hs.mulVec _ (hx i hi), smul_eq_mul, Finset.mul_sum, Finset.sum_div]
  refine Finset.sum_congr rfl fun y hy => ?_
  have hy := Finset.mem_range.1 hy
  rw [h3 p y hp hy, hc.val y i hy hi]
  show _ = _ * (((spinPlus (st' p) (st y) : ℤ) : ℂ) * _)
  push_cast
  ring

/-- Acting with `2 S⁻`. -/
theorem lower_cell {si : SI} {c : Nat} {z z' q : Int} {l l' : List Nat} {st st' : Nat → Occ n}
    (hs : Sector n si c z l st) {m : IMat} (h1 : m.rows = l'.length)
    (h2 : m.cols = l.length) (h3 : ∀ p q, p < l'.length → q < l.length →
        m.val p q = 2 * (spinMinus : Matrix (Occ n) (Occ n) ℤ) (st' p) (st q))
    {k : Nat} {e : List ℝ} {x : Nat → Occ n → ℂ} (hx : ∀ i, i < k → InSec c z (x i))
    {cell : List ℝ × Arr} (hc : CellIs l.length k st e x cell) :
    ∃ y, opDot (some m) cell.2 (lad q z') = .ok y ∧
      CellIs l'.length k st' e (fun i => lower q z' (x i)) (cell.1, y) := by
  refine ⟨_, opDot_ok h1 h2 hc.dims _, hc.en, Arr.ofMat_dims _ _ _, ?_⟩
  intro p i hp hi
  show (∑ y ∈ Finset.range l.length, ((m.val p y : ℤ) : ℂ) * cell.2.val [y, i]) / ((lad q z' : ℝ) : ℂ) = _
  unfold lower
  rw [Pi.smul_apply, hs.mulVec _ (hx i hi), smul_eq_mul, Finset.mul_sum, Finset.sum_div]
  refine Finset.sum_congr rfl fun y hy => ?_
  have hy := Finset.mem_range.1 hy
  rw [h3 p y hp hy, hc.val y i hy hi]
  show _ = _ * (((spinMinus (st' p) (st y) : ℤ) : ℂ) * _)
  push_cast
  ring

end Verif
