import Verif.Lemmas.Neumann2Iter
import Mathlib.Algebra.Order.Archimedean.Basic
import Mathlib.Tactic.FieldSimp
import Mathlib.Tactic.Linarith

/-! The energy grids of the 2vN approach. -/

namespace Verif

noncomputable section

namespace VN2

/-- `n` points starting at `x` with step `h`. -/
def uniform (x h : ℝ) (n : Nat) : List ℝ := (List.range n).map fun i : Nat => x + i * h

@[simp] theorem uniform_length (x h : ℝ) (n : Nat) : (uniform x h n).length = n := by simp [uniform]

theorem uniform_get {x h : ℝ} {n i : Nat} (hi : i < n) : pyGet (uniform x h n) (i : Int) = .ok (x + i * h) := by
  rw [pyGet_nat _ (by simpa using hi)]
  simp [uniform]

theorem uniform_last {x h : ℝ} {n : Nat} (hn : 0 < n) : pyGet (uniform x h n) (-1) = .ok (x + ((n : ℝ) - 1) * h) := by
  unfold pyGet
  have := pyIdx_neg (len := (uniform x h n).length) (k := 1) (by omega) (by simp; omega)
  rw [show (-((1 : Nat) : Int)) = -1 by rfl] at this
  rw [this]
  simp only [uniform_length]
  rw [List.getElem?_eq_getElem (by simp; omega)]
  simp only [uniform, List.getElem_map, List.getElem_range]
  rw [Nat.cast_sub (by omega)]
  simp

theorem linspace_eq (a b : ℝ) (n : Nat) : linspace a b n = uniform a ((b - a) / ((n : ℝ) - 1)) n := rfl

theorem linspace_length (a b : ℝ) (n : Nat) : (linspace a b n).length = n := by simp [linspace]

theorem linspace_first {a b : ℝ} {n : Nat} (hn : 0 < n) : pyGet (linspace a b n) 0 = .ok a := by
  have := uniform_get (x := a) (h := (b - a) / ((n : ℝ) - 1)) hn
  simpa [linspace_eq] using this

theorem linspace_last {a b : ℝ} {n : Nat} (hn : 2 ≤ n) : pyGet (linspace a b n) (-1) = .ok b := by
  rw [linspace_eq, uniform_last (by omega)]
  have : (n : ℝ) - 1 ≠ 0 := by
    have : (2 : ℝ) ≤ n := by exact_mod_cast hn
    linarith
  congr 1
  field_simp
  ring

theorem uniform_append (x h : ℝ) (m n : Nat) : uniform x h m ++ uniform (x + m * h) h n = uniform x h (m + n) := by
  unfold uniform
  rw [List.range_add, List.map_append, List.map_map]
  congr 1
  apply List.map_congr_left
  intro i _
  simp only [Function.comp]
  push_cast
  ring

/-- The grid to the left, sorted. -/
theorem sort_left (y h : ℝ) (hh : 0 < h) (n : Nat) :
    (((List.range n).map fun i : Nat => (-y + h) + i * h).map fun x => -x).insertionSort (· ≤ ·)
      = uniform (y - n * h) h n := by
  have hs : (uniform (y - n * h) h n).Pairwise (· ≤ ·) := by
    unfold uniform
    rw [List.pairwise_map]
    refine List.pairwise_lt_range.imp ?_
    intro i j hij
    have : (i : ℝ) ≤ j := by exact_mod_cast hij.le
    nlinarith
  refine List.Perm.eq_of_pairwise' (List.pairwise_insertionSort _ _) hs ?_
  refine (List.perm_insertionSort _ _).trans ?_
  have : (((List.range n).map fun i : Nat => (-y + h) + i * h).map fun x => -x) = (uniform (y - n * h) h n).reverse := by
    apply List.ext_getElem
    · simp
    · intro i h1 h2
      have hi : i < n := by simpa using h1
      simp only [List.getElem_map, List.getElem_range, List.getElem_reverse, uniform, List.length_map, List.length_range]
      rw [Nat.cast_sub (by omega), Nat.cast_sub (by omega)]
      push_cast
      ring
  rw [this]
  exact List.reverse_perm _

/-- The number of points needed to cover `d`. -/
def npts (d h : ℝ) : Nat := ⌈d / h⌉.toNat

theorem npts_cover {d h : ℝ} (hh : 0 < h) : d ≤ npts d h * h := by
  unfold npts
  have h1 : d / h ≤ ⌈d / h⌉ := Int.le_ceil _
  have h2 : ((⌈d / h⌉ : Int) : ℝ) ≤ (⌈d / h⌉.toNat : ℝ) := by
    have : ⌈d / h⌉ ≤ (⌈d / h⌉.toNat : Int) := Int.self_le_toNat _
    exact_mod_cast this
  have := h1.trans h2
  rwa [div_le_iff₀ hh] at this

/-- The extended grid is uniform. -/
theorem gridExt_eq {dmin dmax emin emax fct : ℝ} {n : Nat} (hn : 2 ≤ n) (hd : dmin < dmax) :
    gridExt (linspace dmin dmax n) dmin dmax emin emax fct
      = .ok (uniform (dmin - npts (fct * (dmin - emin)) ((dmax - dmin) / ((n : ℝ) - 1)) * ((dmax - dmin) / ((n : ℝ) - 1)))
          ((dmax - dmin) / ((n : ℝ) - 1))
          (npts (fct * (dmin - emin)) ((dmax - dmin) / ((n : ℝ) - 1)) + n
            + npts (fct * (emax - dmax)) ((dmax - dmin) / ((n : ℝ) - 1))),
        npts (fct * (dmin - emin)) ((dmax - dmin) / ((n : ℝ) - 1)),
        npts (fct * (emax - dmax)) ((dmax - dmin) / ((n : ℝ) - 1))) := by
  have hn1 : (0 : ℝ) < (n : ℝ) - 1 := by
    have : (2 : ℝ) ≤ n := by exact_mod_cast hn
    linarith
  obtain ⟨h, hh⟩ : ∃ h, h = (dmax - dmin) / ((n : ℝ) - 1) := ⟨_, rfl⟩
  have hpos : 0 < h := by rw [hh]; exact div_pos (by linarith) hn1
  have hmax : dmax = dmin + ((n : ℝ) - 1) * h := by rw [hh]; field_simp; ring
  rw [← hh]
  unfold gridExt
  rw [linspace_eq, ← hh]
  have g1 := uniform_get (x := dmin) (h := h) (n := n) (i := 1) (by omega)
  have g0 := uniform_get (x := dmin) (h := h) (n := n) (i := 0) (by omega)
  rw [show ((1 : Nat) : Int) = 1 by rfl] at g1
  rw [show ((0 : Nat) : Int) = 0 by rfl] at g0
  rw [g1, g0]
  simp only [py_bind_ok]
  have hst : dmin + ((1 : Nat) : ℝ) * h - (dmin + ((0 : Nat) : ℝ) * h) = h := by push_cast; ring
  rw [hst]
  unfold arange
  rw [if_neg hpos.ne', if_neg hpos.ne']
  simp only [py_pure, py_bind_ok]
  have e1 : (-(fct * (emin - dmin) + dmin) + h - (-dmin + h)) / h = fct * (dmin - emin) / h := by
    congr 1; ring
  have e2 : (fct * (emax - dmax) + dmax + h - (dmax + h)) / h = fct * (emax - dmax) / h := by
    congr 1; ring
  rw [e1, e2]
  change Except.ok (_, _, _) = _
  rw [sort_left dmin h hpos]
  have e3 : (List.range ⌈fct * (emax - dmax) / h⌉.toNat).map (fun i : Nat => dmax + h + i * h)
      = uniform (dmin - npts (fct * (dmin - emin)) h * h + ((npts (fct * (dmin - emin)) h + n : Nat) : ℝ) * h) h
          (npts (fct * (emax - dmax)) h) := by
    unfold uniform npts
    apply List.map_congr_left
    intro i _
    rw [hmax]
    push_cast
    ring
  have e4 : uniform dmin h n = uniform (dmin - npts (fct * (dmin - emin)) h * h + npts (fct * (dmin - emin)) h * h) h n := by
    congr 1; ring
  rw [e3]
  have key : uniform (dmin - npts (fct * (dmin - emin)) h * h) h (npts (fct * (dmin - emin)) h) ++ uniform dmin h n ++ uniform (dmin - npts (fct * (dmin - emin)) h * h + ((npts (fct * (dmin - emin)) h + n : Nat) : ℝ) * h) h
          (npts (fct * (emax - dmax)) h) = uniform (dmin - npts (fct * (dmin - emin)) h * h) h (npts (fct * (dmin - emin)) h + n + npts (fct * (emax - dmax)) h) := by
    rw [e4, uniform_append, uniform_append]
  rw [← key]
  simp only [uniform_length]
  rfl

/-! ### Interpolation -/

theorem pyInt_nonneg {x : ℝ} (h : 0 ≤ x) : pyInt x = ⌊x⌋ := by simp [pyInt, h]

/-- Outside of the window. -/
theorem interpIdx_out {x h : ℝ} {n : Nat} (hn : 2 ≤ n) {Ek : ℝ} (he : Ek < x ∨ x + ((n : ℝ) - 1) * h < Ek) :
    interpIdx (uniform x h n) Ek = .ok none := by
  unfold interpIdx
  have g0 := uniform_get (x := x) (h := h) (n := n) (i := 0) (by omega)
  rw [show ((0 : Nat) : Int) = 0 by rfl] at g0
  rw [g0, uniform_last (by omega)]
  simp only [py_bind_ok]
  rw [if_pos (by simpa using he)]
  rfl

/-- Inside: the interval that contains the energy. -/
theorem interpIdx_in {x h : ℝ} {n : Nat} (hn : 2 ≤ n) (hh : 0 < h) {Ek : ℝ} (h1 : x ≤ Ek)
    (h2 : Ek ≤ x + ((n : ℝ) - 1) * h) :
    ∃ i : Nat, i + 1 < n ∧ interpIdx (uniform x h n) Ek = .ok (some ((i : Int), (i : Int) + 1)) ∧
      x + i * h ≤ Ek ∧ Ek ≤ x + ((i : ℝ) + 1) * h ∧ (i + 2 < n → Ek < x + ((i : ℝ) + 1) * h) := by
  have g0 := uniform_get (x := x) (h := h) (n := n) (i := 0) (by omega)
  have g1 := uniform_get (x := x) (h := h) (n := n) (i := 1) (by omega)
  rw [show ((1 : Nat) : Int) = 1 by rfl] at g1
  rw [show ((0 : Nat) : Int) = 0 by rfl] at g0
  have hst : x + ((1 : Nat) : ℝ) * h - (x + ((0 : Nat) : ℝ) * h) = h := by push_cast; ring
  obtain ⟨y, hy⟩ : ∃ y, y = (Ek - x) / h := ⟨_, rfl⟩
  have hEk : Ek = x + y * h := by rw [hy]; field_simp; ring
  have hy0 : 0 ≤ y := by rw [hy]; exact div_nonneg (by linarith) hh.le
  have hyn : y ≤ (n : ℝ) - 1 := by
    rw [hy, div_le_iff₀ hh]; linarith
  have hfl := Int.floor_nonneg.2 hy0
  obtain ⟨k, hk⟩ : ∃ k : Nat, ⌊y⌋ = (k : Int) := ⟨⌊y⌋.toNat, (Int.toNat_of_nonneg hfl).symm⟩
  have hk1 : (k : ℝ) ≤ y := by
    have := Int.floor_le y
    rw [hk] at this
    exact_mod_cast this
  have hk2 : y < (k : ℝ) + 1 := by
    have := Int.lt_floor_add_one y
    rw [hk] at this
    exact_mod_cast this
  have hkn : k + 1 ≤ n := by
    have : (k : ℝ) ≤ (n : ℝ) - 1 := hk1.trans hyn
    have : ((k + 1 : Nat) : ℝ) ≤ n := by push_cast; linarith
    exact_mod_cast this
  have hidx : interpIdx (uniform x h n) Ek = .ok (some ((if (k : Int) + 1 = (n : Int) then (k : Int) + 1 - 1 else (k : Int) + 1) - 1,
      if (k : Int) + 1 = (n : Int) then (k : Int) + 1 - 1 else (k : Int) + 1)) := by
    unfold interpIdx
    rw [g0, uniform_last (by omega), g1]
    simp only [py_bind_ok]
    rw [if_neg (by push Not; constructor <;> (push_cast; linarith)), hst, if_neg hh.ne']
    have : (Ek - (x + ((0 : Nat) : ℝ) * h)) / h = y := by rw [hy]; congr 1; push_cast; ring
    rw [this, pyInt_nonneg hy0, hk]
    simp
  by_cases hlast : k + 1 = n
  · refine ⟨k - 1, by omega, ?_, ?_, ?_, fun h' => by omega⟩
    · rw [hidx]
      have : (k : Int) + 1 = (n : Int) := by omega
      simp only [this, if_true]
      congr 3 <;> omega
    · have : ((k - 1 : Nat) : ℝ) = (k : ℝ) - 1 := by rw [Nat.cast_sub (by omega)]; simp
      rw [this, hEk]; nlinarith
    · have : ((k - 1 : Nat) : ℝ) = (k : ℝ) - 1 := by rw [Nat.cast_sub (by omega)]; simp
      have hyk : y ≤ k := by
        have : (n : ℝ) = (k : ℝ) + 1 := by exact_mod_cast hlast.symm
        linarith
      rw [this, hEk]; nlinarith
  · refine ⟨k, by omega, ?_, ?_, ?_, fun _ => ?_⟩
    · rw [hidx]
      have : ¬ (k : Int) + 1 = (n : Int) := by omega
      simp only [this, if_false]
      congr 3; omega
    · rw [hEk]; nlinarith
    · rw [hEk]; nlinarith
    · rw [hEk]; nlinarith

/-- Linear interpolation as a weighted mean. -/
theorem lin_eq {x h : ℝ} (hh : 0 < h) (i : ℝ) (fa fb : ℂ) (Ek : ℝ) :
    lin (x + i * h) (x + (i + 1) * h) fa fb Ek
      = (1 - ((Ek - (x + i * h)) / h : ℝ)) * fa + ((Ek - (x + i * h)) / h : ℝ) * fb := by
  have hc : (h : ℂ) ≠ 0 := by exact_mod_cast hh.ne'
  have e : ((x + (i + 1) * h : ℝ) : ℂ) - ((x + i * h : ℝ) : ℂ) = h := by push_cast; ring
  unfold lin
  rw [e]
  push_cast
  field_simp
  ring

end VN2

end

end Verif
