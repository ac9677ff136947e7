import Verif.Model.Hilbert
import Verif.Spec.Hilbert
import Verif.Lemmas.PV
import Verif.Lemmas.Py
import Mathlib.RingTheory.RootsOfUnity.Complex

/-!
The Hilbert transform by Fourier transformation is the Hilbert transform of the broken line through the values.
-/

namespace Verif

open Finset

noncomputable section

/-! ### Fourier transformation -/

/-- The sum of the powers of a root of unity. -/
theorem sum_root {m : Nat} (hm : 0 < m) (a : ℤ) :
    ∑ k ∈ range m, Complex.exp (2 * Real.pi * Complex.I * a * k / m) = if (m : ℤ) ∣ a then (m : ℂ) else 0 := by
  have hm' : (m : ℂ) ≠ 0 := by exact_mod_cast hm.ne'
  have hp := Complex.isPrimitiveRoot_exp m hm.ne'
  set ζ := Complex.exp (2 * Real.pi * Complex.I / m) with hζ
  have e : ∀ k : ℕ, Complex.exp (2 * Real.pi * Complex.I * a * k / m) = (ζ ^ a) ^ k := by
    intro k
    rw [hζ, ← Complex.exp_int_mul, ← Complex.exp_nat_mul]
    congr 1
    ring
  simp only [e]
  split
  · rename_i h
    rw [(hp.zpow_eq_one_iff_dvd a).2 h]
    simp
  · rename_i h
    have h1 : ζ ^ a ≠ 1 := fun h' => h ((hp.zpow_eq_one_iff_dvd a).1 h')
    rw [geom_sum_eq h1, ← zpow_natCast, ← zpow_mul, mul_comm, zpow_mul, zpow_natCast, hp.pow_eq_one, one_zpow, sub_self, zero_div]

theorem getD_map_range {α : Type} (d : α) (f : Nat → α) {m k : Nat} (h : k < m) : ((List.range m).map f).getD k d = f k := by
  simp [List.getD, h]

theorem getD_zipWith {f g : List ℂ} {k : Nat} (hf : k < f.length) (hg : k < g.length) :
    (List.zipWith (· * ·) f g).getD k 0 = f.getD k 0 * g.getD k 0 := by
  simp [List.getD, hf, hg]

/-- The product of Fourier transforms belongs to the periodic convolution. -/
theorem fft_conv {x g : List ℂ} {m : Nat} (hm : 0 < m) (hx : x.length = m) (hg : g.length = m) :
    ∃ X G r, fft x = .ok X ∧ fft g = .ok G ∧ G.length = m ∧ ifft (List.zipWith (· * ·) X G) = .ok r ∧ r.length = m ∧
      ∀ l < m, r.getD l 0 = ∑ j ∈ range m, ∑ p ∈ range m, if (m : ℤ) ∣ (l : ℤ) - j - p then x.getD j 0 * g.getD p 0 else 0 := by
  have hm' : (m : ℂ) ≠ 0 := by exact_mod_cast hm.ne'
  refine ⟨_, _, _, by unfold fft; rw [if_neg (by omega)], by unfold fft; rw [if_neg (by omega)], by simp [hg],
    by unfold ifft; rw [if_neg (by simp [hx, hg]; omega)], by simp [hx, hg], ?_⟩
  intro l hl
  rw [getD_map_range _ _ (by simp [hx, hg]; omega)]
  have hlen : (List.zipWith (· * ·) ((List.range x.length).map fun k : Nat =>
      ∑ j ∈ range x.length, x.getD j 0 * Complex.exp (-2 * Real.pi * Complex.I * j * k / x.length))
      ((List.range g.length).map fun k : Nat =>
      ∑ j ∈ range g.length, g.getD j 0 * Complex.exp (-2 * Real.pi * Complex.I * j * k / g.length))).length = m := by
    simp [hx, hg]
  rw [hlen]
  have e : ∀ k ∈ range m, (List.zipWith (· * ·) ((List.range x.length).map fun k : Nat =>
      ∑ j ∈ range x.length, x.getD j 0 * Complex.exp (-2 * Real.pi * Complex.I * j * k / x.length))
      ((List.range g.length).map fun k : Nat =>
      ∑ j ∈ range g.length, g.getD j 0 * Complex.exp (-2 * Real.pi * Complex.I * j * k / g.length))).getD k 0 *
      Complex.exp (2 * Real.pi * Complex.I * k * l / m) =
      ∑ j ∈ range m, ∑ p ∈ range m, x.getD j 0 * g.getD p 0 *
        Complex.exp (2 * Real.pi * Complex.I * ((l : ℤ) - j - p : ℤ) * k / m) := by
    intro k hk
    have hk := mem_range.1 hk
    rw [getD_zipWith (by simp [hx, hk]) (by simp [hg, hk]), getD_map_range _ _ (by omega), getD_map_range _ _ (by omega), hx, hg,
      sum_mul_sum, sum_mul]
    refine sum_congr rfl fun j _ => ?_
    rw [sum_mul]
    refine sum_congr rfl fun p _ => ?_
    rw [show ∀ a b c d e : ℂ, a * b * (c * d) * e = a * c * (b * d * e) by intros; ring, ← Complex.exp_add, ← Complex.exp_add]
    congr 2
    push_cast
    ring
  rw [sum_congr rfl e, sum_comm, mul_sum]
  refine sum_congr rfl fun j _ => ?_
  rw [sum_comm, mul_sum]
  refine sum_congr rfl fun p _ => ?_
  rw [← mul_sum, sum_root hm]
  split
  · field_simp
  · simp

/-! ### The kernel -/

/-- The weight of the value at a distance of `d` points. -/
def htWeight (d : ℤ) : ℝ :=
  ((d : ℝ) + 1) * Real.log (d + 1) - 2 * (d * Real.log d) + ((d : ℝ) - 1) * Real.log (d - 1)

theorem htWeight_neg (d : ℤ) : htWeight (-d) = -htWeight d := by
  unfold htWeight
  push_cast
  rw [show (-(d : ℝ) + 1) = -(d - 1) by ring, show (-(d : ℝ) - 1) = -(d + 1) by ring, Real.log_neg_eq_log, Real.log_neg_eq_log,
    Real.log_neg_eq_log]
  ring

theorem htWeight_zero : htWeight 0 = 0 := by simp [htWeight]

theorem pyRange_one (n : Nat) : pyRange 1 n 1 = (List.range (n - 1)).map fun k : Nat => ((k + 1 : ℕ) : Int) := by
  unfold pyRange
  have : (((n : Int) - 1 + 1 - 1) / 1).toNat = n - 1 := by omega
  rw [this]
  refine List.map_congr_left fun k _ => ?_
  push_cast
  ring

theorem foldlM_range_map {α β : Type} (f : Nat → β) (step : α → β → Py α) (s : α) (t : Nat) :
    ((List.range (t + 1)).map f).foldlM step s = (((List.range t).map f).foldlM step s >>= fun a => step a (f t)) := by
  rw [List.range_succ, List.map_append, List.foldlM_append]
  simp

theorem aux_ok (n : Nat) : ∀ t ≤ n, ∃ aux : List ℝ,
    ((List.range t).map fun k : Nat => ((k + 1 : ℕ) : Int)).foldlM (fun aux (i : Int) => pySet aux i ((i : ℝ) * Real.log i))
      (List.replicate (n + 1) (0 : ℝ)) = (.ok aux : Py (List ℝ)) ∧ aux.length = n + 1 ∧
    ∀ k ≤ t, aux[k]? = some ((k : ℝ) * Real.log k) := by
  intro t
  induction t with
  | zero => intro _; exact ⟨_, rfl, by simp, fun k hk => by obtain rfl : k = 0 := (by omega); simp⟩
  | succ t ih =>
    intro ht
    obtain ⟨aux, e, hl, hv⟩ := ih (by omega)
    refine ⟨aux.set (t + 1) (((t + 1 : ℕ) : ℝ) * Real.log (t + 1 : ℕ)), ?_, by simpa using hl, ?_⟩
    · rw [foldlM_range_map, e]
      show pySet aux ((t + 1 : ℕ) : Int) _ = _
      rw [pySet_nat _ _ (by omega)]
      simp
    · intro k hk
      rcases Nat.lt_or_ge k (t + 1) with h | h
      · rw [List.getElem?_set_ne (by omega), hv k (by omega)]
      · obtain rfl : k = t + 1 := by omega
        rw [List.getElem?_set_self (by omega)]

/-- The values of the kernel. -/
theorem fredriksenKer_ok (n : Nat) : ∃ ker, fredriksenKer n = .ok ker ∧ ker.length = 2 * n ∧
    (∀ d < n, ker[d]? = some (htWeight d)) ∧ ∀ d, 1 ≤ d → d < n → ker[2 * n - d]? = some (htWeight (-d)) := by
  obtain ⟨aux, ea, hl, hv⟩ := aux_ok n n le_rfl
  unfold fredriksenKer
  have r1 : pyRange 1 ((n : Int) + 1) 1 = (List.range n).map fun k : Nat => ((k + 1 : ℕ) : Int) := by
    rw [show ((n : Int) + 1) = ((n + 1 : ℕ) : Int) by push_cast; rfl, pyRange_one, Nat.add_sub_cancel]
  rw [r1, ea, pyRange_one]
  show ∃ ker, List.foldlM _ _ _ = Except.ok ker ∧ _
  have main : ∀ t, t + 1 ≤ n → ∃ ker : List ℝ, ((List.range t).map fun k : Nat => ((k + 1 : ℕ) : Int)).foldlM
      (fun (ker : List ℝ) (i : Int) => do
        let a ← pyGet aux (i + 1)
        let b ← pyGet aux i
        let c ← pyGet aux (i - 1)
        let ker ← pySet ker i (a - 2 * b + c)
        let x ← pyGet ker i
        pySet ker (2 * (n : Int) - i) (-x)) (List.replicate (2 * n) 0) = .ok ker ∧ ker.length = 2 * n ∧
      (∀ d ≤ t, ker[d]? = some (htWeight d)) ∧ ∀ d, 1 ≤ d → d ≤ t → ker[2 * n - d]? = some (htWeight (-d)) := by
    intro t
    induction t with
    | zero =>
      intro h
      refine ⟨_, rfl, by simp, fun d hd => ?_, fun d h1 h2 => by omega⟩
      obtain rfl : d = 0 := by omega
      simp [htWeight_zero, List.getElem?_replicate]
      omega
    | succ t ih =>
      intro ht
      obtain ⟨ker, e, hk, h1, h2⟩ := ih (by omega)
      have w : htWeight ((t + 1 : ℕ) : ℤ) = ((t + 2 : ℕ) : ℝ) * Real.log (t + 2 : ℕ) - 2 * (((t + 1 : ℕ) : ℝ) * Real.log (t + 1 : ℕ)) +
          (t : ℝ) * Real.log t := by
        unfold htWeight
        push_cast
        rw [show (t : ℝ) + 1 - 1 = t by ring, show (t : ℝ) + 1 + 1 = t + 2 by ring]
      refine ⟨(ker.set (t + 1) (htWeight (t + 1 : ℕ))).set (2 * n - (t + 1)) (htWeight (-(t + 1 : ℕ))), ?_, by simpa using hk, ?_, ?_⟩
      · rw [foldlM_range_map, e]
        show (do
          let a ← pyGet aux (((t + 1 : ℕ) : Int) + 1)
          let b ← pyGet aux ((t + 1 : ℕ) : Int)
          let c ← pyGet aux (((t + 1 : ℕ) : Int) - 1)
          let ker ← pySet ker ((t + 1 : ℕ) : Int) (a - 2 * b + c)
          let x ← pyGet ker ((t + 1 : ℕ) : Int)
          pySet ker (2 * (n : Int) - ((t + 1 : ℕ) : Int)) (-x)) = _
        have g : ∀ k ≤ n, pyGet aux (k : ℕ) = .ok ((k : ℝ) * Real.log k) := by
          intro k hk
          rw [pyGet_nat _ (by omega : k < aux.length)]
          congr 1
          exact Option.some.inj ((List.getElem?_eq_getElem _).symm.trans (hv k hk))
        rw [show (((t + 1 : ℕ) : Int) + 1) = ((t + 2 : ℕ) : Int) by push_cast; ring, show (((t + 1 : ℕ) : Int) - 1) = (t : ℕ) by push_cast; ring,
          g _ ht, g _ (by omega), g _ (by omega)]
        show (do
          let ker ← pySet ker ((t + 1 : ℕ) : Int) _
          let x ← pyGet ker ((t + 1 : ℕ) : Int)
          pySet ker (2 * (n : Int) - ((t + 1 : ℕ) : Int)) (-x)) = _
        rw [pySet_nat _ _ (by omega), ← w]
        show (do
          let x ← pyGet (ker.set (t + 1) (htWeight (t + 1 : ℕ))) ((t + 1 : ℕ) : Int)
          pySet (ker.set (t + 1) (htWeight (t + 1 : ℕ))) (2 * (n : Int) - ((t + 1 : ℕ) : Int)) (-x)) = _
        rw [pyGet_nat _ (by simp; omega)]
        show pySet _ (2 * (n : Int) - ((t + 1 : ℕ) : Int)) (-_) = _
        rw [show (2 * (n : Int) - ((t + 1 : ℕ) : Int)) = ((2 * n - (t + 1) : ℕ) : Int) by omega, pySet_nat _ _ (by simp; omega),
          List.getElem_set_self, htWeight_neg]
      · intro d hd
        rw [List.getElem?_set_ne (by omega)]
        rcases Nat.lt_or_ge d (t + 1) with h | h
        · rw [List.getElem?_set_ne (by omega), h1 d (by omega)]
        · obtain rfl : d = t + 1 := by omega
          rw [List.getElem?_set_self (by omega)]
      · intro d hd hd'
        rcases Nat.lt_or_ge d (t + 1) with h | h
        · rw [List.getElem?_set_ne (by omega), List.getElem?_set_ne (by omega), h2 d hd (by omega)]
        · obtain rfl : d = t + 1 := by omega
          rw [List.getElem?_set_self (by simp; omega)]
  rcases n with _ | n
  · exact ⟨[], rfl, rfl, fun d hd => by omega, fun d _ hd => by omega⟩
  · obtain ⟨ker, e, h0, h1, h2⟩ := main n le_rfl
    exact ⟨ker, e, h0, fun d hd => h1 d (by omega), fun d hd hd' => h2 d hd (by omega)⟩

/-! ### The transform as a sum -/

theorem kernelFredriksen_eq {n : Nat} (hn : 0 < n) : ∃ g : List ℂ, kernelFredriksen n = fft g ∧ g.length = 2 * n ∧
    (∀ d < n, g.getD d 0 = (htWeight d / Real.pi : ℝ)) ∧
    ∀ d, 1 ≤ d → d < n → g.getD (2 * n - d) 0 = (htWeight (-d) / Real.pi : ℝ) := by
  obtain ⟨ker, e, hl, h1, h2⟩ := fredriksenKer_ok n
  refine ⟨ker.map fun x => ((x / Real.pi : ℝ) : ℂ), ?_, by simpa using hl, ?_, ?_⟩
  · unfold kernelFredriksen fft
    rw [e]
    simp only [bind, Except.bind]
    rw [if_neg (by rw [List.length_map]; omega), if_neg (by rw [List.length_map]; omega)]
    show Except.ok _ = Except.ok _
    congr 1
    simp only [List.length_map, List.map_map]
    refine List.map_congr_left fun k _ => ?_
    show (∑ j ∈ range ker.length, _) / _ = _
    rw [sum_div]
    refine sum_congr rfl fun j hj => ?_
    have hj := mem_range.1 hj
    simp only [List.getD_eq_getElem?_getD, List.getElem?_map, List.getElem?_eq_getElem hj, Option.map_some, Option.getD_some]
    push_cast
    ring
  · intro d hd
    rw [List.getD_eq_getElem?_getD, List.getElem?_map, h1 d hd]
    rfl
  · intro d hd hd'
    rw [List.getD_eq_getElem?_getD, List.getElem?_map, h2 d hd hd']
    rfl

/-- The transform is the sum over all points with weights that depend on the distance; nothing wraps around. -/
theorem hilbert_sum {f : List ℂ} (hf : 0 < f.length) : ∃ ker r, kernelFredriksen f.length = .ok ker ∧ ker.length = 2 * f.length ∧
    hilbertFredriksen f none = .ok r ∧ hilbertFredriksen f (some ker) = .ok r ∧ r.length = f.length ∧
    ∀ i < f.length, r.getD i 0 = ∑ j ∈ range f.length, f.getD j 0 * (htWeight ((i : ℤ) - j) / Real.pi : ℝ) := by
  obtain ⟨g, eg, hg, g1, g2⟩ := kernelFredriksen_eq hf
  set n := f.length with hn
  obtain ⟨X, G, r, hX, hG, lG, hr, lr, key⟩ := fft_conv (x := f ++ List.replicate n 0) (g := g) (m := 2 * n) (by omega)
    (by simp [← hn]; omega) hg
  have some_ok : hilbertFredriksen f (some G) = .ok (r.take n) := by
    unfold hilbertFredriksen
    show (if G.length < f.length then (Except.error PyErr.value : Py (List ℂ)) else _) = _
    rw [if_neg (by omega), lG, ← hn, show 2 * n - n = n by omega, hX]
    show (do
      let r ← ifft (List.zipWith (· * ·) X G)
      pure (r.take n)) = _
    rw [hr]
    rfl
  refine ⟨G, r.take n, by rw [eg, hG], lG, ?_, some_ok, by simp [lr]; omega, ?_⟩
  · rw [← some_ok]
    unfold hilbertFredriksen
    show (do
      let ker ← kernelFredriksen f.length
      _) = _
    rw [← hn, eg, hG]
    rfl
  · intro i hi
    have e1 : (r.take n).getD i 0 = r.getD i 0 := by
      simp [List.getD_eq_getElem?_getD, List.getElem?_take, hi]
    rw [e1, key i (by omega), show 2 * n = n + n by ring, sum_range_add]
    have z : ∑ j ∈ range n, ∑ p ∈ range (n + n), (if ((2 * n : ℕ) : ℤ) ∣ (i : ℤ) - ((n + j : ℕ) : ℤ) - p then
        (f ++ List.replicate n 0).getD (n + j) 0 * g.getD p 0 else 0) = 0 := by
      refine sum_eq_zero fun j hj => sum_eq_zero fun p _ => ?_
      have : (f ++ List.replicate n (0 : ℂ)).getD (n + j) 0 = 0 := by
        rw [List.getD_eq_getElem?_getD, List.getElem?_append_right (by omega), List.getElem?_replicate]
        split <;> rfl
      rw [this, zero_mul, ite_self]
    rw [show 2 * n = n + n by ring] at z
    rw [z, add_zero]
    refine sum_congr rfl fun j hj => ?_
    have hj := mem_range.1 hj
    have fj : (f ++ List.replicate n (0 : ℂ)).getD j 0 = f.getD j 0 := by
      rw [List.getD_eq_getElem?_getD, List.getElem?_append_left (by omega), List.getD_eq_getElem?_getD]
    rw [fj]
    rcases Nat.lt_or_ge i j with h | h
    · rw [sum_eq_single_of_mem (2 * n - (j - i)) (mem_range.2 (by omega))]
      · rw [if_pos ⟨-1, by push_cast; omega⟩, g2 (j - i) (by omega) (by omega), show (-((j - i : ℕ) : ℤ)) = (i : ℤ) - j by omega]
      · intro p hp hne
        have := mem_range.1 hp
        rw [if_neg]
        rintro ⟨c, hc⟩
        push_cast at hc
        have : c = -1 := by
          have h1 : c < 0 := by nlinarith
          have h2 : -2 < c := by nlinarith
          omega
        subst this
        omega
    · rw [sum_eq_single_of_mem (i - j) (mem_range.2 (by omega))]
      · rw [if_pos ⟨0, by omega⟩, g1 (i - j) (by omega), show ((i - j : ℕ) : ℤ) = (i : ℤ) - j by omega]
      · intro p hp hne
        have := mem_range.1 hp
        rw [if_neg]
        rintro ⟨c, hc⟩
        push_cast at hc
        have : c = 0 := by
          have h1 : c < 1 := by nlinarith
          have h2 : -1 < c := by nlinarith
          omega
        subst this
        omega

/-! ### The weights are principal values -/

open MeasureTheory

theorem hat_cont : Continuous hat := by unfold hat; fun_prop

theorem hat_nonneg (x : ℝ) : 0 ≤ hat x := le_max_left _ _

theorem hat_le_one (x : ℝ) : |hat x| ≤ 1 := by
  rw [abs_of_nonneg (hat_nonneg x)]
  unfold hat
  exact max_le zero_le_one (by linarith [abs_nonneg x])

theorem hat_zero {x : ℝ} (h : 1 ≤ |x|) : hat x = 0 := by unfold hat; exact max_eq_left (by linarith)

theorem hat_left {x : ℝ} (h : -1 ≤ x) (h' : x ≤ 0) : hat x = 1 + x := by
  unfold hat; rw [abs_of_nonpos h']; rw [max_eq_right (by linarith)]; ring

theorem hat_right {x : ℝ} (h : 0 ≤ x) (h' : x ≤ 1) : hat x = 1 - x := by
  unfold hat; rw [abs_of_nonneg h, max_eq_right (by linarith)]

theorem hat_neg (x : ℝ) : hat (-x) = hat x := by unfold hat; rw [abs_neg]

/-- Away from its tip the triangle over a pole at another grid point stays bounded. -/
theorem hat_bounded {d : ℤ} (hd : d ≠ 0) (x : ℝ) : |hat x / (x - d)| ≤ 1 := by
  rw [abs_div, abs_of_nonneg (hat_nonneg x)]
  refine div_le_one_of_le₀ ?_ (abs_nonneg _)
  have h1 : (1 : ℝ) ≤ |(d : ℝ)| := by exact_mod_cast Int.one_le_abs hd
  have h2 : |(d : ℝ)| ≤ |x| + |x - d| := by
    have := abs_sub x (x - d)
    rwa [sub_sub_cancel] at this
  unfold hat
  exact max_le (abs_nonneg _) (by linarith)

theorem ae_ne (α : ℝ) : ∀ᵐ x : ℝ, x ≠ α := by
  rw [ae_iff]; simp

theorem int_lin {a b c α : ℝ} (h : c = 0 ∨ α ∉ Set.uIcc a b) (s : ℝ) :
    ∫ x in a..b, (s + c / (x - α)) = s * (b - a) + c * (Real.log (b - α) - Real.log (a - α)) := by
  rcases h with rfl | h
  · simp [mul_comm]
  · have hne : ∀ x ∈ Set.uIcc a b, x - α ≠ 0 := fun x hx e => h (by rwa [sub_eq_zero.1 e] at hx)
    have i1 : IntervalIntegrable (fun x => c / (x - α)) volume a b := by
      refine ContinuousOn.intervalIntegrable ?_
      exact continuousOn_const.div (by fun_prop) hne
    rw [intervalIntegral.integral_add intervalIntegrable_const i1, intervalIntegral.integral_const]
    have e : ∀ x, c / (x - α) = c * (1 / (x - α)) := fun x => by ring
    simp only [e]
    rw [intervalIntegral.integral_const_mul, intervalIntegral.integral_comp_sub_right (fun x => 1 / x) α, integral_one_div,
      Real.log_div (hne b Set.right_mem_uIcc) (hne a Set.left_mem_uIcc), smul_eq_mul]
    · ring
    · intro h0
      refine h ?_
      rw [Set.mem_uIcc] at h0 ⊢
      rcases h0 with h0 | h0
      · left; constructor <;> linarith [h0.1, h0.2]
      · right; constructor <;> linarith [h0.1, h0.2]

/-- The integral of a triangle. -/
theorem int_hat {d : ℤ} (hd : d ≠ 0) : ∫ x in (-1 : ℝ)..1, hat x / (x - d) = -htWeight d := by
  have hm : Measurable fun x => hat x / (x - d) := hat_cont.measurable.div (by fun_prop)
  have hi : ∀ a b, IntervalIntegrable (fun x => hat x / (x - d)) volume a b := fun a b => int_of_bound hm (hat_bounded hd) a b
  rw [← intervalIntegral.integral_add_adjacent_intervals (hi (-1) 0) (hi 0 1)]
  have e1 : ∫ x in (-1 : ℝ)..0, hat x / (x - d) = ∫ x in (-1 : ℝ)..0, (1 + (1 + (d : ℝ)) / (x - d)) := by
    refine intervalIntegral.integral_congr_ae ?_
    filter_upwards [ae_ne (d : ℝ)] with x hx hmem
    rw [Set.uIoc_of_le (by norm_num)] at hmem
    rw [hat_left hmem.1.le hmem.2]
    have := sub_ne_zero.2 hx
    field_simp
    ring
  have e2 : ∫ x in (0 : ℝ)..1, hat x / (x - d) = ∫ x in (0 : ℝ)..1, (-1 + (1 - (d : ℝ)) / (x - d)) := by
    refine intervalIntegral.integral_congr_ae ?_
    filter_upwards [ae_ne (d : ℝ)] with x hx hmem
    rw [Set.uIoc_of_le (by norm_num)] at hmem
    rw [hat_right hmem.1.le hmem.2]
    have := sub_ne_zero.2 hx
    field_simp
    ring
  have c1 : 1 + (d : ℝ) = 0 ∨ (d : ℝ) ∉ Set.uIcc (-1 : ℝ) 0 := by
    by_cases h : d = -1
    · left; rw [h]; norm_num
    · right
      rw [Set.uIcc_of_le (by norm_num)]
      rintro ⟨h1, h2⟩
      have h1 : -1 ≤ d := by exact_mod_cast h1
      have h2 : d ≤ 0 := by exact_mod_cast h2
      omega
  have c2 : 1 - (d : ℝ) = 0 ∨ (d : ℝ) ∉ Set.uIcc (0 : ℝ) 1 := by
    by_cases h : d = 1
    · left; rw [h]; norm_num
    · right
      rw [Set.uIcc_of_le (by norm_num)]
      rintro ⟨h1, h2⟩
      have h1 : 0 ≤ d := by exact_mod_cast h1
      have h2 : d ≤ 1 := by exact_mod_cast h2
      omega
  rw [e1, e2, int_lin c1, int_lin c2]
  unfold htWeight
  rw [show (0 : ℝ) - d = -d by ring, show (-1 : ℝ) - d = -(d + 1) by ring, show (1 : ℝ) - d = -(d - 1) by ring,
    Real.log_neg_eq_log, Real.log_neg_eq_log, Real.log_neg_eq_log]
  ring

theorem int_support {g : ℝ → ℝ} (hg : ∀ a b, IntervalIntegrable g volume a b) (hz : ∀ x, 1 ≤ |x| → g x = 0) {a b : ℝ}
    (ha : a ≤ -1) (hb : 1 ≤ b) : ∫ x in a..b, g x = ∫ x in (-1 : ℝ)..1, g x := by
  rw [← intervalIntegral.integral_add_adjacent_intervals (hg a (-1)) (hg (-1) b),
    ← intervalIntegral.integral_add_adjacent_intervals (hg (-1) 1) (hg 1 b)]
  have z1 : ∫ x in a..(-1), g x = 0 := by
    rw [intervalIntegral.integral_congr (g := fun _ => (0 : ℝ))]
    · simp
    · intro x hx
      rw [Set.uIcc_of_le ha] at hx
      exact hz x (by rw [abs_of_nonpos (by linarith [hx.2])]; linarith [hx.2])
  have z2 : ∫ x in (1 : ℝ)..b, g x = 0 := by
    rw [intervalIntegral.integral_congr (g := fun _ => (0 : ℝ))]
    · simp
    · intro x hx
      rw [Set.uIcc_of_le hb] at hx
      exact hz x (by rw [abs_of_nonneg (by linarith [hx.1])]; linarith [hx.1])
  rw [z1, z2]
  ring

theorem pv_hat {a b : ℝ} (d : ℤ) (ha : a ≤ -1) (hb : 1 ≤ b) : PV (fun x => hat x / (x - d)) a b d (-htWeight d) := by
  by_cases hd : d = 0
  · subst hd
    rw [htWeight_zero, neg_zero]
    unfold PV
    refine tendsto_const_nhds.congr' ?_
    filter_upwards [self_mem_nhdsWithin] with ε hε
    have hc := fun a b => cutInt_pole hat_cont.measurable hat_le_one a b ((0 : ℤ) : ℝ) ε hε
    have e := int_support (g := cut (fun x => hat x / (x - ((0 : ℤ) : ℝ))) ((0 : ℤ) : ℝ) ε) hc (fun x hx => by
      unfold cut; dsimp only; rw [hat_zero hx, zero_div, ite_self]) ha hb
    have odd : ∫ x in (-1 : ℝ)..1, cut (fun x => hat x / (x - ((0 : ℤ) : ℝ))) ((0 : ℤ) : ℝ) ε x = 0 := by
      have h1 := intervalIntegral.integral_comp_neg (a := -1) (b := 1) fun x => cut (fun x => hat x / (x - ((0 : ℤ) : ℝ))) ((0 : ℤ) : ℝ) ε x
      rw [neg_neg] at h1
      have h2 : ∀ x, cut (fun x => hat x / (x - ((0 : ℤ) : ℝ))) ((0 : ℤ) : ℝ) ε (-x) =
          -cut (fun x => hat x / (x - ((0 : ℤ) : ℝ))) ((0 : ℤ) : ℝ) ε x := by
        intro x
        unfold cut
        simp only [Int.cast_zero, sub_zero, abs_neg, hat_neg, div_neg]
        split <;> simp
      simp only [h2, intervalIntegral.integral_neg] at h1
      linarith
    exact (e.trans odd).symm
  · have hm : Measurable fun x => hat x / (x - d) := hat_cont.measurable.div (by fun_prop)
    have hi : ∀ a b, IntervalIntegrable (fun x => hat x / (x - d)) volume a b := fun a b => int_of_bound hm (hat_bounded hd) a b
    have := pv_bounded hm (hat_bounded hd) a b (d : ℝ)
    rwa [int_support hi (fun x hx => by rw [hat_zero hx, zero_div]) ha hb, int_hat hd] at this

theorem pv_sum {g : Nat → ℝ → ℝ} {I : Nat → ℝ} {a b α : ℝ} (n : Nat) (h : ∀ j < n, PV (g j) a b α (I j))
    (hc : ∀ j < n, CutInt (g j) a b α) :
    PV (fun x => ∑ j ∈ range n, g j x) a b α (∑ j ∈ range n, I j) ∧ CutInt (fun x => ∑ j ∈ range n, g j x) a b α := by
  induction n with
  | zero =>
    simp only [range_zero, sum_empty]
    have := pv_bounded (g := fun _ => 0) measurable_const (K := 0) (fun _ => by simp) a b α
    rw [intervalIntegral.integral_zero] at this
    exact ⟨this, cutInt_bounded (f := fun _ => 0) measurable_const (K := 0) (fun _ => by simp) a b α⟩
  | succ n ih =>
    obtain ⟨h1, h2⟩ := ih (fun j hj => h j (by omega)) fun j hj => hc j (by omega)
    simp only [sum_range_succ]
    refine ⟨h1.add (h n (by omega)) h2 (hc n (by omega)), ?_⟩
    intro ε hε
    refine ((h2 ε hε).add (hc n (by omega) ε hε)).congr ?_
    intro x _
    show cut _ α ε x + cut _ α ε x = cut _ α ε x
    unfold cut
    split <;> simp

/-- The weighted sum is the principal value for the broken line. -/
theorem pv_broken (f : List ℝ) {i : Nat} (hi : i < f.length) (e : ℝ) {h : ℝ} (hh : 0 < h) :
    PV (fun x => 1 / Real.pi * (broken e h f x / (e + i * h - x))) (e - h) (e + f.length * h) (e + i * h)
      (∑ j ∈ range f.length, f.getD j 0 * (htWeight ((i : ℤ) - j) / Real.pi)) := by
  have hp : ∀ j < f.length, PV (fun y => hat (y - j) / (y - i)) (-1) f.length i (-htWeight ((i : ℤ) - j)) := by
    intro j hj
    have := (pv_hat (a := -1 - j) (b := f.length - j) ((i : ℤ) - j) (by linarith [Nat.cast_nonneg (α := ℝ) j]) (by
      have : ((j + 1 : ℕ) : ℝ) ≤ f.length := by exact_mod_cast hj
      push_cast at this
      linarith)).scale one_pos (j : ℝ)
    simp only [one_mul, div_one, sub_add_cancel] at this
    push_cast at this
    simp only [sub_add_cancel] at this
    refine this.congr fun y _ _ => ?_
    congr 1
    ring
  have hc : ∀ j < f.length, CutInt (fun y => hat (y - j) / (y - i)) (-1) f.length i := fun j _ =>
    cutInt_pole (f := fun y => hat (y - j)) (hat_cont.measurable.comp (by fun_prop)) (fun x => hat_le_one _) _ _ _
  obtain ⟨main, _⟩ := pv_sum f.length (g := fun j y => (-(f.getD j 0 / (Real.pi * h))) * (hat (y - j) / (y - i)))
    (I := fun j => (-(f.getD j 0 / (Real.pi * h))) * -htWeight ((i : ℤ) - j))
    (fun j hj => (hp j hj).smul _) fun j hj => (hc j hj).smul _
  have := main.scale hh e
  have e1 : h * (-1) + e = e - h := by ring
  have e2 : h * (f.length : ℝ) + e = e + f.length * h := by ring
  have e3 : h * (i : ℝ) + e = e + i * h := by ring
  rw [e1, e2, e3] at this
  have hpi := Real.pi_ne_zero
  have e4 : h * ∑ j ∈ range f.length, -(f.getD j 0 / (Real.pi * h)) * -htWeight ((i : ℤ) - j) =
      ∑ j ∈ range f.length, f.getD j 0 * (htWeight ((i : ℤ) - j) / Real.pi) := by
    rw [mul_sum]
    exact sum_congr rfl fun j _ => by field_simp
  rw [e4] at this
  refine this.congr fun x _ hx => ?_
  unfold broken
  rw [sum_div, mul_sum]
  refine sum_congr rfl fun j _ => ?_
  have h1 : (e + i * h - x) ≠ 0 := fun h => hx (by linarith)
  have h2 : ((x - e) / h - i) = -(e + i * h - x) / h := by field_simp; ring
  rw [h2]
  field_simp

/-! ### C86 -/

/-- The broken line goes through the values. -/
theorem broken_at {e h : ℝ} (hh : 0 < h) (f : List ℝ) {i : Nat} (hi : i < f.length) : broken e h f (e + i * h) = f.getD i 0 := by
  unfold broken
  have e1 : (e + i * h - e) / h = i := by field_simp; ring
  rw [e1, sum_eq_single_of_mem i (mem_range.2 hi)]
  · rw [sub_self]; unfold hat; simp
  · intro j _ hj
    rw [hat_zero, mul_zero]
    have : (1 : ℤ) ≤ |(i : ℤ) - j| := Int.one_le_abs (by omega)
    exact_mod_cast this

/-- Between two points it is the straight line. -/
theorem broken_between {e h : ℝ} (hh : 0 < h) (f : List ℝ) {i : Nat} (hi : i + 1 < f.length) {t : ℝ} (h0 : 0 ≤ t) (h1 : t ≤ 1) :
    broken e h f (e + (i + t) * h) = (1 - t) * f.getD i 0 + t * f.getD (i + 1) 0 := by
  unfold broken
  have e1 : (e + (i + t) * h - e) / h = i + t := by field_simp; ring
  rw [e1, sum_eq_add_of_mem i (i + 1) (mem_range.2 (by omega)) (mem_range.2 hi) (by omega)]
  · rw [hat_right (x := (i : ℝ) + t - i) (by linarith) (by linarith), hat_left (x := (i : ℝ) + t - ((i + 1 : ℕ) : ℝ)) (by push_cast; linarith) (by push_cast; linarith)]
    push_cast
    ring
  · rintro j _ ⟨hj, hj'⟩
    rw [hat_zero, mul_zero]
    rcases Nat.lt_or_ge i j with h | h
    · have : ((i + 2 : ℕ) : ℝ) ≤ j := by exact_mod_cast (by omega : i + 2 ≤ j)
      push_cast at this
      rw [abs_of_nonpos (by linarith)]
      linarith
    · have : ((j + 1 : ℕ) : ℝ) ≤ i := by exact_mod_cast (by omega : j + 1 ≤ i)
      push_cast at this
      rw [abs_of_nonneg (by linarith)]
      linarith

/-- Zeros at both ends do not change the broken line. -/
theorem broken_pad (e : ℝ) {h : ℝ} (hh : 0 < h) (L R : Nat) (f : List ℝ) (x : ℝ) :
    broken e h (List.replicate L 0 ++ f ++ List.replicate R 0) x = broken (e + L * h) h f x := by
  unfold broken
  have hl : (List.replicate L (0 : ℝ) ++ f ++ List.replicate R 0).length = L + f.length + R := by simp; omega
  rw [hl, sum_range_add, sum_range_add]
  have z1 : ∑ j ∈ range L, (List.replicate L (0 : ℝ) ++ f ++ List.replicate R 0).getD j 0 * hat ((x - e) / h - j) = 0 := by
    refine sum_eq_zero fun j hj => ?_
    have hj := mem_range.1 hj
    rw [List.getD_eq_getElem?_getD, List.append_assoc, List.getElem?_append_left (by simpa using hj), List.getElem?_replicate]
    simp [hj]
  have z3 : ∑ j ∈ range R, (List.replicate L (0 : ℝ) ++ f ++ List.replicate R 0).getD (L + f.length + j) 0 *
      hat ((x - e) / h - (L + f.length + j : ℕ)) = 0 := by
    refine sum_eq_zero fun j hj => ?_
    have hj := mem_range.1 hj
    rw [List.getD_eq_getElem?_getD, List.getElem?_append_right (by simp), List.getElem?_replicate]
    simp [hj]
  rw [z1, z3, zero_add, add_zero]
  refine sum_congr rfl fun j hj => ?_
  have hj := mem_range.1 hj
  rw [List.getD_eq_getElem?_getD, List.append_assoc, List.getElem?_append_right (by simp), List.length_replicate, Nat.add_sub_cancel_left,
    List.getElem?_append_left hj, ← List.getD_eq_getElem?_getD]
  congr 2
  push_cast
  field_simp
  ring

/-- **C86**, `hilbert_fredriksen` gives the Hilbert transform of the broken line through the values, at the points of any
equidistant grid. -/
theorem c86_hilbert {f : List ℂ} (hf : 0 < f.length) : ∃ r, hilbertFredriksen f none = .ok r ∧ r.length = f.length ∧
    ∀ i < f.length, ∀ e h : ℝ, 0 < h → IsHilbert e h f (e - h) (e + f.length * h) (e + i * h) (r.getD i 0) := by
  obtain ⟨ker, r, _, _, h1, _, h2, h3⟩ := hilbert_sum hf
  refine ⟨r, h1, h2, fun i hi e h hh => ?_⟩
  have p1 := pv_broken (f.map Complex.re) (i := i) (by simpa using hi) e hh
  have p2 := pv_broken (f.map Complex.im) (i := i) (by simpa using hi) e hh
  rw [List.length_map] at p1 p2
  have g : ∀ (φ : ℂ → ℝ), φ 0 = 0 → ∀ j ∈ range f.length, (f.map φ).getD j 0 = φ (f.getD j 0) := by
    intro φ _ j hj
    have hj := mem_range.1 hj
    simp [List.getD_eq_getElem?_getD, List.getElem?_eq_getElem hj]
  unfold IsHilbert
  rw [h3 i hi, Complex.re_sum, Complex.im_sum]
  rw [sum_congr rfl fun j hj => by rw [g Complex.re rfl j hj]] at p1
  rw [sum_congr rfl fun j hj => by rw [g Complex.im rfl j hj]] at p2
  simp only [Complex.re_mul_ofReal, Complex.im_mul_ofReal]
  exact ⟨p1, p2⟩

/-- Transform of a padded row with the kernel of the right size. -/
theorem hilbert_pad (p : HtPars) {f : List ℂ} {N : Nat} (hN : N = f.length + p.left + p.right) (h0 : 0 < N) {k : List ℂ}
    (hk : kernelFredriksen N = .ok k) : ∃ r, hilbertFredriksen (p.pad f) (some k) = .ok r ∧ r.length = N ∧
      ∀ i < N, ∀ e h : ℝ, 0 < h → IsHilbert e h f (e - (p.left + 1) * h) (e + (f.length + p.right : ℕ) * h)
        (e + ((i : ℝ) - p.left) * h) (r.getD i 0) := by
  have hl : (p.pad f).length = N := by unfold HtPars.pad; simp; omega
  obtain ⟨r, h1, h2, h3⟩ := c86_hilbert (f := p.pad f) (by omega)
  refine ⟨r, ?_, by omega, fun i hi e h hh => ?_⟩
  · rw [← h1]
    unfold hilbertFredriksen
    rw [hl, hk]
    rfl
  · have := h3 i (by omega) (e - p.left * h) h hh
    have hpad : ∀ φ : ℂ → ℝ, φ 0 = 0 → ∀ x, broken (e - p.left * h) h ((p.pad f).map φ) x = broken e h (f.map φ) x := by
      intro φ hφ x
      unfold HtPars.pad
      rw [List.map_append, List.map_append, List.map_replicate, List.map_replicate, hφ, broken_pad _ hh, sub_add_cancel]
    unfold IsHilbert at this ⊢
    simp only [hpad Complex.re rfl, hpad Complex.im rfl] at this
    rw [show e - p.left * h - h = e - (p.left + 1) * h by ring, hl,
      show e - p.left * h + N * h = e + (f.length + p.right : ℕ) * h by rw [hN]; push_cast; ring,
      show e - p.left * h + i * h = e + ((i : ℝ) - p.left) * h by ring] at this
    exact this

/-- The stored kernel, if there is one, was made by `kernel_fredriksen` (for a grid of any size). -/
def HtPars.Made (p : HtPars) : Prop := ∀ k, p.ker = some k → ∃ n, kernelFredriksen n = .ok k

theorem kernelFredriksen_length {n : Nat} {k : List ℂ} (h : kernelFredriksen n = .ok k) : k.length = 2 * n ∧ 0 < n := by
  rcases Nat.eq_zero_or_pos n with rfl | hn
  · exact absurd (show (Except.error PyErr.value : Py (List ℂ)) = .ok k from h) (by simp)
  · obtain ⟨g, e, hg, _⟩ := kernelFredriksen_eq hn
    rw [e] at h
    unfold fft at h
    rw [if_neg (by omega)] at h
    obtain rfl := Except.ok.inj h
    exact ⟨by simpa using hg, hn⟩

theorem kernelFredriksen_ok {n : Nat} (hn : 0 < n) : ∃ k, kernelFredriksen n = .ok k := by
  obtain ⟨g, e, hg, _⟩ := kernelFredriksen_eq hn
  rw [e]
  unfold fft
  rw [if_neg (by omega)]
  exact ⟨_, rfl⟩

theorem makeKer_ok {p : HtPars} (hp : p.Made) {N : Nat} (h0 : 0 < N) : ∃ k, p.makeKer N = .ok { p with ker := some k } ∧
    kernelFredriksen N = .ok k := by
  obtain ⟨k, hk⟩ := kernelFredriksen_ok h0
  unfold HtPars.makeKer
  rcases hker : p.ker with _ | k'
  · refine ⟨k, ?_, hk⟩
    dsimp only
    rw [hk]
    rfl
  · dsimp only
    obtain ⟨n, hn⟩ := hp k' hker
    have hl := (kernelFredriksen_length hn).1
    by_cases h : 2 * N ≠ k'.length
    · refine ⟨k, ?_, hk⟩
      rw [if_pos h, hk]
      rfl
    · rw [if_neg h]
      obtain rfl : N = n := by omega
      refine ⟨k', ?_, hn⟩
      rw [← hker]
      rfl

theorem mapM_map_ok {α β : Type} (f : α → Py β) (g : α → β) : ∀ l : List α, (∀ a ∈ l, f a = .ok (g a)) → l.mapM f = .ok (l.map g)
  | [], _ => rfl
  | a :: l, h => by
    rw [List.mapM_cons, h a (by simp), mapM_map_ok f g l fun b hb => h b (by simp [hb])]
    rfl

/-- **C86**, the Hilbert transforms of the first order density matrix. The rows `phi` are given on a grid of `len` points
with the first point `e` and the distance `h`; the result is given on the extended grid. A kernel left over from a grid of
another size is not used. -/
theorem c86_phi1k {len : Nat} {phi : List (List ℂ)} {p : HtPars} (hp : p.Made) (hlen : ∀ f ∈ phi, f.length = len)
    (h0 : 0 < len + p.left + p.right) : ∃ hphi p',
      getHtransfPhi1k len phi p =
        .ok ((phi.map fun f => List.replicate p.left 0 ++ f ++ List.replicate p.right 0, hphi), p') ∧
      p'.Made ∧ p'.left = p.left ∧ p'.right = p.right ∧ hphi.length = phi.length ∧
      ∀ c < phi.length, (hphi.getD c []).length = len + p.left + p.right ∧ ∀ i < len + p.left + p.right, ∀ e h : ℝ, 0 < h →
        IsHilbert e h (phi.getD c []) (e - (p.left + 1) * h) (e + (len + p.right : ℕ) * h) (e + ((i : ℝ) - p.left) * h)
          ((hphi.getD c []).getD i 0) := by
  obtain ⟨k, hk, hk'⟩ := makeKer_ok hp h0
  have key : ∀ f ∈ phi, ∃ r, hilbertFredriksen (p.pad f) (some k) = .ok r ∧ r.length = len + p.left + p.right ∧
      ∀ i < len + p.left + p.right, ∀ e h : ℝ, 0 < h → IsHilbert e h f (e - (p.left + 1) * h) (e + (len + p.right : ℕ) * h)
        (e + ((i : ℝ) - p.left) * h) (r.getD i 0) := by
    intro f hf
    have := hilbert_pad p (f := f) (N := len + p.left + p.right) (by rw [hlen f hf]) h0 hk'
    rwa [hlen f hf] at this
  choose! r h1 h2 h3 using key
  refine ⟨phi.map r, { p with ker := some k }, ?_, ?_, rfl, rfl, by simp, ?_⟩
  · unfold getHtransfPhi1k
    rw [hk]
    show (do
      let h ← (phi.map p.pad).mapM fun f => hilbertFredriksen f (some k)
      pure ((phi.map p.pad, h), ({ p with ker := some k } : HtPars))) = _
    rw [List.mapM_map, mapM_map_ok ((fun f => hilbertFredriksen f (some k)) ∘ p.pad) r phi fun f hf => h1 f hf]
    rfl
  · intro k1 hk1
    obtain rfl := Option.some.inj hk1
    exact ⟨_, hk'⟩
  · intro c hc
    have e : (phi.map r).getD c [] = r phi[c] := by simp [List.getD_eq_getElem?_getD, hc]
    have e' : phi.getD c [] = phi[c] := by simp [List.getD_eq_getElem?_getD, hc]
    rw [e, e']
    exact ⟨h2 _ (List.getElem_mem hc), h3 _ (List.getElem_mem hc)⟩

/-- **C86**, the Hilbert transforms of the occupation: the real part is the transform, the imaginary part minus the
value. -/
theorem c86_fk {len : Nat} {fk : List (List ℝ)} {p : HtPars} (hp : p.Made) (hlen : ∀ f ∈ fk, f.length = len)
    (h0 : 0 < len + p.left + p.right) : ∃ hfk p',
      getHtransfFk len fk p = .ok ((fk.map fun f => List.replicate p.left 0 ++ f.map Complex.ofReal ++ List.replicate p.right 0, hfk), p') ∧
      p'.Made ∧ p'.left = p.left ∧ p'.right = p.right ∧ hfk.length = fk.length ∧
      ∀ c < fk.length, (hfk.getD c []).length = len + p.left + p.right ∧ ∀ i < len + p.left + p.right,
        ((hfk.getD c []).getD i 0).im = -(List.replicate p.left 0 ++ fk.getD c [] ++ List.replicate p.right 0).getD i 0 ∧
        ∀ e h : ℝ, 0 < h → PV (fun x => 1 / Real.pi * (broken e h (fk.getD c []) x / (e + ((i : ℝ) - p.left) * h - x)))
          (e - (p.left + 1) * h) (e + (len + p.right : ℕ) * h) (e + ((i : ℝ) - p.left) * h) ((hfk.getD c []).getD i 0).re := by
  obtain ⟨k, hk, hk'⟩ := makeKer_ok hp h0
  have key : ∀ f ∈ fk, ∃ r, hilbertFredriksen (p.pad (f.map Complex.ofReal)) (some k) = .ok r ∧ r.length = len + p.left + p.right ∧
      ∀ i < len + p.left + p.right, ∀ e h : ℝ, 0 < h → IsHilbert e h (f.map Complex.ofReal) (e - (p.left + 1) * h)
        (e + (len + p.right : ℕ) * h) (e + ((i : ℝ) - p.left) * h) (r.getD i 0) := by
    intro f hf
    have := hilbert_pad p (f := f.map Complex.ofReal) (N := len + p.left + p.right) (by rw [List.length_map, hlen f hf]) h0 hk'
    rwa [List.length_map, hlen f hf] at this
  choose! r h1 h2 h3 using key
  refine ⟨fk.map fun f => List.zipWith (fun (z x : ℂ) => (z.re : ℂ) - Complex.I * x) (r f) (p.pad (f.map Complex.ofReal)),
    { p with ker := some k }, ?_, ?_, rfl, rfl, by simp, ?_⟩
  · unfold getHtransfFk
    rw [hk]
    show (do
      let h ← (fk.map fun f : List ℝ => p.pad (f.map Complex.ofReal)).mapM fun f => (do
        let r ← hilbertFredriksen f (some k)
        pure (List.zipWith (fun (z x : ℂ) => (z.re : ℂ) - Complex.I * x) r f) : Py (List ℂ))
      pure ((fk.map fun f : List ℝ => p.pad (f.map Complex.ofReal), h), ({ p with ker := some k } : HtPars))) = _
    rw [List.mapM_map, mapM_map_ok (_ ∘ _) (fun f => List.zipWith (fun (z x : ℂ) => (z.re : ℂ) - Complex.I * x) (r f) (p.pad (f.map Complex.ofReal))) fk
      fun f hf => by show (hilbertFredriksen _ _ >>= _) = _; rw [h1 f hf]; rfl]
    rfl
  · intro k1 hk1
    obtain rfl := Option.some.inj hk1
    exact ⟨_, hk'⟩
  · intro c hc
    have e' : fk.getD c [] = fk[c] := by simp [List.getD_eq_getElem?_getD, hc]
    have hm := List.getElem_mem hc
    have hpl : (p.pad (fk[c].map Complex.ofReal)).length = len + p.left + p.right := by
      unfold HtPars.pad; simp [hlen _ hm]; omega
    have e : (fk.map fun f => List.zipWith (fun (z x : ℂ) => (z.re : ℂ) - Complex.I * x) (r f) (p.pad (f.map Complex.ofReal))).getD c [] =
        List.zipWith (fun (z x : ℂ) => (z.re : ℂ) - Complex.I * x) (r fk[c]) (p.pad (fk[c].map Complex.ofReal)) := by
      simp [List.getD_eq_getElem?_getD, hc]
    rw [e, e']
    refine ⟨by simp [h2 _ hm, hpl], fun i hi => ?_⟩
    have hr : i < (r fk[c]).length := by rw [h2 _ hm]; exact hi
    have hx : i < (p.pad (fk[c].map Complex.ofReal)).length := by rw [hpl]; exact hi
    have ez : (List.zipWith (fun (z x : ℂ) => (z.re : ℂ) - Complex.I * x) (r fk[c]) (p.pad (fk[c].map Complex.ofReal))).getD i 0 =
        (((r fk[c]).getD i 0).re : ℂ) - Complex.I * (p.pad (fk[c].map Complex.ofReal)).getD i 0 := by
      simp [List.getD_eq_getElem?_getD, hr, hx]
    have ep : p.pad (fk[c].map Complex.ofReal) = (List.replicate p.left (0 : ℝ) ++ fk[c] ++ List.replicate p.right 0).map Complex.ofReal := by
      unfold HtPars.pad; simp
    have ev : (p.pad (fk[c].map Complex.ofReal)).getD i 0 =
        (((List.replicate p.left (0 : ℝ) ++ fk[c] ++ List.replicate p.right 0).getD i 0 : ℝ) : ℂ) := by
      rw [ep] at hx ⊢
      rw [List.length_map] at hx
      rw [List.getD_eq_getElem?_getD, List.getElem?_map, List.getD_eq_getElem?_getD, List.getElem?_eq_getElem hx]
      rfl
    rw [ez, ev]
    refine ⟨by simp, fun e h hh => ?_⟩
    have := (h3 _ hm i hi e h hh).1
    rw [List.map_map, show Complex.re ∘ Complex.ofReal = id by ext; simp, List.map_id] at this
    simpa using this

/-- **C86**, `prepare_distribution`: the arrays for occupied states have the Fermi function and its transform, the ones
for empty states those of one minus the Fermi function. -/
theorem c86_distribution (grid : List ℝ) (leads : List (ℝ × ℝ)) {p : HtPars} (hp : p.Made) (h0 : 0 < grid.length + p.left + p.right) :
    ∃ fkp hfkp fkm hfkm p', prepareDistribution grid leads p = .ok (((fkp, hfkp), (fkm, hfkm)), p') ∧ p'.Made ∧
      IsExtended grid.length p.left p.right (leads.map fun l => grid.map fun E => 1 / (Real.exp ((E - l.1) / l.2) + 1)) fkp hfkp ∧
      IsExtended grid.length p.left p.right (leads.map fun l => grid.map fun E => 1 - 1 / (Real.exp ((E - l.1) / l.2) + 1)) fkm hfkm := by
  obtain ⟨h1, p1, g1, m1, l1, r1, n1, k1⟩ := c86_fk (len := grid.length)
    (fk := leads.map fun l => grid.map fun E => 1 / (Real.exp ((E - l.1) / l.2) + 1)) hp (by
      intro f hf; obtain ⟨l, _, rfl⟩ := List.mem_map.1 hf; simp) h0
  obtain ⟨h2, p2, g2, m2, l2, r2, n2, k2⟩ := c86_fk (len := grid.length)
    (fk := leads.map fun l => grid.map fun E => 1 - 1 / (Real.exp ((E - l.1) / l.2) + 1)) m1 (by
      intro f hf; obtain ⟨l, _, rfl⟩ := List.mem_map.1 hf; simp) (by omega)
  rw [l1, r1] at g2 k2
  refine ⟨_, h1, _, h2, p2, ?_, m2, ⟨rfl, n1, fun c hc => (k1 c hc).1, fun c hc i hi => ((k1 c hc).2 i hi).1, fun c hc i hi => ((k1 c hc).2 i hi).2⟩,
    ⟨rfl, n2, fun c hc => (k2 c hc).1, fun c hc i hi => ((k2 c hc).2 i hi).1, fun c hc i hi => ((k2 c hc).2 i hi).2⟩⟩
  unfold prepareDistribution
  dsimp only
  rw [g1]
  show (do
    let (b, p) ← getHtransfFk grid.length (List.map (fun f : List ℝ => f.map fun x => 1 - x) _) p1
    pure ((_, b), p)) = _
  have e : List.map (fun f : List ℝ => f.map fun x => 1 - x)
      (leads.map fun l => grid.map fun E => 1 / (Real.exp ((E - l.1) / l.2) + 1)) =
      leads.map fun l => grid.map fun E => 1 - 1 / (Real.exp ((E - l.1) / l.2) + 1) := by
    rw [List.map_map]
    refine List.map_congr_left fun l _ => ?_
    show List.map _ (List.map _ grid) = _
    rw [List.map_map]
    rfl
  rw [e, g2]
  rfl

/-- A kernel left over from a grid of another size, two leads, points added on both sides. -/
example : ∃ p : HtPars, p.Made ∧ p.ker ≠ none ∧ p.left = 2 ∧ p.right = 1 ∧ (∀ f ∈ [[(1 : ℂ), Complex.I], [2, 3]], f.length = 2) ∧
    0 < 2 + p.left + p.right := by
  obtain ⟨k, hk⟩ := kernelFredriksen_ok (n := 7) (by omega)
  refine ⟨⟨2, 1, some k⟩, fun k' h => ⟨7, by rw [hk, Option.some.inj h]⟩, by simp, rfl, rfl, by simp, by norm_num⟩

/-- The weights are not zero. -/
example : htWeight 1 = 2 * Real.log 2 := by
  unfold htWeight
  norm_num

end

end Verif
