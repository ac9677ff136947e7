import Verif.Lemmas.Sz
import Mathlib.Data.Nat.Choose.Basic
import Mathlib.Data.Finset.Prod
import Mathlib.Data.Finset.Card
import Mathlib.Tactic.Ring
import Mathlib.Tactic.Linarith

/-! Numbers of states of given charge and spin. -/

namespace Verif

theorem filter_range_length (N : Nat) (p : Nat → Bool) :
    ((List.range N).filter p).length = ((Finset.range N).filter (fun x => p x = true)).card := by
  have : ((Finset.range N).filter (fun x => p x = true))
      = ((List.range N).filter p).toFinset := by
    ext x; simp
  rw [this, List.toFinset_card_of_nodup (List.nodup_range.filter _)]

/-- Number of states with given charge. -/
theorem count_charge (n c : Nat) :
    ((List.range (2 ^ n)).filter fun x => decide (charge n x = c)).length = n.choose c := by
  have hch : ∀ n x, x < 2 ^ n → charge n x = (bitsN n x).sum := fun n x h => charge_eq_sum_bitsN h
  have e : ∀ n c, ((List.range (2 ^ n)).filter fun x => decide (charge n x = c)).length
      = ((List.range (2 ^ n)).filter fun x => decide ((bitsN n x).sum = c)).length := by
    intro n c
    congr 1
    apply List.filter_congr
    intro x hx
    rw [hch n x (by simpa using hx)]
  rw [e]
  induction n generalizing c with
  | zero => cases c <;> simp [bitsN]
  | succ n ih =>
    rw [show 2 ^ (n + 1) = 2 ^ n + 2 ^ n by ring, List.range_add, List.filter_append,
      List.length_append, List.filter_map, List.length_map]
    have h0 : ((List.range (2 ^ n)).filter fun x => decide ((bitsN (n + 1) x).sum = c))
        = (List.range (2 ^ n)).filter fun x => decide ((bitsN n x).sum = c) := by
      apply List.filter_congr
      intro x hx
      have hx' : x < 2 ^ n := by simpa using hx
      rw [bitsN_succ_top, Nat.div_eq_of_lt hx']
      simp
    have h1 : ((List.range (2 ^ n)).filter
          ((fun x => decide ((bitsN (n + 1) x).sum = c)) ∘ fun x => 2 ^ n + x))
        = (List.range (2 ^ n)).filter fun x => decide (1 + (bitsN n x).sum = c) := by
      apply List.filter_congr
      intro x hx
      have hx' : x < 2 ^ n := by simpa using hx
      simp only [Function.comp]
      rw [bitsN_succ_top, Nat.add_div_left _ (by positivity), Nat.div_eq_of_lt hx',
        ← bitsN_mod n (2 ^ n + x), Nat.add_mod_left, bitsN_mod]
      simp
    rw [h0, h1, ih]
    cases c with
    | zero =>
      have : ((List.range (2 ^ n)).filter fun x => decide (1 + (bitsN n x).sum = 0)) = [] := by
        simp
      rw [this]; simp
    | succ c =>
      have : ((List.range (2 ^ n)).filter fun x => decide (1 + (bitsN n x).sum = c + 1))
          = (List.range (2 ^ n)).filter fun x => decide ((bitsN n x).sum = c) := by
        apply List.filter_congr
        intro x _
        have : (1 + (bitsN n x).sum = c + 1) ↔ ((bitsN n x).sum = c) := by omega
        simp [this]
      rw [this, ih, Nat.choose_succ_succ, Nat.add_comm]

theorem upCount_eq {m x : Nat} (h : x < 2 ^ (m + m)) : upCount (m + m) x = charge m (x / 2 ^ m) := by
  unfold upCount
  rw [show (m + m) / 2 = m by omega, bitsN_add, List.take_append_of_le_length (by simp),
    List.take_of_length_le (by simp), charge_eq_sum_bitsN]
  rw [Nat.div_lt_iff_lt_mul (by positivity), ← Nat.pow_add]
  exact h

theorem dnCount_eq {m x : Nat} : dnCount (m + m) x = charge m (x % 2 ^ m) := by
  unfold dnCount
  rw [show (m + m) / 2 = m by omega, bitsN_add, List.drop_append_of_le_length (by simp),
    List.drop_of_length_le (by simp), charge_eq_sum_bitsN (Nat.mod_lt _ (by positivity)), bitsN_mod]
  simp

/-- Number of states with given numbers of electrons in the two halves. -/
theorem count_up_dn (m u d : Nat) :
    ((List.range (2 ^ (m + m))).filter
      fun x => decide (upCount (m + m) x = u ∧ dnCount (m + m) x = d)).length
      = m.choose u * m.choose d := by
  rw [← count_charge m u, ← count_charge m d, filter_range_length, filter_range_length,
    filter_range_length, ← Finset.card_product]
  have hp : 0 < 2 ^ m := by positivity
  apply Finset.card_bij (fun x _ => (x / 2 ^ m, x % 2 ^ m))
  · intro x hx
    simp only [Finset.mem_filter, Finset.mem_range, decide_eq_true_eq] at hx
    simp only [Finset.mem_product, Finset.mem_filter, Finset.mem_range, decide_eq_true_eq]
    refine ⟨⟨?_, ?_⟩, Nat.mod_lt _ hp, ?_⟩
    · rw [Nat.div_lt_iff_lt_mul hp, ← Nat.pow_add]; exact hx.1
    · rw [← upCount_eq hx.1]; exact hx.2.1
    · rw [← dnCount_eq]; exact hx.2.2
  · intro x _ y _ hxy
    simp only [Prod.mk.injEq] at hxy
    rw [← Nat.div_add_mod x (2 ^ m), ← Nat.div_add_mod y (2 ^ m), hxy.1, hxy.2]
  · rintro ⟨a, b⟩ hab
    simp only [Finset.mem_product, Finset.mem_filter, Finset.mem_range, decide_eq_true_eq] at hab
    obtain ⟨⟨ha, hau⟩, hb, hbd⟩ := hab
    have hx : a * 2 ^ m + b < 2 ^ (m + m) := by
      rw [Nat.pow_add]
      calc a * 2 ^ m + b < a * 2 ^ m + 2 ^ m := by omega
        _ = (a + 1) * 2 ^ m := by ring
        _ ≤ 2 ^ m * 2 ^ m := Nat.mul_le_mul_right _ ha
    have h1 : (a * 2 ^ m + b) / 2 ^ m = a := by
      rw [Nat.mul_comm, Nat.mul_add_div hp, Nat.div_eq_of_lt hb, Nat.add_zero]
    have h2 : (a * 2 ^ m + b) % 2 ^ m = b := by
      rw [Nat.mul_comm, Nat.mul_add_mod, Nat.mod_eq_of_lt hb]
    refine ⟨a * 2 ^ m + b, ?_, by rw [h1, h2]⟩
    simp only [Finset.mem_filter, Finset.mem_range, decide_eq_true_eq]
    exact ⟨hx, by rw [upCount_eq hx, h1]; exact hau, by rw [dnCount_eq, h2]; exact hbd⟩

/-- Length of the `k`-th `sz` sector of charge `c`. -/
def szLen (n c k : Nat) : Nat :=
  (n / 2).choose ((c - n / 2) + k) * (n / 2).choose (c - ((c - n / 2) + k))

theorem szL_cell_length (n c k : Nat) (hn : n % 2 = 0) (hc : c ≤ n) (hk : k ≤ szW n c) :
    ((List.range (2 ^ n)).filter fun x => decide (charge n x = c ∧ szPos n x = k)).length
      = szLen n c k := by
  obtain ⟨m, rfl⟩ : ∃ m, n = m + m := ⟨n / 2, by omega⟩
  unfold szLen
  rw [show (m + m) / 2 = m by omega, ← count_up_dn]
  congr 1
  apply List.filter_congr
  intro x hx
  have hx' : x < 2 ^ (m + m) := by simpa using hx
  have h1 := up_add_dn hx'
  have h2 := upCount_le (m + m) x
  have h3 := dnCount_le (m + m) x hn
  unfold szW at hk
  unfold szPos
  apply decide_eq_decide.2
  omega

theorem szLen_symm (n c k : Nat) (hn : n % 2 = 0) (hc : c ≤ n) (hk : k ≤ szW n c) :
    szLen n c (szW n c - k) = szLen n c k := by
  unfold szLen szW at *
  rw [Nat.mul_comm]
  congr 2 <;> omega

theorem choose_logconcave (m u v : Nat) (h : u < v) :
    m.choose u * m.choose (v + 1) ≤ m.choose (u + 1) * m.choose v := by
  have h1 : m.choose (u + 1) * (u + 1) = m.choose u * (m - u) := Nat.choose_succ_right_eq m u
  have h2 : m.choose (v + 1) * (v + 1) = m.choose v * (m - v) := Nat.choose_succ_right_eq m v
  rcases Nat.lt_or_ge m (v + 1) with hm | hm
  · rw [Nat.choose_eq_zero_of_lt hm]; simp
  · have h3 : (m - v) * (u + 1) ≤ (m - u) * (v + 1) := by
      apply Nat.mul_le_mul <;> omega
    apply Nat.le_of_mul_le_mul_right (c := (u + 1) * (v + 1)) _ (by positivity)
    calc m.choose u * m.choose (v + 1) * ((u + 1) * (v + 1))
        = m.choose u * (u + 1) * (m.choose (v + 1) * (v + 1)) := by ring
      _ = m.choose u * m.choose v * ((m - v) * (u + 1)) := by rw [h2]; ring
      _ ≤ m.choose u * m.choose v * ((m - u) * (v + 1)) := Nat.mul_le_mul_left _ h3
      _ = m.choose u * (m - u) * m.choose v * (v + 1) := by ring
      _ = m.choose (u + 1) * m.choose v * ((u + 1) * (v + 1)) := by rw [← h1]; ring

theorem szLen_mono (n c k : Nat) (hn : n % 2 = 0) (hc : c ≤ n) (hk : 2 * (k + 1) ≤ szW n c) :
    szLen n c k ≤ szLen n c (k + 1) := by
  unfold szLen szW at *
  have := choose_logconcave (n / 2) ((c - n / 2) + k) (c - ((c - n / 2) + (k + 1))) (by omega)
  have e : c - ((c - n / 2) + (k + 1)) + 1 = c - ((c - n / 2) + k) := by omega
  rw [e] at this
  rw [show (c - n / 2) + (k + 1) = (c - n / 2) + k + 1 by omega]
  exact this

end Verif
