import Verif.Model.Indexing
import Verif.Lemmas.Py
import Mathlib.Data.List.Induction

/-! Lemmas on bit lists. -/

namespace Verif

@[simp] theorem py_bind_ok {α β : Type} (a : α) (f : α → Py β) : (Except.ok a >>= f) = f a := rfl
@[simp] theorem py_pure {α : Type} (a : α) : (pure a : Py α) = .ok a := rfl

/-- The `n` low-order binary digits of `x`, most significant first. -/
def bitsN : Nat → Nat → List Nat
  | 0, _ => []
  | n + 1, x => bitsN n (x / 2) ++ [x % 2]

/-- Value of a digit list, most significant first. -/
def bitsVal (l : List Nat) : Nat := l.foldl (fun acc d => 2 * acc + d) 0

@[simp] theorem bitsN_length (n x : Nat) : (bitsN n x).length = n := by
  induction n generalizing x with
  | zero => rfl
  | succ n ih => simp [bitsN, ih]

theorem bitsN_lt_two {n x d : Nat} (h : d ∈ bitsN n x) : d < 2 := by
  induction n generalizing x with
  | zero => simp [bitsN] at h
  | succ n ih =>
    simp only [bitsN, List.mem_append, List.mem_singleton] at h
    rcases h with h | h
    · exact ih h
    · omega

theorem bitsVal_append_singleton (l : List Nat) (d : Nat) :
    bitsVal (l ++ [d]) = 2 * bitsVal l + d := by
  simp [bitsVal, List.foldl_append]

theorem bitsVal_bitsN {n x : Nat} (h : x < 2 ^ n) : bitsVal (bitsN n x) = x := by
  induction n generalizing x with
  | zero => simp [bitsN, bitsVal]; simp at h; omega
  | succ n ih =>
    rw [bitsN, bitsVal_append_singleton, ih (by rw [Nat.pow_succ] at h; omega)]
    omega

theorem bitsVal_lt {l : List Nat} (h : ∀ d ∈ l, d < 2) : bitsVal l < 2 ^ l.length := by
  induction l using List.reverseRecOn with
  | nil => simp [bitsVal]
  | append_singleton l d ih =>
    rw [bitsVal_append_singleton, List.length_append, List.length_singleton, Nat.pow_succ]
    have h1 := ih fun d hd => h d (by simp [hd])
    have h2 := h d (by simp)
    omega

theorem bitsN_bitsVal {l : List Nat} (h : ∀ d ∈ l, d < 2) : bitsN l.length (bitsVal l) = l := by
  induction l using List.reverseRecOn with
  | nil => simp [bitsN]
  | append_singleton l d ih =>
    have h1 := ih fun d hd => h d (by simp [hd])
    have h2 := h d (by simp)
    rw [bitsVal_append_singleton, List.length_append, List.length_singleton, bitsN]
    have e1 : (2 * bitsVal l + d) / 2 = bitsVal l := by omega
    have e2 : (2 * bitsVal l + d) % 2 = d := by omega
    rw [e1, e2, h1]

theorem binDigits_length_le {n x : Nat} (hn : 0 < n) (h : x < 2 ^ n) :
    (binDigits x).length ≤ n := by
  induction n generalizing x with
  | zero => omega
  | succ n ih =>
    unfold binDigits
    split
    · simp
    · rename_i hx
      rcases Nat.eq_zero_or_pos n with h0 | h0
      · subst h0; simp at h; omega
      · have := ih h0 (x := x / 2) (by rw [Nat.pow_succ] at h; omega)
        simp; exact this

theorem integerToBinarylist_eq {n x : Nat} (hn : 0 < n) (h : x < 2 ^ n) :
    integerToBinarylist x n = bitsN n x := by
  induction n generalizing x with
  | zero => omega
  | succ n ih =>
    unfold integerToBinarylist
    unfold binDigits
    split
    · rename_i hx
      -- x < 2
      have : ∀ m, bitsN m 0 = List.replicate m 0 := by
        intro m
        induction m with
        | zero => rfl
        | succ m ihm =>
          rw [bitsN, List.replicate_succ']; simp [ihm]
      have hx2 : x / 2 = 0 := by omega
      have hx3 : x % 2 = x := by omega
      simp [bitsN, hx2, hx3, this]
    · rename_i hx
      rcases Nat.eq_zero_or_pos n with h0 | h0
      · subst h0; simp at h; omega
      · have := ih h0 (x := x / 2) (by rw [Nat.pow_succ] at h; omega)
        rw [bitsN, ← this]
        unfold integerToBinarylist
        simp [← List.append_assoc]

/-- For no single-particle states the code still produces one digit. -/
theorem integerToBinarylist_zero : integerToBinarylist 0 0 = [0] := by
  unfold integerToBinarylist binDigits; simp

/-- The number of electrons in state `x`. -/
def charge (n x : Nat) : Nat := (integerToBinarylist x n).sum

theorem sum_le_length {l : List Nat} (h : ∀ d ∈ l, d < 2) : l.sum ≤ l.length := by
  induction l with
  | nil => simp
  | cons a l ih =>
    have h1 := ih fun d hd => h d (by simp [hd])
    have h2 := h a (by simp)
    simp; omega

theorem charge_le {n x : Nat} (h : x < 2 ^ n) : charge n x ≤ n := by
  unfold charge
  rcases Nat.eq_zero_or_pos n with h0 | h0
  · subst h0; simp at h; subst h; rw [integerToBinarylist_zero]; simp
  · rw [integerToBinarylist_eq h0 h]
    have := sum_le_length (l := bitsN n x) fun d hd => bitsN_lt_two hd
    simpa using this

theorem charge_eq_sum_bitsN {n x : Nat} (h : x < 2 ^ n) : charge n x = (bitsN n x).sum := by
  unfold charge
  rcases Nat.eq_zero_or_pos n with h0 | h0
  · subst h0; simp at h; subst h; rw [integerToBinarylist_zero]; simp [bitsN]
  · rw [integerToBinarylist_eq h0 h]

theorem binarylistToInteger_ok {l : List Nat} (h0 : l ≠ []) (h : ∀ d ∈ l, d < 2) :
    binarylistToInteger l = .ok (bitsVal l) := by
  unfold binarylistToInteger bitsVal
  rw [if_neg h0, if_pos (by simpa using h)]

/-- Splitting at the top bit. -/
theorem bitsN_succ_top (n x : Nat) : bitsN (n + 1) x = (x / 2 ^ n % 2) :: bitsN n x := by
  induction n generalizing x with
  | zero => simp [bitsN]
  | succ n ih =>
    rw [bitsN, ih (x / 2)]
    conv_rhs => rw [bitsN]
    have : x / 2 / 2 ^ n = x / 2 ^ (n + 1) := by
      rw [Nat.div_div_eq_div_mul, Nat.pow_succ, Nat.mul_comm]
    simp [this]

theorem bitsN_add (m n x : Nat) : bitsN (m + n) x = bitsN m (x / 2 ^ n) ++ bitsN n x := by
  induction n generalizing x with
  | zero => simp [bitsN]
  | succ n ih =>
    rw [← Nat.add_assoc, bitsN, ih (x / 2)]
    conv_rhs => rw [bitsN]
    have : x / 2 / 2 ^ n = x / 2 ^ (n + 1) := by
      rw [Nat.div_div_eq_div_mul, Nat.pow_succ, Nat.mul_comm]
    simp [this]

theorem bitsN_mod (n x : Nat) : bitsN n (x % 2 ^ n) = bitsN n x := by
  induction n generalizing x with
  | zero => rfl
  | succ n ih =>
    rw [bitsN, bitsN]
    have e1 : x % 2 ^ (n + 1) % 2 = x % 2 := by
      rw [Nat.mod_mod_of_dvd]; exact ⟨2 ^ n, by rw [Nat.pow_succ, Nat.mul_comm]⟩
    have e2 : x % 2 ^ (n + 1) / 2 = x / 2 % 2 ^ n := by
      rw [Nat.pow_succ, Nat.mul_comm, Nat.mod_mul_right_div_self]
    rw [e1, e2, ih]

end Verif
