import Verif.Lemmas.Tables

/-! Spin projections: closed form of `construct_szlst`. -/

namespace Verif

/-- Electrons in the first half of the orbitals. -/
def upCount (n x : Nat) : Nat := ((bitsN n x).take (n / 2)).sum
/-- Electrons in the second half of the orbitals. -/
def dnCount (n x : Nat) : Nat := ((bitsN n x).drop (n / 2)).sum

/-- Number of `sz` sectors minus one. -/
def szW (n c : Nat) : Nat := min c (n - c)

/-- Position of the `sz` sector of state `x`. -/
def szPos (n x : Nat) : Nat := upCount n x - (charge n x - n / 2)

theorem up_add_dn {n x : Nat} (h : x < 2 ^ n) : upCount n x + dnCount n x = charge n x := by
  rw [charge_eq_sum_bitsN h]
  unfold upCount dnCount
  rw [← List.sum_append, List.take_append_drop]

theorem upCount_le (n x : Nat) : upCount n x ≤ n / 2 := by
  unfold upCount
  have := sum_le_length (l := (bitsN n x).take (n / 2))
    fun d hd => bitsN_lt_two (List.mem_of_mem_take hd)
  simp at this; omega

theorem dnCount_le (n x : Nat) (hn : n % 2 = 0) : dnCount n x ≤ n / 2 := by
  unfold dnCount
  have := sum_le_length (l := (bitsN n x).drop (n / 2))
    fun d hd => bitsN_lt_two (List.mem_of_mem_drop hd)
  simp at this; omega

theorem szMax_nat (n c : Nat) (h : c ≤ n) : szMax c n = (szW n c : Nat) := by
  unfold szMax szW; omega

theorem szrange_eq (n c : Nat) (h : c ≤ n) :
    szrange c n = (List.range (szW n c + 1)).map fun (k : Nat) => -(szW n c : Int) + 2 * k := by
  unfold szrange pyRange
  rw [szMax_nat n c h]
  congr 2
  omega

theorem szToInd_range (n c k : Nat) (h : c ≤ n) :
    szToInd (-(szW n c : Int) + 2 * k) c n = (k : Nat) := by
  unfold szToInd
  rw [szMax_nat n c h]
  have : (szW n c : Int) + (-(szW n c : Int) + 2 * k) = 2 * k := by omega
  rw [this]
  rw [Int.mul_comm, Int.mul_tdiv_cancel _ (by decide)]

/-- The code's list position of a state is `szPos`. -/
theorem szToInd_state {n x : Nat} (hn : n % 2 = 0) (h : x < 2 ^ n) :
    szToInd ((upCount n x : Int) - dnCount n x) (charge n x : Nat) n = (szPos n x : Nat) := by
  have h1 := up_add_dn h
  have h2 := upCount_le n x
  have h3 := dnCount_le n x hn
  unfold szToInd
  rw [szMax_nat n _ (charge_le h)]
  unfold szPos szW
  have : ((min (charge n x) (n - charge n x) : Nat) : Int) + ((upCount n x : Int) - dnCount n x)
      = 2 * ((upCount n x - (charge n x - n / 2) : Nat) : Int) := by omega
  rw [this, Int.mul_comm, Int.mul_tdiv_cancel _ (by decide)]

theorem szPos_lt {n x : Nat} (hn : n % 2 = 0) (h : x < 2 ^ n) :
    szPos n x < szW n (charge n x) + 1 := by
  have h1 := up_add_dn h
  have h2 := upCount_le n x
  have h3 := dnCount_le n x hn
  unfold szPos szW
  omega

/-- `sz` expressed by the position, and conversely. -/
theorem szPos_sz {n x : Nat} (hn : n % 2 = 0) (h : x < 2 ^ n) :
    (upCount n x : Int) - dnCount n x = -(szW n (charge n x) : Int) + 2 * (szPos n x : Int) := by
  have h1 := up_add_dn h
  have h2 := upCount_le n x
  have h3 := dnCount_le n x hn
  unfold szPos szW
  omega

theorem code_up {n x : Nat} (h : x < 2 ^ n) :
    ((integerToBinarylist x n).take (n / 2)).sum = upCount n x := by
  unfold upCount
  rcases Nat.eq_zero_or_pos n with h0 | h0
  · subst h0; simp
  · rw [integerToBinarylist_eq h0 h]

theorem code_dn {n x : Nat} (h : x < 2 ^ n) :
    (((integerToBinarylist x n).take n).drop (n / 2)).sum = dnCount n x := by
  unfold dnCount
  rcases Nat.eq_zero_or_pos n with h0 | h0
  · subst h0; simp [bitsN]
  · rw [integerToBinarylist_eq h0 h, List.take_of_length_le (by simp)]

theorem emptySzlst_eq (n : Nat) : emptySzlst n
    = (List.range (n + 1)).map fun c => (List.range (szW n c + 1)).map fun _ => [] := by
  unfold emptySzlst
  apply List.map_congr_left
  intro c hc
  rw [szrange_eq n c (by simp at hc; omega)]
  simp [Function.comp_def]

/-! ### Canonical tables, for the states kept by a predicate -/

/-- Lin indices by charge, states satisfying `p`. -/
def chL (n : Nat) (p : Nat → Bool) : List (List Nat) :=
  (List.range (n + 1)).map fun c =>
    (List.range (2 ^ n)).filter fun x => p x && decide (charge n x = c)

/-- Lin indices by charge and `sz`, states satisfying `p`. -/
def szL (n : Nat) (p : Nat → Bool) : List (List (List Nat)) :=
  (List.range (n + 1)).map fun c => (List.range (szW n c + 1)).map fun k =>
    (List.range (2 ^ n)).filter fun x => p x && decide (charge n x = c ∧ szPos n x = k)

theorem constructChargelst_eq (n : Nat) : constructChargelst n = .ok (chL n fun _ => true) := by
  unfold constructChargelst chL
  have h := bucket_fold (n + 1) (charge n) (List.range (2 ^ n))
    (fun x hx => by
      have := charge_le (n := n) (x := x) (by simpa using hx); omega) (fun _ => [])
  rw [show List.replicate (n + 1) [] = (List.range (n + 1)).map (fun _ => ([] : List Nat)) by
    simp [List.map_const']]
  simpa [charge] using h

theorem constructSzlst_eq (n : Nat) (hn : n % 2 = 0) :
    constructSzlst n = .ok (szL n fun _ => true) := by
  unfold constructSzlst szL
  rw [emptySzlst_eq]
  have h := bucket_fold2 (n + 1) (fun c => szW n c + 1) (charge n) (szPos n) (List.range (2 ^ n))
    (fun x hx => by
      have := charge_le (n := n) (x := x) (by simpa using hx); omega)
    (fun x hx => szPos_lt hn (by simpa using hx))
    (fun szlst j1 => do
      let state := integerToBinarylist j1 n
      let charge := state.sum
      let sz : Int := ((state.take (n / 2)).sum : Nat)
        - (((state.take n).drop (n / 2)).sum : Nat)
      let szind := szToInd sz charge n
      let row ← pyGet szlst (charge : Nat)
      let row' ← pyModify row szind (· ++ [j1])
      pySet szlst (charge : Nat) row')
    (by
      intro l x hx
      have hx' : x < 2 ^ n := by simpa using hx
      simp only []
      rw [code_up hx', code_dn hx']
      have := szToInd_state hn hx'
      simp only [charge] at this ⊢
      rw [this])
    (fun _ _ => [])
  simpa using h

/-! ### Counting -/

theorem szL_map_flatten_length (n : Nat) (hn : n % 2 = 0) (p : Nat → Bool) :
    ((szL n p).map List.flatten).map List.length = (chL n p).map List.length := by
  unfold szL chL
  simp only [List.map_map]
  apply List.map_congr_left
  intro c hc
  simp only [Function.comp_def]
  have h1 := flatten_buckets_perm (szW n c + 1) (szPos n)
    ((List.range (2 ^ n)).filter fun x => p x && decide (charge n x = c))
    (List.nodup_range.filter _)
    (by
      intro x hx
      simp only [List.mem_filter, List.mem_range, Bool.and_eq_true, decide_eq_true_eq] at hx
      obtain ⟨hx1, _, hx2⟩ := hx
      have := szPos_lt hn hx1
      rwa [hx2] at this)
  rw [← h1.length_eq]
  congr 2
  apply List.map_congr_left
  intro k _
  rw [List.filter_filter]
  congr 1
  funext x
  by_cases a : charge n x = c <;> by_cases b : szPos n x = k <;> cases h : p x <;> simp [a, b]

theorem chL_flatten_perm (n : Nat) (p : Nat → Bool) :
    (chL n p).flatten.Perm ((List.range (2 ^ n)).filter p) := by
  have h1 := flatten_buckets_perm (n + 1) (charge n) ((List.range (2 ^ n)).filter p)
    (List.nodup_range.filter _)
    (by
      intro x hx
      simp only [List.mem_filter, List.mem_range] at hx
      have := charge_le hx.1; omega)
  refine List.Perm.trans (List.Perm.of_eq ?_) h1
  unfold chL
  congr 1
  apply List.map_congr_left
  intro c _
  rw [List.filter_filter]
  congr 1
  funext x
  cases h : p x <;> simp

theorem mem_szL_flatten (n : Nat) (hn : n % 2 = 0) (p : Nat → Bool) (x : Nat) :
    x ∈ (szL n p).flatten.flatten ↔ x < 2 ^ n ∧ p x = true := by
  unfold szL
  simp only [List.mem_flatten, List.mem_map, List.mem_range]
  constructor
  · rintro ⟨r, ⟨_, ⟨c, hc, rfl⟩, hr⟩, hx⟩
    obtain ⟨k, hk, rfl⟩ := List.mem_map.1 hr
    have := List.mem_filter.1 hx
    simp at this
    exact ⟨this.1, this.2.1⟩
  · rintro ⟨h1, h2⟩
    refine ⟨_, ⟨_, ⟨charge n x, by have := charge_le h1; omega, rfl⟩,
      List.mem_map.2 ⟨szPos n x, by simpa using szPos_lt hn h1, rfl⟩⟩, ?_⟩
    simp [List.mem_filter, h1, h2]

theorem szL_flatten_perm (n : Nat) (hn : n % 2 = 0) (p : Nat → Bool) :
    (szL n p).flatten.flatten.Perm ((List.range (2 ^ n)).filter p) := by
  rw [List.perm_ext_iff_of_nodup _ (List.nodup_range.filter _)]
  · intro x
    rw [mem_szL_flatten n hn]
    simp
  · rw [List.nodup_flatten]
    constructor
    · intro l hl
      obtain ⟨r, hr, hl⟩ := List.mem_flatten.1 hl
      obtain ⟨c, _, rfl⟩ := List.mem_map.1 hr
      obtain ⟨k, _, rfl⟩ := List.mem_map.1 hl
      exact List.nodup_range.filter _
    · rw [List.pairwise_flatten]
      constructor
      · intro r hr
        obtain ⟨c, _, rfl⟩ := List.mem_map.1 hr
        rw [List.pairwise_map]
        refine List.Pairwise.imp ?_ List.nodup_range
        intro a b hab x hx hy
        have h1 := (List.mem_filter.1 hx).2
        have h2 := (List.mem_filter.1 hy).2
        simp at h1 h2
        exact hab (h1.2.2.symm.trans h2.2.2)
      · unfold szL
        rw [List.pairwise_map]
        refine List.Pairwise.imp ?_ List.nodup_range
        intro a b hab l hl l' hl' x hx hy
        obtain ⟨k, _, rfl⟩ := List.mem_map.1 hl
        obtain ⟨k', _, rfl⟩ := List.mem_map.1 hl'
        have h1 := (List.mem_filter.1 hx).2
        have h2 := (List.mem_filter.1 hy).2
        simp at h1 h2
        exact hab (h1.2.1.symm.trans h2.2.1)

end Verif
