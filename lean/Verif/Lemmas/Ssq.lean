import Verif.Lemmas.Count
import Verif.Lemmas.QN

/-! Closed form of `construct_ssqlst`. -/

namespace Verif

/-- Prefix sums. -/
def pre (f : Nat → Nat) (k : Nat) : Nat := ((List.range k).map f).sum

@[simp] theorem pre_zero (f : Nat → Nat) : pre f 0 = 0 := rfl

theorem pre_succ (f : Nat → Nat) (k : Nat) : pre f (k + 1) = pre f k + f k := by
  simp [pre, List.range_succ]

theorem pre_congr {f g : Nat → Nat} {k : Nat} (h : ∀ i, i < k → f i = g i) : pre f k = pre g k := by
  unfold pre
  congr 1
  apply List.map_congr_left
  intro i hi; exact h i (by simpa using hi)

/-- Filling consecutive cells of a focused row with a running counter. -/
theorem seqFill {T β : Type} (embed : List β → T) (m : Nat)
    (step : T × Nat → Nat → Py (T × Nat)) (init : Nat → β) (fill : Nat → Nat → β) (sz : Nat → Nat)
    (h : ∀ c, c < m → ∀ F : Nat → β, F c = init c → ∀ ctr,
      step (embed ((List.range m).map F), ctr) c
        = .ok (embed ((List.range m).map fun c' => if c' = c then fill c ctr else F c'), ctr + sz c))
    (ctr : Nat) :
    (List.range m).foldlM step (embed ((List.range m).map init), ctr)
      = .ok (embed ((List.range m).map fun c => fill c (ctr + pre sz c)), ctr + pre sz m) := by
  have key : ∀ t, t ≤ m → (List.range t).foldlM step (embed ((List.range m).map init), ctr)
      = .ok (embed ((List.range m).map fun c => if c < t then fill c (ctr + pre sz c) else init c),
          ctr + pre sz t) := by
    intro t
    induction t with
    | zero => intro _; simp
    | succ t ih =>
      intro ht
      rw [List.range_succ (n := t), List.foldlM_append, ih (by omega), py_bind_ok,
        List.foldlM_cons, h t (by omega) _ (by simp)]
      simp only [py_bind_ok, List.foldlM_nil, py_pure, pre_succ]
      congr 2
      · congr 1
        apply List.map_congr_left
        intro c _
        by_cases hct : c = t
        · subst hct; simp
        · have : c < t + 1 ↔ c < t := by omega
          simp [hct, this]
      · omega
  rw [key m (le_refl _)]
  congr 3
  apply List.map_congr_left
  intro c hc
  simp at hc
  simp [hc]

theorem enumFrom_map_range (s m : Nat) (R : Nat → List Nat) :
    enumFrom s ((List.range m).map R)
      = (List.range m).map fun c => List.range' (s + pre (fun c => (R c).length) c) (R c).length := by
  induction m with
  | zero => rfl
  | succ m ih =>
    rw [List.range_succ, List.map_append, enumFrom_append, ih, List.map_append]
    congr 1
    simp only [List.map_cons, List.map_nil, enumFrom, List.cons.injEq, and_true]
    congr 1
    simp [totLen, pre, Function.comp_def, List.length_flatten]

theorem enumFrom2_append (s : Nat) (l l' : List (List (List Nat))) :
    enumFrom2 s (l ++ l') = enumFrom2 s l ++ enumFrom2 (s + totLen l.flatten) l' := by
  induction l generalizing s with
  | nil => simp [enumFrom2, totLen]
  | cons r l ih => simp [enumFrom2, ih, totLen, Nat.add_assoc]

theorem totLen_map_range (m : Nat) (R : Nat → List Nat) :
    totLen ((List.range m).map R) = pre (fun c => (R c).length) m := by
  simp [totLen, pre, Function.comp_def, List.length_flatten]

theorem enumFrom2_map_range (s m : Nat) (R : Nat → List (List Nat)) :
    enumFrom2 s ((List.range m).map R)
      = (List.range m).map fun c => enumFrom (s + pre (fun c => totLen (R c)) c) (R c) := by
  induction m with
  | zero => rfl
  | succ m ih =>
    rw [List.range_succ, List.map_append, enumFrom2_append, ih, List.map_append]
    congr 1
    simp only [List.map_cons, List.map_nil, enumFrom2, List.cons.injEq, and_true]
    congr 2
    induction m with
    | zero => rfl
    | succ m ih2 =>
      have := ih2 (by
        have := congrArg (List.take m) ih
        simpa [List.range_succ, enumFrom2_append, List.take_append_of_le_length] using this)
      rw [pre_succ, ← this, List.range_succ]
      simp [totLen]

theorem flatten_range' (s m : Nat) (M : Nat → Nat) :
    ((List.range m).map fun q => List.range' (s + pre M q) (M q)).flatten
      = List.range' s (pre M m) := by
  induction m with
  | zero => rfl
  | succ m ih =>
    rw [List.range_succ, List.map_append, List.flatten_append, ih, pre_succ,
      ← List.range'_append (step := 1)]
    simp

/-! ### Ranges of `ssq` -/

theorem szW_parity {n c : Nat} (hn : n % 2 = 0) (hc : c ≤ n) : szW n c % 2 = c % 2 := by
  unfold szW; omega

theorem ssqrange_par (n c : Nat) (hn : n % 2 = 0) (hc : c ≤ n) :
    ssqrange (c : Nat) ((c % 2 : Nat) : Int) n
      = (List.range (szW n c / 2 + 1)).map fun (k : Nat) => ((c % 2 : Nat) : Int) + 2 * (k : Int) := by
  unfold ssqrange pyRange
  rw [szMax_nat n c hc]
  have h := szW_parity hn hc
  congr 2
  omega

theorem ssqrange_sz (n c k : Nat) (hc : c ≤ n) (hk : k ≤ szW n c) :
    ssqrange (c : Nat) (-(szW n c : Int) + 2 * (k : Int)) n
      = (List.range (min k (szW n c - k) + 1)).map fun (q : Nat) =>
          ((szW n c - 2 * min k (szW n c - k) : Nat) : Int) + 2 * (q : Int) := by
  unfold ssqrange pyRange
  rw [szMax_nat n c hc]
  have e : (((-(szW n c : Int) + 2 * (k : Int)).natAbs : Nat) : Int)
      = ((szW n c - 2 * min k (szW n c - k) : Nat) : Int) := by omega
  rw [e]
  congr 2
  omega

theorem ssqToInd_row (n c k q : Nat) (hk : k ≤ szW n c) :
    ssqToInd (((szW n c - 2 * min k (szW n c - k) : Nat) : Int) + 2 * (q : Int))
      (-(szW n c : Int) + 2 * (k : Int)) = (q : Nat) := by
  unfold ssqToInd
  have e : (((-(szW n c : Int) + 2 * (k : Int)).natAbs : Nat) : Int)
      = ((szW n c - 2 * min k (szW n c - k) : Nat) : Int) := by omega
  rw [e]
  rw [show ((szW n c - 2 * min k (szW n c - k) : Nat) : Int) + 2 * (q : Int)
    - ((szW n c - 2 * min k (szW n c - k) : Nat) : Int) = 2 * (q : Int) by omega,
    Int.mul_comm, Int.mul_tdiv_cancel _ (by decide)]

theorem tdiv_two_nat (a : Nat) : ((a : Int)).tdiv 2 = ((a / 2 : Nat) : Int) := by
  rw [Int.tdiv_eq_ediv_of_nonneg (by omega)]; omega

theorem ssqToInd_zero (a : Nat) : ssqToInd (a : Int) 0 = ((a / 2 : Nat) : Int) := by
  unfold ssqToInd
  simpa using tdiv_two_nat a

/-- Number of multiplets of charge `c` with the `q`-th total spin. -/
def ssqCnt (n c q : Nat) : Int :=
  (szLen n c (szW n c / 2 - q) : Int)
    - ((if q < szW n c / 2 then szLen n c (szW n c / 2 - q - 1) else 0 : Nat) : Int)

/-- A nested list with the shape and row lengths of the `sz` table. -/
structure SzShape (n : Nat) (szlst : List (List (List Nat))) : Prop where
  eq : ∃ R : Nat → Nat → List Nat,
    szlst = (List.range (n + 1)).map (fun c => (List.range (szW n c + 1)).map (R c)) ∧
    ∀ c k, c ≤ n → k ≤ szW n c → (R c k).length = szLen n c k

theorem ssqCount_eq (n : Nat) (hn : n % 2 = 0) (szlst : List (List (List Nat)))
    (hs : SzShape n szlst) :
    ssqCount szlst n = .ok ((List.range (n + 1)).map fun c =>
      (List.range (szW n c / 2 + 1)).map fun q => ssqCnt n c q) := by
  obtain ⟨R, rfl, hR⟩ := hs.eq
  unfold ssqCount
  -- outer loop
  have key : ∀ t, t ≤ n + 1 → (List.range t).foldlM
    (fun ssqcount (j1 : Nat) => do
      let ssqr := ssqrange (j1 : Nat) ((j1 % 2 : Nat) : Int) n
      let lssqr := ssqr.length
      (List.range lssqr).foldlM
        (fun ssqcount (j2 : Nat) => do
          let s ← pyGet ssqr ((lssqr : Int) - j2 - 1)
          let ssqind := ssqToInd s 0
          let row ← pyGet ((List.range (n + 1)).map (fun c => (List.range (szW n c + 1)).map (R c))) (j1 : Nat)
          let x ← pyGet row (j2 : Nat)
          let y ← prevLen row j2
          let crow ← pyGet ssqcount (j1 : Nat)
          let crow' ← pySet crow ssqind ((x.length : Int) - (y : Int))
          pySet ssqcount (j1 : Nat) crow')
        ssqcount)
    ((List.range (n + 1)).map fun (i : Nat) =>
      (ssqrange i ((i % 2 : Nat) : Int) n).map fun _ => (0 : Int))
    = .ok ((List.range (n + 1)).map fun c =>
      (List.range (szW n c / 2 + 1)).map fun q => if c < t then ssqCnt n c q else 0) := by
    intro t
    induction t with
    | zero =>
      intro _
      simp only [List.range_zero, List.foldlM_nil, py_pure]
      congr 1
      apply List.map_congr_left
      intro c hc
      rw [ssqrange_par n c hn (by simp at hc; omega)]
      simp [Function.comp_def]
    | succ t ih =>
      intro ht
      rw [List.range_succ (n := t), List.foldlM_append, ih (by omega)]
      simp only [py_bind_ok, List.foldlM_cons, List.foldlM_nil, py_pure]
      rw [ssqrange_par n t hn (by omega)]
      simp only [List.length_map, List.length_range]
      -- inner loop
      have inner : ∀ s, s ≤ szW n t / 2 + 1 → (List.range s).foldlM
        (fun ssqcount (j2 : Nat) => do
          let s ← pyGet ((List.range (szW n t / 2 + 1)).map
            fun (k : Nat) => ((t % 2 : Nat) : Int) + 2 * (k : Int))
            (((szW n t / 2 + 1 : Nat) : Int) - j2 - 1)
          let ssqind := ssqToInd s 0
          let row ← pyGet ((List.range (n + 1)).map (fun c => (List.range (szW n c + 1)).map (R c))) (t : Nat)
          let x ← pyGet row (j2 : Nat)
          let y ← prevLen row j2
          let crow ← pyGet ssqcount (t : Nat)
          let crow' ← pySet crow ssqind ((x.length : Int) - (y : Int))
          pySet ssqcount (t : Nat) crow')
        ((List.range (n + 1)).map fun c =>
          (List.range (szW n c / 2 + 1)).map fun q => if c < t then ssqCnt n c q else 0)
        = (.ok ((List.range (n + 1)).map fun c =>
          (List.range (szW n c / 2 + 1)).map fun q =>
            if c < t ∨ (c = t ∧ szW n c / 2 < q + s) then ssqCnt n c q else 0) : Py _) := by
        intro s
        induction s with
        | zero =>
          intro _
          simp only [List.range_zero, List.foldlM_nil, py_pure]
          congr 1
          apply List.map_congr_left
          intro c _
          apply List.map_congr_left
          intro q hq
          simp at hq
          have : (c < t ∨ (c = t ∧ szW n c / 2 < q + 0)) ↔ c < t := by omega
          simp only [this]
        | succ s ihs =>
          intro hs
          rw [List.range_succ (n := s), List.foldlM_append, ihs (by omega)]
          simp only [py_bind_ok, List.foldlM_cons, List.foldlM_nil, py_pure]
          have hc1 : (((szW n t / 2 + 1 : Nat) : Int) - (s : Int) - 1)
              = ((szW n t / 2 - s : Nat) : Int) := by omega
          rw [hc1, pyGet_map_range _ _ _ (by omega), pyGet_map_range _ _ _ (by omega)]
          simp only [py_bind_ok]
          have hc2 : ((t % 2 : Nat) : Int) + 2 * ((szW n t / 2 - s : Nat) : Int)
              = ((t % 2 + 2 * (szW n t / 2 - s) : Nat) : Int) := by omega
          rw [hc2, ssqToInd_zero, pyGet_map_range _ _ _ (by omega),
            show (t % 2 + 2 * (szW n t / 2 - s)) / 2 = szW n t / 2 - s by omega]
          simp only [py_bind_ok]
          rw [pyGet_map_range _ _ _ (by omega)]
          have hy : prevLen ((List.range (szW n t + 1)).map (R t)) s
              = .ok (if 0 < s then szLen n t (s - 1) else 0) := by
            unfold prevLen
            split
            · rw [show ((s : Int) - 1) = ((s - 1 : Nat) : Int) by omega,
                pyGet_map_range _ _ _ (by omega)]
              simp only [py_bind_ok, py_pure]
              rw [hR t (s - 1) (by omega) (by omega)]
            · rfl
          rw [hy]
          simp only [py_bind_ok]
          rw [pySet_nat _ _ (by simp; omega), set_map_range]
          simp only [py_bind_ok]
          rw [pySet_nat _ _ (by simp; omega), set_map_range]
          simp only [py_bind_ok]
          congr 1
          apply List.map_congr_left
          intro c hc
          by_cases hct : c = t
          · subst hct
            simp only [if_true, Nat.lt_irrefl, true_and, false_or]
            apply List.map_congr_left
            intro q hq
            simp at hq
            by_cases hqs : q = szW n c / 2 - s
            · have hlt : szW n c / 2 < q + (s + 1) := by omega
              rw [if_pos hqs, if_pos hlt, hR c s (by omega) (by omega)]
              unfold ssqCnt
              have h1 : szW n c / 2 - q = s := by omega
              rw [h1]
              have : q < szW n c / 2 ↔ 0 < s := by omega
              simp only [this]
            · rw [if_neg hqs]
              have : szW n c / 2 < q + s ↔ szW n c / 2 < q + (s + 1) := by omega
              simp only [this]
          · rw [if_neg hct]
            apply List.map_congr_left
            intro q hq
            have : (c < t ∨ (c = t ∧ szW n c / 2 < q + s)) ↔
                (c < t ∨ (c = t ∧ szW n c / 2 < q + (s + 1))) := by omega
            simp only [this]
      rw [inner _ (le_refl _)]
      simp only [py_bind_ok]
      congr 1
      apply List.map_congr_left
      intro c _
      apply List.map_congr_left
      intro q _
      have : (c < t ∨ (c = t ∧ szW n c / 2 < q + (szW n t / 2 + 1))) ↔ c < t + 1 := by
        constructor
        · omega
        · intro h
          by_cases hct : c = t
          · subst hct; omega
          · omega
      simp only [this]
  rw [key _ (le_refl _)]
  congr 1
  apply List.map_congr_left
  intro c hc
  apply List.map_congr_left
  intro q _
  simp at hc
  simp [hc]

/-- Number of states with charge `c`, the `k`-th `sz` and the `q`-th total spin. -/
def ssqM (n c k q : Nat) : Nat :=
  szLen n c (min k (szW n c - k) - q)
    - (if q < min k (szW n c - k) then szLen n c (min k (szW n c - k) - q - 1) else 0)

theorem ssqCnt_toNat (n c k q : Nat)
    (hq : q ≤ min k (szW n c - k)) :
    (ssqCnt n c (szW n c / 2 - min k (szW n c - k) + q)).toNat = ssqM n c k q := by
  unfold ssqCnt ssqM
  have e1 : szW n c / 2 - (szW n c / 2 - min k (szW n c - k) + q) = min k (szW n c - k) - q := by
    omega
  rw [e1]
  have e2 : szW n c / 2 - min k (szW n c - k) + q < szW n c / 2 ↔ q < min k (szW n c - k) := by
    omega
  simp only [e2]
  omega

/-- Multiplets telescope to the number of states of the `sz` sector. -/
theorem ssqM_sum (n c k : Nat) (hn : n % 2 = 0) (hc : c ≤ n) (hk : k ≤ szW n c) :
    pre (ssqM n c k) (min k (szW n c - k) + 1) = szLen n c k := by
  have key : ∀ t, t ≤ min k (szW n c - k) + 1 → pre (ssqM n c k) t
      + (if t ≤ min k (szW n c - k) then szLen n c (min k (szW n c - k) - t) else 0)
      = szLen n c (min k (szW n c - k)) := by
    intro t
    induction t with
    | zero => intro _; simp
    | succ t ih =>
      intro ht
      have := ih (by omega)
      rw [if_pos (by omega)] at this
      rw [← this, pre_succ]
      have hM : ssqM n c k t = szLen n c (min k (szW n c - k) - t)
        - (if t < min k (szW n c - k) then szLen n c (min k (szW n c - k) - t - 1) else 0) := rfl
      rw [hM]
      by_cases h : t < min k (szW n c - k)
      · rw [if_pos h, if_pos (by omega)]
        have hm := szLen_mono n c (min k (szW n c - k) - t - 1) hn hc (by omega)
        rw [show min k (szW n c - k) - t - 1 + 1 = min k (szW n c - k) - t by omega] at hm
        rw [show min k (szW n c - k) - (t + 1) = min k (szW n c - k) - t - 1 by omega]
        omega
      · rw [if_neg h, if_neg (by omega)]; omega
  have := key (min k (szW n c - k) + 1) (le_refl _)
  rw [if_neg (by omega), Nat.add_zero] at this
  rw [this]
  rcases Nat.le_total k (szW n c - k) with h | h
  · rw [Nat.min_eq_left h]
  · rw [Nat.min_eq_right h]; exact szLen_symm n c k hn hc hk

/-- Highest index of total spin in the `k`-th `sz` sector. -/
def ssqE (n c k : Nat) : Nat := min k (szW n c - k)

/-- The closed form of the `ssq` table: consecutive integers in every cell. -/
def ssqTable (n : Nat) : List (List (List (List Nat))) :=
  (List.range (n + 1)).map fun c => (List.range (szW n c + 1)).map fun k =>
    (List.range (ssqE n c k + 1)).map fun q =>
      List.range' (pre (fun c => pre (fun k => pre (ssqM n c k) (ssqE n c k + 1)) (szW n c + 1)) c
        + pre (fun k => pre (ssqM n c k) (ssqE n c k + 1)) k + pre (ssqM n c k) q) (ssqM n c k q)

theorem appendLoop {T : Type} (embed : List Nat → T) (m : Nat)
    (step : T × Nat → Nat → Py (T × Nat))
    (h : ∀ i l ctr, step (embed l, ctr) i = .ok (embed (l ++ [ctr]), ctr + 1)) (ctr : Nat) :
    (List.range m).foldlM step (embed [], ctr) = .ok (embed (List.range' ctr m), ctr + m) := by
  induction m with
  | zero => simp
  | succ m ih =>
    rw [List.range_succ, List.foldlM_append, ih, py_bind_ok, List.foldlM_cons, h]
    simp only [py_bind_ok, List.foldlM_nil, py_pure]
    rw [List.range'_concat]
    simp [Nat.add_assoc]

theorem constructSsqlst_eq (n : Nat) (hn : n % 2 = 0) (szlst : List (List (List Nat)))
    (hs : SzShape n szlst) : constructSsqlst szlst n = .ok (ssqTable n) := by
  unfold constructSsqlst
  rw [ssqCount_eq n hn szlst hs, py_bind_ok]
  have hempty : emptySsqlst n = (List.range (n + 1)).map fun c =>
      (List.range (szW n c + 1)).map fun k =>
        (List.range (ssqE n c k + 1)).map fun _ => ([] : List Nat) := by
    unfold emptySsqlst
    apply List.map_congr_left
    intro c hc
    have hc' : c ≤ n := by simp at hc; omega
    rw [szrange_eq n c hc', List.map_map]
    apply List.map_congr_left
    intro k hk
    have hk' : k ≤ szW n c := by simp at hk; omega
    simp only [Function.comp]
    rw [ssqrange_sz n c k hc' hk', List.map_map]
    rfl
  rw [hempty]
  rw [seqFill (T := List (List (List (List Nat)))) (fun x => x) (n + 1) _
    (fun c => (List.range (szW n c + 1)).map fun k =>
        (List.range (ssqE n c k + 1)).map fun _ => ([] : List Nat))
    (fun c ctr => (List.range (szW n c + 1)).map fun k =>
      (List.range (ssqE n c k + 1)).map fun q =>
        List.range' (ctr + pre (fun k => pre (ssqM n c k) (ssqE n c k + 1)) k
          + pre (ssqM n c k) q) (ssqM n c k q))
    (fun c => pre (fun k => pre (ssqM n c k) (ssqE n c k + 1)) (szW n c + 1))
    ?_ 0]
  · simp only [py_bind_ok, py_pure, Nat.zero_add]
    rfl
  · intro c hc F hF ctr
    have hc' : c ≤ n := by omega
    simp only
    rw [szrange_eq n c hc', List.foldlM_map]
    have hst : (List.range (n + 1)).map F = (List.range (n + 1)).map
        (fun c' => if c' = c then (List.range (szW n c + 1)).map (fun k =>
          (List.range (ssqE n c k + 1)).map fun _ => ([] : List Nat)) else F c') := by
      apply List.map_congr_left
      intro c' _
      split
      · rename_i h; subst h; exact hF
      · rfl
    rw [hst]
    rw [seqFill (fun row => (List.range (n + 1)).map fun c' => if c' = c then row else F c')
      (szW n c + 1) _ (fun k => (List.range (ssqE n c k + 1)).map fun _ => ([] : List Nat))
      (fun k ctr => (List.range (ssqE n c k + 1)).map fun q =>
        List.range' (ctr + pre (ssqM n c k) q) (ssqM n c k q))
      (fun k => pre (ssqM n c k) (ssqE n c k + 1)) ?_ ctr]
    intro k hk G hG ctr
    have hk' : k ≤ szW n c := by omega
    simp only [szToInd_range n c k hc']
    rw [ssqrange_sz n c k hc' hk', List.foldlM_map]
    have hst2 : (List.range (szW n c + 1)).map G = (List.range (szW n c + 1)).map
        (fun k' => if k' = k then (List.range (ssqE n c k + 1)).map (fun _ => ([] : List Nat))
          else G k') := by
      apply List.map_congr_left
      intro k' _
      split
      · rename_i h; subst h; exact hG
      · rfl
    rw [hst2]
    rw [show min k (szW n c - k) + 1 = ssqE n c k + 1 from rfl]
    rw [seqFill (fun row => (List.range (n + 1)).map fun c' => if c' = c then
        (List.range (szW n c + 1)).map (fun k' => if k' = k then row else G k') else F c')
      (ssqE n c k + 1) _ (fun _ => ([] : List Nat))
      (fun q ctr => List.range' ctr (ssqM n c k q))
      (fun q => ssqM n c k q) ?_ ctr]
    intro q hq H hH ctr
    have hq' : q ≤ min k (szW n c - k) := by unfold ssqE at hq; omega
    rw [ssqToInd_row n c k q hk']
    have hc2 : ((szW n c - 2 * min k (szW n c - k) : Nat) : Int) + 2 * (q : Int)
        = ((szW n c - 2 * min k (szW n c - k) + 2 * q : Nat) : Int) := by omega
    rw [hc2, ssqToInd_zero, pyGet_map_range _ _ _ (by omega),
      show (szW n c - 2 * min k (szW n c - k) + 2 * q) / 2
        = szW n c / 2 - min k (szW n c - k) + q by omega]
    simp only [py_bind_ok]
    rw [pyGet_map_range _ _ _ (by omega)]
    simp only [py_bind_ok]
    rw [ssqCnt_toNat n c k q hq']
    have hst3 : (List.range (ssqE n c k + 1)).map H = (List.range (ssqE n c k + 1)).map
        (fun q' => if q' = q then [] else H q') := by
      apply List.map_congr_left
      intro q' _
      split
      · rename_i h; subst h; exact hH
      · rfl
    rw [hst3]
    rw [appendLoop (fun cell => (List.range (n + 1)).map fun c' => if c' = c then
        (List.range (szW n c + 1)).map (fun k' => if k' = k then
          (List.range (ssqE n c k + 1)).map (fun q' => if q' = q then cell else H q')
          else G k') else F c') (ssqM n c k q)]
    intro i l ctr
    rw [pyGet_map_range _ _ _ (by omega)]
    simp only [py_bind_ok, if_true]
    rw [pyGet_map_range _ _ _ (by omega)]
    simp only [py_bind_ok, if_true]
    rw [pyModify_nat _ _ (by simpa using hq), modify_map_range]
    simp only [py_bind_ok]
    rw [pySet_nat _ _ (by simpa using hk), set_map_range]
    simp only [py_bind_ok]
    rw [pySet_nat _ _ (by simpa using hc), set_map_range]
    simp only [py_bind_ok, py_pure]
    congr 2
    apply List.map_congr_left
    intro c' _
    by_cases h1 : c' = c
    · simp only [h1, if_true]
      apply List.map_congr_left
      intro k' _
      by_cases h2 : k' = k
      · simp only [h2, if_true]
        apply List.map_congr_left
        intro q' _
        by_cases h3 : q' = q
        · simp [h3]
        · simp [h3]
      · simp [h2]
    · simp [h1]

end Verif
