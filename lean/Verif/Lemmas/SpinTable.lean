import Verif.Lemmas.SpinLoop

/-! The table filled by `construct_manybody_eigenstates_ssq_all`. -/

namespace Verif
open Verif.Spec Matrix

variable {n : Nat}

theorem chain_self (q z : Int) (k0 : Nat) (x : Occ n → ℂ) : chain q z k0 x k0 = x := by
  unfold chain
  rw [if_pos (le_refl _), Nat.sub_self]
  rfl

theorem chain_up (q z : Int) {k0 k : Nat} (hk : k0 ≤ k) (x : Occ n → ℂ) :
    chain q z k0 x (k + 1) = raise q (z - 2 * k0 + 2 * k) (chain q z k0 x k) := by
  unfold chain
  rw [if_pos hk, if_pos (by omega), show k + 1 - k0 = (k - k0) + 1 by omega]
  show raise q (z + 2 * ((k - k0 : Nat) : Int)) _ = _
  rw [show z + 2 * ((k - k0 : Nat) : Int) = z - 2 * k0 + 2 * k by omega]

theorem chain_down (q z : Int) {k0 k : Nat} (hk : k < k0) (x : Occ n → ℂ) :
    chain q z k0 x k = lower q (z - 2 * k0 + 2 * k) (chain q z k0 x (k + 1)) := by
  have e1 : chain q z k0 x (k + 1) = dnN q z x (k0 - k - 1) := by
    unfold chain
    by_cases hk' : k0 ≤ k + 1
    · rw [if_pos hk', show k + 1 - k0 = 0 by omega, show k0 - k - 1 = 0 by omega]
      rfl
    · rw [if_neg hk', show k0 - (k + 1) = k0 - k - 1 by omega]
  rw [e1]
  unfold chain
  rw [if_neg (by omega)]
  obtain ⟨r, hr⟩ : ∃ r, k0 - k = r + 1 := ⟨k0 - k - 1, by omega⟩
  rw [hr]
  show lower q (z - 2 * ((r : Int) + 1)) (dnN q z x r) = _
  rw [show z - 2 * ((r : Int) + 1) = z - 2 * k0 + 2 * k by omega]
  rfl

/-- The row `k` of the table: total spin `szW n c - 2 δ`, at the depth `δ = ssqE n c k - j`, with the
energies `e δ` and, as eigenvectors, the members at position `k` of the multiplets of `x δ`. -/
def RowOk (c k0 : Nat) (L : Nat → List Nat) (S : Nat → Nat → Occ n) (M : Nat → Nat) (e : Nat → List ℝ)
    (x : Nat → Nat → Occ n → ℂ) (t : SpinTab) (k : Nat) : Prop :=
  ∃ cells : Nat → List ℝ × Arr,
    t[k]? = some ((List.range (ssqE n c k + 1)).map fun j => some (cells j)) ∧
    ∀ j, j ≤ ssqE n c k → CellIs (L k).length (M (ssqE n c k - j)) (S k) (e (ssqE n c k - j))
      (fun i => chain ((szW n c : Int) - 2 * ((ssqE n c k - j : Nat) : Int)) (-(szW n c : Int) + 2 * k0) k0
        (x (ssqE n c k - j) i) k) (cells j)

theorem RowOk.congr {c k0 : Nat} {L : Nat → List Nat} {S : Nat → Nat → Occ n} {M : Nat → Nat}
    {e : Nat → List ℝ} {x : Nat → Nat → Occ n → ℂ} {t t' : SpinTab} {k : Nat}
    (h : RowOk c k0 L S M e x t k) (ht : t'[k]? = t[k]?) : RowOk c k0 L S M e x t' k := by
  obtain ⟨cells, h1, h2⟩ := h
  exact ⟨cells, ht.trans h1, h2⟩

section
variable {si : SI} (hns : si.nsingle = n) (hev : n % 2 = 0) {c k0 : Nat} (hc : c ≤ n)
  (hk0 : 2 * k0 + c % 2 = szW n c) {L : Nat → List Nat} {S : Nat → Nat → Occ n}
  (hS : ∀ k, k ≤ szW n c → Sector n si c (-(szW n c : Int) + 2 * (k : Int)) (L k) (S k))
  {H : Matrix (Occ n) (Occ n) ℂ} (hH : SpinConserving H) {M : Nat → Nat} {e : Nat → List ℝ}
  {x : Nat → Nat → Occ n → ℂ}
  (hJ : ∀ δ, δ ≤ ssqE n c k0 → Joint H c (-(szW n c : Int) + 2 * k0) ((szW n c : Int) - 2 * (δ : Int))
    (M δ) (fun i => (e δ).getD i 0) (x δ))
include hns hev hc hk0 hS hH hJ

omit hns hS hc in
theorem table_joint {k δ : Nat} (hk : k ≤ szW n c) (hδ : δ ≤ ssqE n c k) :
    Joint H c (-(szW n c : Int) + 2 * k) ((szW n c : Int) - 2 * (δ : Int)) (M δ) (fun i => (e δ).getD i 0)
      fun i => chain ((szW n c : Int) - 2 * (δ : Int)) (-(szW n c : Int) + 2 * k0) k0 (x δ i) k := by
  have hd : δ ≤ ssqE n c k0 := by unfold ssqE at *; omega
  have := chain_joint hev hH (k0 := k0) (hJ δ hd) k (by unfold ssqE at *; omega) (by unfold ssqE at *; omega)
    (by unfold ssqE at *; omega) (by unfold ssqE at *; omega)
  rwa [show -(szW n c : Int) + 2 * k0 - 2 * k0 + 2 * k = -(szW n c : Int) + 2 * k by ring] at this

theorem step_up {k : Nat} (h1 : k0 ≤ k) (h2 : k + 1 ≤ szW n c) {t : SpinTab}
    (hr : RowOk c k0 L S M e x t k) (hb : ∃ r, t[k + 1]? = some r ∧ r.length = ssqE n c (k + 1) + 1) :
    ∃ t', spinStep c (-(szW n c : Int) + 2 * k) (-(szW n c : Int) + 2 * k + 2) si
        (operatorSp c (-(szW n c : Int) + 2 * k) si) t = .ok t' ∧ t'.length = t.length ∧
      (∀ k', k' ≠ k + 1 → t'[k']? = t[k']?) ∧ RowOk c k0 L S M e x t' (k + 1) := by
  obtain ⟨cells, c1, c2⟩ := hr
  have ez : -(szW n c : Int) + 2 * (k : Int) + 2 = -(szW n c : Int) + 2 * ((k + 1 : Nat) : Int) := by
    push_cast; ring
  have hs := hS k (by omega)
  have hs' := hS (k + 1) h2
  have hE : ssqE n c (k + 1) ≤ ssqE n c k := by unfold ssqE; omega
  obtain ⟨m, o1, o2, o3, o4⟩ := sp_ok hns hs (by rw [ez]; exact hs') (by
    have : (szW n c : Int) = min (c : Int) (n - c) := by unfold szW; omega
    omega)
  let g : Nat → Nat := fun j => ssqE n c k - (ssqE n c (k + 1) - j)
  have hg : ∀ j, j ≤ ssqE n c (k + 1) → ssqE n c k - g j = ssqE n c (k + 1) - j := by
    intro j hj
    show ssqE n c k - (ssqE n c k - (ssqE n c (k + 1) - j)) = _
    omega
  have hq : ∀ j, j ≤ ssqE n c (k + 1) → ((szW n c - 2 * ssqE n c (k + 1) : Nat) : Int) + 2 * (j : Int)
      = (szW n c : Int) - 2 * ((ssqE n c (k + 1) - j : Nat) : Int) := by
    intro j hj
    unfold ssqE at *
    omega
  have hq' : ∀ j, j ≤ ssqE n c (k + 1) → ((szW n c - 2 * ssqE n c (k + 1) : Nat) : Int) + 2 * (j : Int)
      = ((szW n c - 2 * ssqE n c k : Nat) : Int) + 2 * (g j : Int) := by
    intro j hj
    show _ = _ + 2 * ((ssqE n c k - (ssqE n c (k + 1) - j) : Nat) : Int)
    unfold ssqE at *
    omega
  have hy : ∀ j, ∃ y, j ≤ ssqE n c (k + 1) →
      opDot (some m) (cells (g j)).2 (lad (((szW n c - 2 * ssqE n c (k + 1) : Nat) : Int) + 2 * (j : Int))
        (-(szW n c : Int) + 2 * k)) = .ok y ∧
      CellIs (L (k + 1)).length (M (ssqE n c (k + 1) - j)) (S (k + 1)) (e (ssqE n c (k + 1) - j))
        (fun i => chain ((szW n c : Int) - 2 * ((ssqE n c (k + 1) - j : Nat) : Int))
          (-(szW n c : Int) + 2 * k0) k0 (x (ssqE n c (k + 1) - j) i) (k + 1)) ((cells (g j)).1, y) := by
    intro j
    by_cases hj : j ≤ ssqE n c (k + 1)
    swap
    · exact ⟨Arr.zeros [], fun h => absurd h hj⟩
    have hc2 := c2 (g j) (by show ssqE n c k - _ ≤ _; omega)
    rw [hg j hj] at hc2
    have hjt := table_joint hev hk0 hH hJ (k := k) (δ := ssqE n c (k + 1) - j) (by omega) (by omega)
    obtain ⟨y, y1, y2⟩ := raise_cell (q := (szW n c : Int) - 2 * ((ssqE n c (k + 1) - j : Nat) : Int))
      hs o2 o3 o4 hjt.sec hc2
    refine ⟨y, fun _ => ⟨by rw [hq j hj]; exact y1, y2.en, y2.dims, ?_⟩⟩
    intro p i hp hi
    rw [y2.val p i hp hi, chain_up _ _ h1,
      show -(szW n c : Int) + 2 * k0 - 2 * k0 + 2 * k = -(szW n c : Int) + 2 * k by ring]
  choose y hy using hy
  obtain ⟨t', t1, t2, t3, t4⟩ := spinStep_ok hns (c := c) (z := -(szW n c : Int) + 2 * k)
    (z2 := -(szW n c : Int) + 2 * k + 2) (k := k) (k2 := k + 1) (E := ssqE n c k) (E2 := ssqE n c (k + 1))
    (q2 := ((szW n c - 2 * ssqE n c (k + 1) : Nat) : Int)) (g := g) (t := t) (cells := cells) (m := m) (y := y)
    (by omega) (szToInd_range n c k hc) (by rw [ez]; exact szToInd_range n c (k + 1) hc)
    (by rw [ez]; exact ssqrange_sz n c (k + 1) hc h2)
    (fun j hj => by rw [ez]; exact ssqToInd_row n c (k + 1) j h2)
    (fun j hj => ⟨by rw [hq' j hj]; exact ssqToInd_row n c k (g j) (by omega), by
      show ssqE n c k - _ ≤ _; omega⟩)
    c1 hb (fun j hj => (hy j hj).1)
  rw [o1]
  exact ⟨t', t1, t2, t3, fun j => ((cells (g j)).1, y j), t4, fun j hj => (hy j hj).2⟩

theorem step_down {k : Nat} (h1 : k + 1 ≤ k0) {t : SpinTab}
    (hr : RowOk c k0 L S M e x t (k + 1)) (hb : ∃ r, t[k]? = some r ∧ r.length = ssqE n c k + 1) :
    ∃ t', spinStep c (-(szW n c : Int) + 2 * (k + 1)) (-(szW n c : Int) + 2 * (k + 1) - 2) si
        (operatorSm c (-(szW n c : Int) + 2 * (k + 1)) si) t = .ok t' ∧ t'.length = t.length ∧
      (∀ k', k' ≠ k → t'[k']? = t[k']?) ∧ RowOk c k0 L S M e x t' k := by
  obtain ⟨cells, c1, c2⟩ := hr
  have ez : -(szW n c : Int) + 2 * ((k : Int) + 1) - 2 = -(szW n c : Int) + 2 * (k : Int) := by
    ring
  have ez1 : -(szW n c : Int) + 2 * ((k : Int) + 1) = -(szW n c : Int) + 2 * ((k + 1 : Nat) : Int) := by
    push_cast; ring
  have h2 : k + 1 ≤ szW n c := by omega
  have hs := hS k (by omega)
  have hs' := hS (k + 1) h2
  have hE : ssqE n c k ≤ ssqE n c (k + 1) := by unfold ssqE; omega
  rw [ez, ez1]
  obtain ⟨m, o1, o2, o3, o4⟩ := sm_ok hns hs' (by rw [← ez1, ez]; exact hs) (by
    have : (szW n c : Int) = min (c : Int) (n - c) := by unfold szW; omega
    push_cast
    omega)
  let g : Nat → Nat := fun j => ssqE n c (k + 1) - (ssqE n c k - j)
  have hg : ∀ j, j ≤ ssqE n c k → ssqE n c (k + 1) - g j = ssqE n c k - j := by
    intro j hj
    show ssqE n c (k + 1) - (ssqE n c (k + 1) - (ssqE n c k - j)) = _
    omega
  have hq : ∀ j, j ≤ ssqE n c k → ((szW n c - 2 * ssqE n c k : Nat) : Int) + 2 * (j : Int)
      = (szW n c : Int) - 2 * ((ssqE n c k - j : Nat) : Int) := by
    intro j hj
    unfold ssqE at *
    omega
  have hq' : ∀ j, j ≤ ssqE n c k → ((szW n c - 2 * ssqE n c k : Nat) : Int) + 2 * (j : Int)
      = ((szW n c - 2 * ssqE n c (k + 1) : Nat) : Int) + 2 * (g j : Int) := by
    intro j hj
    show _ = _ + 2 * ((ssqE n c (k + 1) - (ssqE n c k - j) : Nat) : Int)
    unfold ssqE at *
    omega
  have hy : ∀ j, ∃ y, j ≤ ssqE n c k →
      opDot (some m) (cells (g j)).2 (lad (((szW n c - 2 * ssqE n c k : Nat) : Int) + 2 * (j : Int))
        (-(szW n c : Int) + 2 * k)) = .ok y ∧
      CellIs (L k).length (M (ssqE n c k - j)) (S k) (e (ssqE n c k - j))
        (fun i => chain ((szW n c : Int) - 2 * ((ssqE n c k - j : Nat) : Int))
          (-(szW n c : Int) + 2 * k0) k0 (x (ssqE n c k - j) i) k) ((cells (g j)).1, y) := by
    intro j
    by_cases hj : j ≤ ssqE n c k
    swap
    · exact ⟨Arr.zeros [], fun h => absurd h hj⟩
    have hc2 := c2 (g j) (by show ssqE n c (k + 1) - _ ≤ _; omega)
    rw [hg j hj] at hc2
    have hjt := table_joint hev hk0 hH hJ (k := k + 1) (δ := ssqE n c k - j) (by omega) (by omega)
    obtain ⟨y, y1, y2⟩ := lower_cell (q := (szW n c : Int) - 2 * ((ssqE n c k - j : Nat) : Int))
      (z' := -(szW n c : Int) + 2 * k) hs' o2 o3 o4 hjt.sec hc2
    refine ⟨y, fun _ => ⟨by rw [hq j hj]; exact y1, y2.en, y2.dims, ?_⟩⟩
    intro p i hp hi
    rw [y2.val p i hp hi, chain_down _ _ (Nat.lt_of_succ_le h1),
      show -(szW n c : Int) + 2 * k0 - 2 * k0 + 2 * k = -(szW n c : Int) + 2 * k by ring]
  choose y hy using hy
  obtain ⟨t', t1, t2, t3, t4⟩ := spinStep_ok hns (c := c) (z := -(szW n c : Int) + 2 * ((k + 1 : Nat) : Int))
    (z2 := -(szW n c : Int) + 2 * (k : Int)) (k := k + 1) (k2 := k) (E := ssqE n c (k + 1)) (E2 := ssqE n c k)
    (q2 := ((szW n c - 2 * ssqE n c k : Nat) : Int)) (g := g) (t := t) (cells := cells) (m := m) (y := y)
    (by omega) (szToInd_range n c (k + 1) hc) (szToInd_range n c k hc)
    (ssqrange_sz n c k hc (by omega))
    (fun j hj => ssqToInd_row n c k j (by omega))
    (fun j hj => ⟨by rw [hq' j hj]; exact ssqToInd_row n c (k + 1) (g j) (by omega), by
      show ssqE n c (k + 1) - _ ≤ _; omega⟩)
    c1 hb (fun j hj => by
      rw [← (hy j hj).1]
      unfold lad
      rw [show (-(szW n c : Int) + 2 * ((k + 1 : Nat) : Int)) * (-(szW n c : Int) + 2 * (k : Int))
        = (-(szW n c : Int) + 2 * (k : Int)) * (-(szW n c : Int) + 2 * (k : Int) + 2) by push_cast; ring])
  rw [o1]
  exact ⟨t', t1, t2, t3, fun j => ((cells (g j)).1, y j), t4, fun j hj => (hy j hj).2⟩

/-- The loop over larger projections. -/
theorem loop_up {t0 : SpinTab} (hlen : t0.length = szW n c + 1) (h0 : RowOk c k0 L S M e x t0 k0)
    (hb : ∀ k, k0 < k → k ≤ szW n c → ∃ r, t0[k]? = some r ∧ r.length = ssqE n c k + 1) :
    ∀ r, k0 + r ≤ szW n c → ∃ t, (List.range r).foldlM (fun t (i : Nat) =>
        spinStep c (-((c % 2 : Nat) : Int) + 2 * (i : Int)) (-((c % 2 : Nat) : Int) + 2 * (i : Int) + 2) si
          (operatorSp c (-((c % 2 : Nat) : Int) + 2 * (i : Int)) si) t) t0 = .ok t ∧
      t.length = szW n c + 1 ∧ (∀ k, k0 ≤ k → k ≤ k0 + r → RowOk c k0 L S M e x t k) ∧
      ∀ k, k < k0 ∨ k0 + r < k → t[k]? = t0[k]? := by
  intro r
  induction r with
  | zero =>
    intro _
    refine ⟨t0, rfl, hlen, fun k h1 h2 => ?_, fun _ _ => rfl⟩
    cases (show k = k0 by omega)
    exact h0
  | succ r ih =>
    intro hr
    obtain ⟨t, e1, e2, e3, e4⟩ := ih (by omega)
    obtain ⟨t', f1, f2, f3, f4⟩ := step_up hns hev hc hk0 hS hH hJ (k := k0 + r) (by omega) (by omega)
      (e3 (k0 + r) (by omega) (by omega)) (by
        rw [e4 (k0 + r + 1) (by omega)]
        exact hb (k0 + r + 1) (by omega) (by omega))
    refine ⟨t', ?_, by omega, ?_, ?_⟩
    · rw [List.range_succ, List.foldlM_append, e1]
      simp only [py_bind_ok, List.foldlM_cons, List.foldlM_nil]
      rw [show -((c % 2 : Nat) : Int) + 2 * (r : Int) = -(szW n c : Int) + 2 * ((k0 + r : Nat) : Int) by omega, f1]
      rfl
    · intro k g1 g2
      by_cases hk : k = k0 + r + 1
      · rw [hk]; exact f4
      · exact (e3 k g1 (by omega)).congr (f3 k hk)
    · intro k g
      rw [f3 k (by omega), e4 k (by omega)]

/-- The loop over smaller projections. -/
theorem loop_down {t0 : SpinTab} (hlen : t0.length = szW n c + 1) (h0 : RowOk c k0 L S M e x t0 k0)
    (hb : ∀ k, k < k0 → ∃ r, t0[k]? = some r ∧ r.length = ssqE n c k + 1) :
    ∀ r, r ≤ k0 → ∃ t, (List.range r).foldlM (fun t (i : Nat) =>
        spinStep c (-((c % 2 : Nat) : Int) - 2 * (i : Int)) (-((c % 2 : Nat) : Int) - 2 * (i : Int) - 2) si
          (operatorSm c (-((c % 2 : Nat) : Int) - 2 * (i : Int)) si) t) t0 = .ok t ∧
      t.length = szW n c + 1 ∧ (∀ k, k ≤ k0 → k0 ≤ k + r → RowOk c k0 L S M e x t k) ∧
      ∀ k, k0 < k ∨ k + r < k0 → t[k]? = t0[k]? := by
  intro r
  induction r with
  | zero =>
    intro _
    refine ⟨t0, rfl, hlen, fun k h1 h2 => ?_, fun _ _ => rfl⟩
    cases (show k = k0 by omega)
    exact h0
  | succ r ih =>
    intro hr
    obtain ⟨t, e1, e2, e3, e4⟩ := ih (by omega)
    obtain ⟨t', f1, f2, f3, f4⟩ := step_down hns hev hc hk0 hS hH hJ (k := k0 - r - 1) (by omega)
      (e3 (k0 - r - 1 + 1) (by omega) (by omega)) (by
        rw [e4 (k0 - r - 1) (by omega)]
        exact hb (k0 - r - 1) (by omega))
    refine ⟨t', ?_, by omega, ?_, ?_⟩
    · rw [List.range_succ, List.foldlM_append, e1]
      simp only [py_bind_ok, List.foldlM_cons, List.foldlM_nil]
      rw [show -((c % 2 : Nat) : Int) - 2 * (r : Int)
        = -(szW n c : Int) + 2 * (((k0 - r - 1 : Nat) : Int) + 1) by omega, f1]
      rfl
    · intro k g1 g2
      by_cases hk : k = k0 - r - 1
      · rw [hk]; exact f4
      · exact (e3 k g1 (by omega)).congr (f3 k hk)
    · intro k g
      rw [f3 k (by omega), e4 k (by omega)]

end

/-- `construct_manybody_eigenstates_ssq_all`. -/
theorem spinStates_ok {qd : QD} (hn : 1 ≤ n) (hev : n % 2 = 0) (hsi : SI.init n "ssq" = .ok qd.si)
    {eigh : Eigh} (he : EighReal eigh) {H : Matrix (Occ n) (Occ n) ℂ} (hH : SpinConserving H)
    {c k0 : Nat} (hc : c ≤ n) (hk0 : 2 * k0 + c % 2 = szW n c)
    {L : Nat → List Nat} {S : Nat → Nat → Occ n}
    (hL : qd.si.getLst (some c) (some (-(szW n c : Int) + 2 * (k0 : Int))) none = .ok (some (L k0)))
    (hS : ∀ k, k ≤ szW n c → Sector n qd.si c (-(szW n c : Int) + 2 * (k : Int)) (L k) (S k))
    {ham : Arr} (hham : qd.hamlst c (k0 : Int) = some ham)
    (hd : ham.dims = [(L k0).length, (L k0).length])
    (hval : ∀ p q, p < (L k0).length → q < (L k0).length → ham.val [p, q] = H (S k0 p) (S k0 q)) :
    ∃ (t : SpinTab) (e : Nat → List ℝ) (x : Nat → Nat → Occ n → ℂ), qd.spinStates eigh c = .ok t ∧
      t.length = szW n c + 1 ∧
      (∀ k, k ≤ szW n c → RowOk c k0 L S (fun δ => ssqM n c k0 (ssqE n c k0 - δ)) e x t k) ∧
      ∀ δ, δ ≤ ssqE n c k0 → (e δ).length = ssqM n c k0 (ssqE n c k0 - δ) ∧
        Joint H c (-(szW n c : Int) + 2 * k0) ((szW n c : Int) - 2 * (δ : Int))
          (ssqM n c k0 (ssqE n c k0 - δ)) (fun i => (e δ).getD i 0) (x δ) := by
  have hns : qd.si.nsingle = n := (SpinSI.facts ⟨hn, hev, "ssq", Or.inr rfl, hsi⟩).2.2.2
  have hk0' : k0 ≤ szW n c := by omega
  have hlow : -((c % 2 : Nat) : Int) = -(szW n c : Int) + 2 * (k0 : Int) := by omega
  obtain ⟨v, qs, a, v1, v2⟩ := ssquareEigenstates_ok hn hev hsi he hc hk0' hL (hS k0 hk0')
  have hbase : ∀ j, ∃ (p : (List ℝ × Arr) × (Nat → Occ n → ℂ)), j ≤ ssqE n c k0 →
      spinBase eigh ham (Arr.ofMat (L k0).length (ssqM n c k0 j) fun p i => v p (a j + i)) = .ok p.1 ∧
      p.1.1.length = ssqM n c k0 j ∧ p.1.2.dims = [(L k0).length, ssqM n c k0 j] ∧
      (∀ y i, y < (L k0).length → i < ssqM n c k0 j → p.1.2.val [y, i] = p.2 i (S k0 y)) ∧
      Joint H c (-(szW n c : Int) + 2 * (k0 : Int))
        (((szW n c - 2 * ssqE n c k0 : Nat) : Int) + 2 * (j : Int)) (ssqM n c k0 j)
        (fun i => p.1.1.getD i 0) p.2 := by
    intro j
    by_cases hj : j ≤ ssqE n c k0
    · obtain ⟨cell, x, r⟩ := spinBase_ok (hS k0 hk0') v2 hev (by omega) he.ok hH hd hval hj
        (V := Arr.ofMat (L k0).length (ssqM n c k0 j) fun p i => v p (a j + i))
        (Arr.ofMat_dims _ _ _) (fun p i _ _ => rfl)
      exact ⟨(cell, x), fun _ => r⟩
    · exact ⟨(([], Arr.zeros []), fun _ _ => 0), fun h => absurd h hj⟩
  choose p hp using hbase
  set E := ssqE n c k0 with hE
  let e : Nat → List ℝ := fun δ => (p (E - δ)).1.1
  let x : Nat → Nat → Occ n → ℂ := fun δ => (p (E - δ)).2
  have hJ : ∀ δ, δ ≤ ssqE n c k0 → Joint H c (-(szW n c : Int) + 2 * k0) ((szW n c : Int) - 2 * (δ : Int))
      (ssqM n c k0 (E - δ)) (fun i => (e δ).getD i 0) (x δ) := by
    intro δ hδ
    have := (hp (E - δ) (by omega)).2.2.2.2
    rwa [show ((szW n c - 2 * E : Nat) : Int) + 2 * ((E - δ : Nat) : Int)
      = (szW n c : Int) - 2 * (δ : Int) by rw [hE]; unfold ssqE at *; omega] at this
  -- the empty table
  set tab : SpinTab := (szrange c n).map fun j => (ssqrange c j n).map fun _ => none with htab
  have htl : tab.length = szW n c + 1 := by rw [htab, szrange_eq n c hc]; simp
  have htr : ∀ k, k ≤ szW n c → ∃ r, tab[k]? = some r ∧ r.length = ssqE n c k + 1 := by
    intro k hk
    refine ⟨(ssqrange c (-(szW n c : Int) + 2 * (k : Int)) n).map fun _ => none, ?_, ?_⟩
    · rw [htab, szrange_eq n c hc, List.map_map, List.getElem?_map, List.getElem?_range (by omega)]
      rfl
    · rw [ssqrange_sz n c k hc hk]
      simp [ssqE]
  -- the first row
  obtain ⟨t1, b1, b2, b3, b4⟩ := fill_row (E + 1) k0 (fun j => (p j).1) (fun t (j : Nat) => do
      let ssqind := ssqToInd (((szW n c - 2 * E : Nat) : Int) + 2 * (j : Int)) (-(szW n c : Int) + 2 * (k0 : Int))
      let v ← pyGet ((List.range (E + 1)).map fun j =>
          Arr.ofMat (L k0).length (ssqM n c k0 j) fun p i => v p (a j + i)) ssqind
      let p ← spinBase eigh ham v
      t.put (k0 : Int) ssqind p) tab (by
    intro t j hj _ _
    rw [show ssqToInd (((szW n c - 2 * E : Nat) : Int) + 2 * (j : Int)) (-(szW n c : Int) + 2 * (k0 : Int))
      = (j : Int) from ssqToInd_row n c k0 j hk0']
    simp only
    rw [pyGet_nat _ (by simpa using hj)]
    simp only [py_bind_ok, List.getElem_map, List.getElem_range]
    rw [(hp j (by omega)).1]
    rfl) (htr k0 hk0')
  have hrow : RowOk c k0 L S (fun δ => ssqM n c k0 (E - δ)) e x t1 k0 := by
    refine ⟨fun j => (p j).1, b4, ?_⟩
    intro j hj
    obtain ⟨-, -, r3, r4, -⟩ := hp j hj
    have ej : E - (ssqE n c k0 - j) = j := by omega
    refine ⟨?_, ?_, ?_⟩
    · show _ = (p (E - (ssqE n c k0 - j))).1.1
      rw [ej]
    · show _ = [_, ssqM n c k0 (E - (ssqE n c k0 - j))]
      rw [ej]; exact r3
    · intro y i hy hi
      show _ = chain _ _ k0 ((p (E - (ssqE n c k0 - j))).2 i) k0 _
      have hi : i < ssqM n c k0 (E - (ssqE n c k0 - j)) := hi
      rw [ej] at hi ⊢
      rw [chain_self, r4 y i hy hi]
  obtain ⟨t2, u1, u2, u3, u4⟩ := loop_up hns hev hc hk0 hS hH hJ (by omega) hrow
    (fun k h1 h2 => by rw [b3 k (by omega)]; exact htr k h2) (szW n c - k0) (by omega)
  obtain ⟨t3, d1, d2, d3, d4⟩ := loop_down hns hev hc hk0 hS hH hJ u2 (u3 k0 (le_refl _) (by omega))
    (fun k h => by rw [u4 k (.inl h), b3 k (by omega)]; exact htr k (by omega)) k0 (le_refl _)
  refine ⟨t3, e, x, ?_, d2, ?_, ?_⟩
  · have hw : min (c : Int) (n - c) = (szW n c : Int) := by unfold szW; omega
    unfold QD.spinStates
    simp only [hns, hlow, szToInd_range n c k0 hc, (hS k0 hk0').lst_eq, py_bind_ok, hham, py_pure, v1]
    rw [ssqrange_sz n c k0 hc hk0', List.foldlM_map]
    rw [show ssqE n c k0 = min k0 (szW n c - k0) from rfl] at hE
    rw [← hE, ← htab]
    have b1' := b1
    simp only at b1'
    rw [b1']
    simp only [py_bind_ok, hw]
    unfold pyRange pyRangeDown
    rw [List.foldlM_map,
      show (((szW n c : Int) - 1 - (-(szW n c : Int) + 2 * (k0 : Int)) + 2 - 1) / 2).toNat = szW n c - k0 by omega,
      show ((-(szW n c : Int) + 2 * (k0 : Int) - (-(szW n c : Int) + 1) + 2 - 1) / 2).toNat = k0 by omega,
      ← hlow, u1]
    simp only [py_bind_ok]
    rw [List.foldlM_map]
    exact d1
  · intro k hk
    rcases Nat.lt_or_ge k0 k with h | h
    · exact (u3 k (by omega) (by omega)).congr (d4 k (.inl h))
    · exact d3 k h (by omega)
  · intro δ hδ
    exact ⟨(hp (E - δ) (by omega)).2.1, hJ δ hδ⟩

end Verif
