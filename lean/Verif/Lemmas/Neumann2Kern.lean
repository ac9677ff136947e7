import Verif.Model.Neumann2
import Verif.Spec.LabelsC
import Verif.Lemmas.Fct

/-! The kernel and the currents of the 2vN approach in closed form. -/

namespace Verif

open Finset

noncomputable section

namespace VOkC

variable {v : View} {lab ix1 : Nat → Nat → Nat → Nat} (h : VOkC v lab ix1)

include h

theorem row_lt {c b : Nat} (hb : b ∈ v.row c) : c < v.ncharge := by
  by_contra hc
  rw [h.last c (by omega)] at hb
  simp at hb

theorem states {c : Nat} (hc : c ≤ v.ncharge) : v.states (c : Int) = .ok (v.row c) := by
  have hl := h.len
  unfold View.states
  rw [pyGet_nat _ (by omega)]
  simp [View.row, show c < v.statesdm.length by omega]

theorem states_succ {c : Nat} (hc : c < v.ncharge) :
    v.states ((c : Int) + 1) = .ok (v.row (c + 1)) := h.states (c := c + 1) hc

theorem states_neg : v.states (-1) = .ok [] := by
  have hl := h.len
  unfold View.states pyGet
  have : pyIdx v.statesdm.length (-1) = .ok (v.statesdm.length - 1) := by
    have := pyIdx_neg (len := v.statesdm.length) (k := 1) (by omega) (by omega)
    simpa using this
  rw [this]
  have h2 := h.last (v.statesdm.length - 1) (by omega)
  simp only [View.row] at h2
  simp only
  rw [List.getElem?_eq_getElem (by omega)] at h2 ⊢
  simpa using h2

theorem states_pred {c : Nat} (hc : c ≤ v.ncharge) :
    v.states ((c : Int) - 1) = .ok (v.low c) := by
  unfold View.low
  rcases c with _ | c
  · simpa using h.states_neg
  · simpa using h.states (c := c) (by omega)

theorem low_mem {c a : Nat} (ha : a ∈ v.low c) : 0 < c ∧ a ∈ v.row (c - 1) ∧
    ((c : Int) - 1) = ((c - 1 : Nat) : Int) := by
  unfold View.low at ha
  rcases c with _ | c
  · simp at ha
  · exact ⟨by omega, by simpa using ha, by simp⟩

theorem low_nodup (c : Nat) : (v.low c).Nodup := by
  unfold View.low
  split
  · simp
  · exact h.nodup _

theorem mem_R {c b : Nat} : b ∈ v.R c ↔ b ∈ v.row c := by simp [View.R]

theorem R_top : v.R v.ncharge = ∅ := by simp [View.R, h.last]

theorem rd_ok {β : Type} (fct : Nat → Nat → β) (l : Nat) {q c b : Nat} (hc : c ∈ v.row (q + 1))
    (hb : b ∈ v.row q) : v.rd fct l (ix1 q c b) = .ok (fct l (ix1 q c b)) := by
  unfold View.rd
  rw [if_pos (h.ix1_lt q c b hc hb)]
  rfl

/-- The labels below `npauli` are those of the diagonal elements. -/
theorem sum_pop {β : Type} [AddCommMonoid β] (f : Nat → β) :
    ∑ i ∈ range v.npauli, f i = ∑ q ∈ range v.ncharge, ∑ b ∈ v.R q, f (lab q b b) := by
  rw [sum_sigma']
  symm
  apply sum_nbij (fun x : (_ : Nat) × Nat => lab x.1 x.2 x.2)
  · rintro ⟨q, b⟩ hx
    simp only [mem_sigma, mem_range] at hx ⊢
    have hb := h.mem_R.1 hx.2
    exact (h.lab_diag q b b hb hb).2 rfl
  · rintro ⟨q, b⟩ hx ⟨q', b'⟩ hx' e
    simp only [coe_sigma, Set.mem_sigma_iff, mem_coe, mem_range] at hx hx'
    have hb := h.mem_R.1 hx.2
    have hb' := h.mem_R.1 hx'.2
    obtain ⟨rfl, rfl, _⟩ := h.lab_inj q b b q' b' b' hb hb hb' hb' e
    rfl
  · intro k hk
    simp only [coe_range, Set.mem_Iio] at hk
    obtain ⟨c, b, bp, hb, hbp, e⟩ := h.lab_surj k (lt_of_lt_of_le hk h.np_le)
    have hbb := (h.lab_diag c b bp hb hbp).1 (by rw [e]; exact hk)
    subst hbb
    exact ⟨⟨c, b⟩, by simpa using ⟨h.row_lt hb, h.mem_R.2 hb⟩, e⟩
  · intro x _; rfl

/-- Sums over all labels. -/
theorem sum_all {β : Type} [AddCommMonoid β] (f : Nat → β) :
    ∑ i ∈ range v.ndm0, f i = ∑ q ∈ range v.ncharge, ∑ b ∈ v.R q, ∑ bp ∈ v.R q, f (lab q b bp) := by
  simp_rw [← sum_product']
  rw [sum_sigma']
  symm
  apply sum_nbij (fun x : (_ : Nat) × Nat × Nat => lab x.1 x.2.1 x.2.2)
  · rintro ⟨q, b, bp⟩ hx
    simp only [mem_sigma, mem_range, mem_product] at hx ⊢
    exact h.lab_lt q b bp (h.mem_R.1 hx.2.1) (h.mem_R.1 hx.2.2)
  · rintro ⟨q, b, bp⟩ hx ⟨q', b', bp'⟩ hx' e
    simp only [coe_sigma, Set.mem_sigma_iff, mem_coe, mem_range, mem_product] at hx hx'
    obtain ⟨rfl, rfl, rfl⟩ := h.lab_inj q b bp q' b' bp' (h.mem_R.1 hx.2.1) (h.mem_R.1 hx.2.2)
      (h.mem_R.1 hx'.2.1) (h.mem_R.1 hx'.2.2) e
    rfl
  · intro k hk
    simp only [coe_range, Set.mem_Iio] at hk
    obtain ⟨c, b, bp, hb, hbp, e⟩ := h.lab_surj k hk
    exact ⟨⟨c, b, bp⟩, by simpa using ⟨h.row_lt hb, h.mem_R.2 hb, h.mem_R.2 hbp⟩, e⟩
  · intro x _; rfl

theorem balance {β : Type} [AddCommMonoid β] (D U : Nat → Nat → Nat → β) :
    ∑ q ∈ range v.ncharge, ∑ b ∈ v.R q,
      (∑ a ∈ v.Lo q, D (q - 1) b a + ∑ c ∈ v.R (q + 1), U q c b)
    = ∑ q ∈ range (v.ncharge - 1), ∑ c ∈ v.R (q + 1), ∑ b ∈ v.R q, (D q c b + U q c b) := by
  have hU : ∑ q ∈ range v.ncharge, ∑ b ∈ v.R q, ∑ c ∈ v.R (q + 1), U q c b
      = ∑ q ∈ range (v.ncharge - 1), ∑ c ∈ v.R (q + 1), ∑ b ∈ v.R q, U q c b := by
    rcases hn : v.ncharge with _ | n
    · simp
    · rw [sum_range_succ, ← hn, h.R_top, hn]
      simp only [sum_empty, sum_const_zero, add_zero, Nat.add_sub_cancel]
      exact sum_congr rfl fun q _ => sum_comm
  have hD : ∑ q ∈ range v.ncharge, ∑ b ∈ v.R q, ∑ a ∈ v.Lo q, D (q - 1) b a
      = ∑ q ∈ range (v.ncharge - 1), ∑ c ∈ v.R (q + 1), ∑ b ∈ v.R q, D q c b := by
    rcases hn : v.ncharge with _ | n
    · simp
    · rw [sum_range_succ']
      simp [View.Lo, View.low, View.R]
  simp only [sum_add_distrib]
  rw [hU, hD]

end VOkC

namespace VN2

/-! ### Row operations -/

/-- The effect of an assignment on one entry. -/
def RowOp.eff (r j : Nat) (x : ℂ) : RowOp → ℂ
  | .put i k z => if i = (r : Int) ∧ k = (j : Int) then z else x
  | .addRow i y => if i = (r : Int) then x + y j else x

/-- The assignment uses indices that are not negative. -/
def RowOp.nonneg : RowOp → Prop
  | .put i k _ => 0 ≤ i ∧ 0 ≤ k
  | .addRow i _ => 0 ≤ i

/-- The row of an assignment. -/
def RowOp.row : RowOp → Int
  | .put i _ _ => i
  | .addRow i _ => i

theorem py_err {α β : Type} {e : PyErr} {f : α → Py β} {y : β} (h : ((Except.error e : Py α) >>= f) = .ok y) : False := by
  have : (Except.error e : Py β) = .ok y := h
  simp at this

theorem pyIdx_nonneg {n : Nat} {i : Int} {k : Nat} (hi : 0 ≤ i) (e : pyIdx n i = .ok k) : i = (k : Int) ∧ k < n := by
  unfold pyIdx at e
  rw [if_pos hi] at e
  split at e
  · simp only [Except.ok.injEq] at e
    omega
  · simp at e

theorem run_eff {m m' : CMat} {op : RowOp} (hn : op.nonneg) (e : op.run m = .ok m') :
    m'.rows = m.rows ∧ m'.cols = m.cols ∧ ∀ r j, m'.val r j = op.eff r j (m.val r j) := by
  rcases op with ⟨i, k, z⟩ | ⟨i, y⟩
  · simp only [RowOp.run, CMat.put] at e
    rcases h1 : pyIdx m.rows i with _ | r0
    · rw [h1] at e; exact (py_err e).elim
    · rcases h2 : pyIdx m.cols k with _ | c0
      · rw [h1, h2] at e; simp only [py_bind_ok] at e; exact (py_err e).elim
      · rw [h1, h2] at e
        simp only [py_bind_ok, py_pure, Except.ok.injEq] at e
        subst e
        obtain ⟨rfl, _⟩ := pyIdx_nonneg hn.1 h1
        obtain ⟨rfl, _⟩ := pyIdx_nonneg hn.2 h2
        refine ⟨rfl, rfl, fun r j => ?_⟩
        simp [RowOp.eff, eq_comm]
  · simp only [RowOp.run, CMat.addRow] at e
    rcases h1 : pyIdx m.rows i with _ | r0
    · rw [h1] at e; exact (py_err e).elim
    · rw [h1] at e
      simp only [py_bind_ok, py_pure, Except.ok.injEq] at e
      subst e
      obtain ⟨rfl, _⟩ := pyIdx_nonneg hn h1
      refine ⟨rfl, rfl, fun r j => ?_⟩
      simp [RowOp.eff, eq_comm]

theorem runs_eff {ops : List RowOp} (hn : ∀ op ∈ ops, op.nonneg) {m m' : CMat}
    (e : ops.foldlM RowOp.run m = .ok m') :
    m'.rows = m.rows ∧ m'.cols = m.cols ∧ ∀ r j, m'.val r j = ops.foldl (fun x op => op.eff r j x) (m.val r j) := by
  induction ops generalizing m with
  | nil =>
    simp only [List.foldlM_nil, py_pure, Except.ok.injEq] at e
    subst e; simp
  | cons op ops ih =>
    rw [List.foldlM_cons] at e
    rcases h1 : op.run m with _ | m1
    · rw [h1] at e; exact (py_err e).elim
    · rw [h1] at e
      simp only [py_bind_ok] at e
      obtain ⟨a1, a2, a3⟩ := run_eff (hn op (by simp)) h1
      obtain ⟨b1, b2, b3⟩ := ih (fun o ho => hn o (by simp [ho])) e
      refine ⟨by rw [b1, a1], by rw [b2, a2], fun r j => ?_⟩
      rw [b3, a3, List.foldl_cons]

theorem run_size {m m' : CMat} {op : RowOp} (e : op.run m = .ok m') : m'.rows = m.rows ∧ m'.cols = m.cols := by
  rcases op with ⟨i, k, z⟩ | ⟨i, y⟩
  · simp only [RowOp.run, CMat.put] at e
    rcases h1 : pyIdx m.rows i with _ | r0
    · rw [h1] at e; exact (py_err e).elim
    · rcases h2 : pyIdx m.cols k with _ | c0
      · rw [h1, h2] at e; simp only [py_bind_ok] at e; exact (py_err e).elim
      · rw [h1, h2] at e
        simp only [py_bind_ok, py_pure, Except.ok.injEq] at e
        subst e
        exact ⟨rfl, rfl⟩
  · simp only [RowOp.run, CMat.addRow] at e
    rcases h1 : pyIdx m.rows i with _ | r0
    · rw [h1] at e; exact (py_err e).elim
    · rw [h1] at e
      simp only [py_bind_ok, py_pure, Except.ok.injEq] at e
      subst e
      exact ⟨rfl, rfl⟩

theorem runs_size {ops : List RowOp} {m m' : CMat} (e : ops.foldlM RowOp.run m = .ok m') :
    m'.rows = m.rows ∧ m'.cols = m.cols := by
  induction ops generalizing m with
  | nil =>
    simp only [List.foldlM_nil, py_pure, Except.ok.injEq] at e
    subst e; simp
  | cons op ops ih =>
    rw [List.foldlM_cons] at e
    rcases h1 : op.run m with _ | m1
    · rw [h1] at e; exact (py_err e).elim
    · rw [h1] at e
      simp only [py_bind_ok] at e
      obtain ⟨a1, a2⟩ := run_size h1
      obtain ⟨b1, b2⟩ := ih e
      exact ⟨by rw [b1, a1], by rw [b2, a2]⟩

/-- All indices are in range. -/
def RowOp.ok (n k : Nat) : RowOp → Prop
  | .put i j _ => (0 ≤ i ∧ i < n) ∧ 0 ≤ j ∧ j < k
  | .addRow i _ => 0 ≤ i ∧ i < n

theorem RowOp.ok.nonneg {n k : Nat} {op : RowOp} (h : op.ok n k) : op.nonneg := by
  rcases op with ⟨i, j, z⟩ | ⟨i, y⟩
  · exact ⟨h.1.1, h.2.1⟩
  · exact h.1

theorem pyIdx_ok {n : Nat} {i : Int} (h0 : 0 ≤ i) (h1 : i < n) : pyIdx n i = .ok i.toNat := by
  have := pyIdx_nat (len := n) (k := i.toNat) (by omega)
  rwa [Int.toNat_of_nonneg h0] at this

theorem run_ok {m : CMat} {op : RowOp} (hn : op.ok m.rows m.cols) : ∃ m', op.run m = .ok m' := by
  rcases op with ⟨i, k, z⟩ | ⟨i, y⟩
  · simp only [RowOp.run, CMat.put]
    rw [pyIdx_ok hn.1.1 hn.1.2, pyIdx_ok hn.2.1 hn.2.2]
    exact ⟨_, rfl⟩
  · simp only [RowOp.run, CMat.addRow]
    rw [pyIdx_ok hn.1 hn.2]
    exact ⟨_, rfl⟩

theorem runs_ok {ops : List RowOp} {m : CMat} (hn : ∀ op ∈ ops, op.ok m.rows m.cols) :
    ∃ m', ops.foldlM RowOp.run m = .ok m' := by
  induction ops generalizing m with
  | nil => exact ⟨m, rfl⟩
  | cons op ops ih =>
    obtain ⟨m1, e1⟩ := run_ok (hn op (by simp))
    obtain ⟨a1, a2, _⟩ := run_eff (hn op (by simp)).nonneg e1
    obtain ⟨m', e'⟩ := ih (m := m1) (fun o ho => by rw [a1, a2]; exact hn o (by simp [ho]))
    refine ⟨m', ?_⟩
    rw [List.foldlM_cons, e1]
    exact e'

theorem foldl_id {α β : Type} {f : β → α → β} {l : List α} (h : ∀ x ∈ l, ∀ s, f s x = s) (s : β) :
    l.foldl f s = s := by
  induction l generalizing s with
  | nil => rfl
  | cons a l ih => rw [List.foldl_cons, h a (by simp), ih (fun x hx => h x (by simp [hx]))]

/-- Only one group of a list acts. -/
theorem foldl_single {α β γ : Type} {f : γ → β → γ} {l : List α} {g : α → List β} (hn : l.Nodup) {x0 : α} (hx : x0 ∈ l)
    (h0 : ∀ x ∈ l, x ≠ x0 → ∀ s, (g x).foldl f s = s) (s : γ) : (l.flatMap g).foldl f s = (g x0).foldl f s := by
  induction l generalizing s with
  | nil => simp at hx
  | cons a l ih =>
    obtain ⟨n1, n2⟩ := List.nodup_cons.1 hn
    rw [List.flatMap_cons, List.foldl_append]
    rcases List.mem_cons.1 hx with rfl | hx'
    · rw [List.foldl_flatMap]
      apply foldl_id
      intro x hx2 s
      exact h0 x (by simp [hx2]) (by rintro rfl; exact n1 hx2) s
    · rw [h0 a (by simp) (by rintro rfl; exact n1 hx'), ih n2 hx' (fun x hx => h0 x (by simp [hx]))]

theorem eff_other {r j : Nat} {op : RowOp} (h : op.row ≠ (r : Int)) (s : ℂ) : op.eff r j s = s := by
  rcases op with ⟨i, k, z⟩ | ⟨i, y⟩
  · simp only [RowOp.row] at h; simp [RowOp.eff, h]
  · simp only [RowOp.row] at h; simp [RowOp.eff, h]

/-- What an addition adds to column `j`. -/
def RowOp.inc (j : Nat) : RowOp → ℂ
  | .put _ _ _ => 0
  | .addRow _ y => y j

theorem foldl_adds {r j : Nat} {ops : List RowOp} (h : ∀ op ∈ ops, ∃ y, op = .addRow r y) (s : ℂ) :
    ops.foldl (fun x op => op.eff r j x) s = s + (ops.map (RowOp.inc j)).sum := by
  induction ops generalizing s with
  | nil => simp
  | cons op ops ih =>
    obtain ⟨y, rfl⟩ := h op (by simp)
    rw [List.foldl_cons, ih (fun o ho => h o (by simp [ho]))]
    simp [RowOp.eff, RowOp.inc, add_assoc]

/-! ### The permutation -/

section

variable {v : View} {lab ix1 : Nat → Nat → Nat → Nat} (h : VOkC v lab ix1)

include h

/-- The assignments of `shuffle` for one charge. -/
def shufOps (v : View) (lab : Nat → Nat → Nat → Nat) (c : Nat) : List RowOp :=
  (combsR2 (v.row c)).flatMap fun p => [.put (lab c p.1 p.2) (lab c p.2 p.1) 1, .put (lab c p.2 p.1) (lab c p.1 p.2) 1]

theorem shuffle_eq : shuffle v
    = ((List.range v.ncharge).flatMap (shufOps v lab)).foldlM RowOp.run (CMat.zeros v.ndm0 v.ndm0) := by
  have inner : ∀ (c : Nat) (l : List (Nat × Nat)), (∀ p ∈ l, p.1 ∈ v.row c ∧ p.2 ∈ v.row c) → ∀ m : CMat,
      l.foldlM (fun m p => do
        let bbp ← v.ind0 p.1 p.2 c
        let bpb ← v.ind0 p.2 p.1 c
        let m ← m.put bbp bpb 1
        m.put bpb bbp 1) m
      = (l.flatMap fun p => [RowOp.put (lab c p.1 p.2) (lab c p.2 p.1) 1,
          .put (lab c p.2 p.1) (lab c p.1 p.2) 1]).foldlM RowOp.run m := by
    intro c l hl
    induction l with
    | nil => intro m; rfl
    | cons p l ih =>
      intro m
      obtain ⟨h1, h2⟩ := hl p (by simp)
      rw [List.foldlM_cons, List.flatMap_cons, List.foldlM_append]
      rw [h.ind0 c _ _ h1 h2, h.ind0 c _ _ h2 h1]
      simp only [py_bind_ok, List.foldlM_cons, List.foldlM_nil, RowOp.run]
      rcases m.put (lab c p.1 p.2) (lab c p.2 p.1) 1 with e | m1
      · rfl
      · simp only [py_bind_ok]
        rcases m1.put (lab c p.2 p.1) (lab c p.1 p.2) 1 with e | m2
        · rfl
        · exact ih (fun q hq => hl q (by simp [hq])) m2
  have outer : ∀ (l : List Nat), (∀ c ∈ l, c < v.ncharge) → ∀ m : CMat,
      l.foldlM (fun m (c : Nat) => do
        let s ← v.states c
        (combsR2 s).foldlM (fun m p => do
          let bbp ← v.ind0 p.1 p.2 c
          let bpb ← v.ind0 p.2 p.1 c
          let m ← m.put bbp bpb 1
          m.put bpb bbp 1) m) m
      = (l.flatMap (shufOps v lab)).foldlM RowOp.run m := by
    intro l hl
    induction l with
    | nil => intro m; rfl
    | cons c l ih =>
      intro m
      have hc := hl c (by simp)
      rw [List.foldlM_cons, List.flatMap_cons, List.foldlM_append]
      rw [h.states (c := c) (by omega)]
      simp only [py_bind_ok]
      rw [inner c _ (fun p hp => combsR2_mem hp)]
      change (List.foldlM RowOp.run m (shufOps v lab c) >>= _) = _
      rcases List.foldlM RowOp.run m (shufOps v lab c) with e | m1
      · rfl
      · exact ih (fun q hq => hl q (by simp [hq])) m1
  exact outer _ (fun c hc => List.mem_range.1 hc) _

/-- The elements of the permutation matrix. -/
theorem shuffle_ok : ∃ sh, shuffle v = .ok sh ∧ ∀ c b bp k, b ∈ v.row c → bp ∈ v.row c →
    sh.val k (lab c b bp) = if k = lab c bp b then 1 else 0 := by
  have hops : ∀ op ∈ (List.range v.ncharge).flatMap (shufOps v lab), ∃ c b bp, b ∈ v.row c ∧ bp ∈ v.row c ∧
      op = .put (lab c b bp) (lab c bp b) 1 := by
    intro op hop
    simp only [List.mem_flatMap, shufOps] at hop
    obtain ⟨c, _, p, hp, ho⟩ := hop
    obtain ⟨h1, h2⟩ := combsR2_mem hp
    simp only [List.mem_cons, List.not_mem_nil, or_false] at ho
    rcases ho with rfl | rfl
    · exact ⟨c, p.1, p.2, h1, h2, rfl⟩
    · exact ⟨c, p.2, p.1, h2, h1, rfl⟩
  have hok : ∀ op ∈ (List.range v.ncharge).flatMap (shufOps v lab), op.ok v.ndm0 v.ndm0 := by
    intro op hop
    obtain ⟨c, b, bp, hb, hbp, rfl⟩ := hops op hop
    have := h.lab_lt c b bp hb hbp
    have := h.lab_lt c bp b hbp hb
    exact ⟨⟨by omega, by omega⟩, by omega, by omega⟩
  obtain ⟨sh, e⟩ := runs_ok (m := CMat.zeros v.ndm0 v.ndm0) hok
  refine ⟨sh, by rw [shuffle_eq h, e], ?_⟩
  intro c b bp k hb hbp
  obtain ⟨_, _, hv⟩ := runs_eff (fun op hop => (hok op hop).nonneg) e
  rw [hv]
  simp only [CMat.zeros]
  classical
  -- an entry is one as soon as one assignment hits it
  have gen : ∀ (ops : List RowOp) (r j : Nat), (∀ op ∈ ops, ∃ i i', op = RowOp.put i i' 1) → ∀ s : ℂ,
      ops.foldl (fun x op => op.eff r j x) s = if (RowOp.put (r : Int) (j : Int) 1) ∈ ops then 1 else s := by
    intro ops r j ho
    induction ops with
    | nil => intro s; simp
    | cons op ops ih =>
      intro s
      obtain ⟨i, i', rfl⟩ := ho op (by simp)
      rw [List.foldl_cons, ih (fun o h' => ho o (by simp [h']))]
      by_cases hm : RowOp.put (r : Int) (j : Int) 1 ∈ ops
      · simp [hm]
      · by_cases hi : i = (r : Int) ∧ i' = (j : Int)
        · obtain ⟨rfl, rfl⟩ := hi
          simp [RowOp.eff]
        · rw [if_neg hm]
          have : RowOp.put (r : Int) (j : Int) 1 ∉ RowOp.put i i' 1 :: ops := by
            intro hh
            rcases List.mem_cons.1 hh with hh | hh
            · simp only [RowOp.put.injEq] at hh
              exact hi ⟨hh.1.symm, hh.2.1.symm⟩
            · exact hm hh
          rw [if_neg this]
          simp [RowOp.eff, hi]
  rw [gen _ _ _ (fun op hop => by obtain ⟨c, b, bp, _, _, rfl⟩ := hops op hop; exact ⟨_, _, rfl⟩)]
  by_cases hk : k = lab c bp b
  · subst hk
    rw [if_pos rfl, if_pos]
    simp only [List.mem_flatMap, shufOps]
    refine ⟨c, List.mem_range.2 (h.row_lt hb), ?_⟩
    rcases combsR2_complete hb hbp with hm | hm
    · exact ⟨_, hm, by simp⟩
    · exact ⟨_, hm, by simp⟩
  · rw [if_neg hk, if_neg]
    intro hh
    obtain ⟨c', b', bp', hb', hbp', e'⟩ := hops _ hh
    simp only [RowOp.put.injEq, Nat.cast_inj] at e'
    obtain ⟨rfl, rfl, rfl⟩ := h.lab_inj _ _ _ _ _ _ hb hbp hbp' hb' e'.2.1
    exact hk e'.1

/-- The conjugated array is the conjugate at the transposed column. -/
theorem conjP_eq {sh : CMat} (hs : ∀ c b bp k, b ∈ v.row c → bp ∈ v.row c →
    sh.val k (lab c b bp) = if k = lab c bp b then 1 else 0) (P : C3) (l i : Nat) {c b bp : Nat} (hb : b ∈ v.row c)
    (hbp : bp ∈ v.row c) : conjP v P sh l i (lab c b bp) = (starRingEnd ℂ) (P l i (lab c bp b)) := by
  unfold conjP
  simp_rw [hs c b bp _ hb hbp]
  simp [h.lab_lt c bp b hbp hb]

/-! ### The rows of the kernel -/

omit h in
/-- What the lead `l` contributes to row `(b, bp)` through the state `a` with one electron less. -/
def dn (T : Nat → Nat → Nat → ℂ) (P Pc : C3) (ix1 : Nat → Nat → Nat → Nat) (q b bp a l j : Nat) : ℂ :=
  T l b a * Pc l (ix1 q bp a) j - P l (ix1 q b a) j * T l a bp

omit h in
/-- The same through the state `c` with one electron more. -/
def up (T : Nat → Nat → Nat → ℂ) (P Pc : C3) (ix1 : Nat → Nat → Nat → Nat) (q b bp c l j : Nat) : ℂ :=
  T l b c * P l (ix1 q c bp) j - Pc l (ix1 q c b) j * T l c bp

omit h in
/-- The list of additions. -/
def addOps (v : View) (T : Nat → Nat → Nat → ℂ) (P Pc : C3) (lab ix1 : Nat → Nat → Nat → Nat) (c b bp : Nat) : List RowOp :=
  ((v.low c).flatMap fun a => (List.range v.nleads).flatMap fun l =>
    [RowOp.addRow (lab c b bp) fun j => T l b a * Pc l (ix1 (c - 1) bp a) j,
      .addRow (lab c b bp) fun j => -P l (ix1 (c - 1) b a) j * T l a bp]) ++
  ((v.row (c + 1)).flatMap fun c1 => (List.range v.nleads).flatMap fun l =>
    [RowOp.addRow (lab c b bp) fun j => T l b c1 * P l (ix1 c c1 bp) j,
      .addRow (lab c b bp) fun j => -Pc l (ix1 c c1 b) j * T l c1 bp])

theorem rowOps_ok (E : Nat → ℝ) (T : Nat → Nat → Nat → ℂ) (P Pc : C3) {c b bp : Nat} (hb : b ∈ v.row c)
    (hbp : bp ∈ v.row c) : rowOps v E T P Pc c b bp
      = .ok (RowOp.put (lab c b bp) (lab c b bp) ((E b - E bp : ℝ) : ℂ) :: addOps v T P Pc lab ix1 c b bp) := by
  have hc := h.row_lt hb
  unfold rowOps
  rw [h.ind0 c b bp hb hbp, h.states_pred hc.le, h.states_succ hc]
  simp only [py_bind_ok]
  rw [collect_ok (g := fun a => (List.range v.nleads).flatMap fun l =>
    [RowOp.addRow (lab c b bp) fun j => T l b a * Pc l (ix1 (c - 1) bp a) j,
      .addRow (lab c b bp) fun j => -P l (ix1 (c - 1) b a) j * T l a bp])]
  · simp only [py_bind_ok]
    rw [collect_ok (g := fun c1 => (List.range v.nleads).flatMap fun l =>
      [RowOp.addRow (lab c b bp) fun j => T l b c1 * P l (ix1 c c1 bp) j,
        .addRow (lab c b bp) fun j => -Pc l (ix1 c c1 b) j * T l c1 bp])]
    · rfl
    · intro c1 hc1
      rw [h.ind1 c c1 bp hc1 hbp, h.ind1 c c1 b hc1 hb]
      simp only [py_bind_ok]
      apply collect_ok
      intro l _
      rw [h.rd_ok P l hc1 hbp, h.rd_ok Pc l hc1 hb]
      rfl
  · intro a ha
    obtain ⟨h0, ha', hcast⟩ := h.low_mem ha
    have e1 : c - 1 + 1 = c := by omega
    rw [hcast, h.ind1 (c - 1) bp a (by rw [e1]; exact hbp) ha', h.ind1 (c - 1) b a (by rw [e1]; exact hb) ha']
    simp only [py_bind_ok]
    apply collect_ok
    intro l _
    rw [h.rd_ok Pc l (by rw [e1]; exact hbp) ha', h.rd_ok P l (by rw [e1]; exact hb) ha']
    rfl

omit h in
theorem addOps_add {T : Nat → Nat → Nat → ℂ} {P Pc : C3} {c b bp : Nat} :
    ∀ op ∈ addOps v T P Pc lab ix1 c b bp, ∃ y, op = RowOp.addRow (lab c b bp) y := by
  intro op ho
  simp only [addOps, List.mem_append, List.mem_flatMap, List.mem_cons, List.not_mem_nil, or_false] at ho
  rcases ho with ⟨a, _, l, _, rfl | rfl⟩ | ⟨a, _, l, _, rfl | rfl⟩ <;> exact ⟨_, rfl⟩

theorem addOps_sum (T : Nat → Nat → Nat → ℂ) (P Pc : C3) (c b bp j : Nat) :
    ((addOps v T P Pc lab ix1 c b bp).map (RowOp.inc j)).sum
      = ∑ a ∈ v.Lo c, ∑ l ∈ range v.nleads, dn T P Pc ix1 (c - 1) b bp a l j
        + ∑ c1 ∈ v.R (c + 1), ∑ l ∈ range v.nleads, up T P Pc ix1 c b bp c1 l j := by
  unfold addOps
  rw [List.map_append, List.sum_append, sum_flatMap', sum_flatMap']
  simp only [sum_flatMap']
  congr 1
  · rw [View.Lo, ← List.sum_toFinset _ (h.low_nodup c)]
    refine sum_congr rfl fun a _ => ?_
    rw [sum_range_list]
    refine sum_congr rfl fun l _ => ?_
    simp [RowOp.inc, dn]; ring
  · rw [View.R, ← List.sum_toFinset _ (h.nodup (c + 1))]
    refine sum_congr rfl fun a _ => ?_
    rw [sum_range_list]
    refine sum_congr rfl fun l _ => ?_
    simp [RowOp.inc, up]; ring

omit h in
/-- All assignments of `generate_kern`. -/
def kernOps (v : View) (E : Nat → ℝ) (T : Nat → Nat → Nat → ℂ) (P Pc : C3) (lab ix1 : Nat → Nat → Nat → Nat) :
    List RowOp :=
  (List.range v.ncharge).flatMap fun c => (prod2 (v.row c) (v.row c)).flatMap fun p =>
    RowOp.put (lab c p.1 p.2) (lab c p.1 p.2) ((E p.1 - E p.2 : ℝ) : ℂ) :: addOps v T P Pc lab ix1 c p.1 p.2

theorem genKern_eq {sh : CMat} (hs : shuffle v = .ok sh) (E : Nat → ℝ) (T : Nat → Nat → Nat → ℂ) (P : C3) (K : CMat) :
    genKern v E T P K = (kernOps v E T P (conjP v P sh) lab ix1).foldlM RowOp.run K := by
  unfold genKern
  rw [hs]
  simp only [py_bind_ok]
  rw [collect_ok (g := fun c => (prod2 (v.row c) (v.row c)).flatMap fun p =>
    RowOp.put (lab c p.1 p.2) (lab c p.1 p.2) ((E p.1 - E p.2 : ℝ) : ℂ)
      :: addOps v T P (conjP v P sh) lab ix1 c p.1 p.2)]
  · rfl
  · intro c hc
    rw [h.states (List.mem_range.1 hc).le]
    simp only [py_bind_ok]
    apply collect_ok
    intro p hp
    obtain ⟨h1, h2⟩ := prod2_mem hp
    exact rowOps_ok h E T P _ h1 h2

theorem kernOps_nonneg {E : Nat → ℝ} {T : Nat → Nat → Nat → ℂ} {P Pc : C3} :
    ∀ op ∈ kernOps v E T P Pc lab ix1, op.ok v.ndm0 v.ndm0 := by
  intro op ho
  simp only [kernOps, List.mem_flatMap, List.mem_cons] at ho
  obtain ⟨c, _, p, hp, ho⟩ := ho
  obtain ⟨h1, h2⟩ := prod2_mem hp
  have := h.lab_lt c p.1 p.2 h1 h2
  rcases ho with rfl | ho
  · exact ⟨⟨by omega, by omega⟩, by omega, by omega⟩
  · obtain ⟨y, rfl⟩ := addOps_add op ho
    exact ⟨by omega, by omega⟩

theorem kernOps_val (E : Nat → ℝ) (T : Nat → Nat → Nat → ℂ) (P Pc : C3) {c b bp : Nat} (hb : b ∈ v.row c)
    (hbp : bp ∈ v.row c) (j : Nat) (s : ℂ) :
    (kernOps v E T P Pc lab ix1).foldl (fun x op => op.eff (lab c b bp) j x) s
      = (if j = lab c b bp then ((E b - E bp : ℝ) : ℂ) else s)
        + (∑ a ∈ v.Lo c, ∑ l ∈ range v.nleads, dn T P Pc ix1 (c - 1) b bp a l j
        + ∑ c1 ∈ v.R (c + 1), ∑ l ∈ range v.nleads, up T P Pc ix1 c b bp c1 l j) := by
  have other : ∀ c' b' bp', b' ∈ v.row c' → bp' ∈ v.row c' → ¬ (c' = c ∧ b' = b ∧ bp' = bp) → ∀ s : ℂ,
      (RowOp.put (lab c' b' bp') (lab c' b' bp') ((E b' - E bp' : ℝ) : ℂ)
        :: addOps v T P Pc lab ix1 c' b' bp').foldl (fun x op => op.eff (lab c b bp) j x) s = s := by
    intro c' b' bp' hb' hbp' hne s
    have hl : (lab c' b' bp' : Int) ≠ (lab c b bp : Int) := by
      intro e
      exact hne (h.lab_inj _ _ _ _ _ _ hb' hbp' hb hbp (by exact_mod_cast e))
    apply foldl_id
    intro op ho s
    apply eff_other
    rcases List.mem_cons.1 ho with rfl | ho
    · exact hl
    · obtain ⟨y, rfl⟩ := addOps_add op ho
      exact hl
  unfold kernOps
  rw [foldl_single List.nodup_range (x0 := c) (List.mem_range.2 (h.row_lt hb))]
  · rw [foldl_single (x0 := (b, bp))]
    · rw [List.foldl_cons, foldl_adds (fun op ho => addOps_add op ho), addOps_sum h]
      congr 1
      simp [RowOp.eff, eq_comm]
    · unfold prod2
      exact List.Nodup.product (h.nodup c) (h.nodup c)
    · unfold prod2
      simp only [List.mem_flatMap, List.mem_map, Prod.mk.injEq]
      exact ⟨b, hb, bp, hbp, rfl, rfl⟩
    · intro p hp hne s
      obtain ⟨h1, h2⟩ := prod2_mem hp
      exact other c p.1 p.2 h1 h2 (fun hh => hne (Prod.ext hh.2.1 hh.2.2)) s
  · intro c' hc' hne s
    rw [List.foldl_flatMap]
    apply foldl_id
    intro p hp s
    obtain ⟨h1, h2⟩ := prod2_mem hp
    exact other c' p.1 p.2 h1 h2 (fun hh => hne hh.1) s

/-- The kernel: rows of elements, columns of elements. -/
theorem genKern_val {E : Nat → ℝ} {T : Nat → Nat → Nat → ℂ} {P : C3} {K K' : CMat} (e : genKern v E T P K = .ok K')
    (h0 : ∀ r j, K.val r j = 0) {c b bp c' d dp : Nat} (hb : b ∈ v.row c) (hbp : bp ∈ v.row c) (hd : d ∈ v.row c')
    (hdp : dp ∈ v.row c') :
    K'.val (lab c b bp) (lab c' d dp)
      = (if lab c' d dp = lab c b bp then ((E b - E bp : ℝ) : ℂ) else 0)
        + (∑ a ∈ v.Lo c, ∑ l ∈ range v.nleads,
            (T l b a * (starRingEnd ℂ) (P l (ix1 (c - 1) bp a) (lab c' dp d))
              - P l (ix1 (c - 1) b a) (lab c' d dp) * T l a bp)
        + ∑ c1 ∈ v.R (c + 1), ∑ l ∈ range v.nleads,
            (T l b c1 * P l (ix1 c c1 bp) (lab c' d dp)
              - (starRingEnd ℂ) (P l (ix1 c c1 b) (lab c' dp d)) * T l c1 bp)) := by
  obtain ⟨sh, hs, hv⟩ := shuffle_ok h
  rw [genKern_eq h hs] at e
  obtain ⟨_, _, hK⟩ := runs_eff (fun op hop => (kernOps_nonneg h op hop).nonneg) e
  rw [hK, kernOps_val h E T P _ hb hbp, h0]
  simp only [dn, up, conjP_eq h hv P _ _ hd hdp]

theorem genKern_ok (E : Nat → ℝ) (T : Nat → Nat → Nat → ℂ) (P : C3) {K : CMat} (hr : v.ndm0 ≤ K.rows)
    (hc : v.ndm0 ≤ K.cols) : ∃ K', genKern v E T P K = .ok K' := by
  obtain ⟨sh, hs, hv⟩ := shuffle_ok h
  rw [genKern_eq h hs]
  apply runs_ok
  intro op ho
  have := kernOps_nonneg h op ho
  rcases op with ⟨i, k, z⟩ | ⟨i, y⟩
  · exact ⟨⟨this.1.1, by have := this.1.2; omega⟩, this.2.1, by have := this.2.2; omega⟩
  · exact ⟨this.1, by have := this.2; omega⟩

/-! ### Currents -/

theorem genCurrent_ok (T : Nat → Nat → Nat → ℂ) (p1 h1 : Nat → Nat → ℂ) :
    ∃ evs, genCurrent v T p1 h1 = .ok evs ∧ ∀ l, l < v.nleads →
      current evs l = ∑ q ∈ range (v.ncharge - 1), ∑ c ∈ v.R (q + 1), ∑ b ∈ v.R q, -2 * (p1 l (ix1 q c b) * T l b c).im ∧
      energyCurrent evs l
        = ∑ q ∈ range (v.ncharge - 1), ∑ c ∈ v.R (q + 1), ∑ b ∈ v.R q, -2 * (h1 l (ix1 q c b) * T l b c).im := by
  unfold genCurrent
  rw [collect_ok (g := fun q => (prod2 (v.row (q + 1)) (v.row q)).flatMap fun p => (List.range v.nleads).flatMap fun l =>
    [⟨l, -2 * (p1 l (ix1 q p.1 p.2) * T l p.2 p.1).im, -2 * (h1 l (ix1 q p.1 p.2) * T l p.2 p.1).im⟩])]
  · refine ⟨_, rfl, ?_⟩
    intro l hl
    rw [current_eq, energyCurrent_eq]
    simp only [sum_flatMap', sum_range_list]
    constructor
    · refine sum_congr rfl fun q _ => ?_
      unfold View.R
      rw [← sum_prod2 (h.nodup _) (h.nodup _) fun c b => -2 * (p1 l (ix1 q c b) * T l b c).im]
      congr 1
      apply List.map_congr_left
      intro p _
      simp only [List.map_cons, List.map_nil, List.sum_cons, List.sum_nil, add_zero]
      simp [hl]
    · refine sum_congr rfl fun q _ => ?_
      unfold View.R
      rw [← sum_prod2 (h.nodup _) (h.nodup _) fun c b => -2 * (h1 l (ix1 q c b) * T l b c).im]
      congr 1
      apply List.map_congr_left
      intro p _
      simp only [List.map_cons, List.map_nil, List.sum_cons, List.sum_nil, add_zero]
      simp [hl]
  · intro q hq
    have hq' := List.mem_range.1 hq
    rw [h.states_succ (by omega), h.states (by omega)]
    simp only [py_bind_ok]
    apply collect_ok
    intro p hp
    obtain ⟨hc, hb⟩ := prod2_mem hp
    rw [h.ind1 q _ _ hc hb]
    simp only [py_bind_ok]
    apply collect_ok
    intro l _
    rw [h.rd_ok p1 l hc hb, h.rd_ok h1 l hc hb]
    rfl

end

end VN2

end

end Verif
