import Verif.Lemmas.ElPh

/-! The arrays of factors and the Pauli kernel of the electron-phonon approaches. -/

namespace Verif

open Finset
open Complex (I)
open scoped ComplexConjugate

noncomputable section

variable {v e : View} {la : Lab} {el : Nat → Nat → Nat → Option Nat}

/-- The array `w` has the value `f l b a` at the label of the pair `b, a`; `i` is
`(l, c, b, a)`. -/
def PhAt {β : Type} (v : View) (el : Nat → Nat → Nat → Option Nat) (f : Nat → Nat → Nat → β)
    (w : Nat → Nat → β) (i : Nat × Nat × Nat × Nat) : Prop :=
  i.2.2.1 ∈ v.row i.2.1 → i.2.2.2 ∈ v.row i.2.1 → ∀ k, el i.2.1 i.2.2.1 i.2.2.2 = some k →
    w i.1 k = f i.1 i.2.2.1 i.2.2.2

theorem wr0_ok {β : Type} (w : Nat → Nat → β) (l : Nat) {k : Nat} (hk : k < e.ndm0) (x : β) :
    e.wr0 w l (k : Int) x = .ok (fun l' k' => if l' = l ∧ k' = k then x else w l' k') := by
  unfold View.wr0
  rw [pyIdx_nat hk]
  rfl

/-- Writing the values of one pair. -/
theorem writes_ok {β : Type} (hp : PhOk v e la el) (f : Nat → Nat → Nat → β) {c b a k : Nat}
    (hb : b ∈ v.row c) (ha : a ∈ v.row c) (hk : el c b a = some k) (ls : List Nat)
    (w : Nat → Nat → β) :
    ∃ w', ls.foldlM (fun w l => e.wr0 w l (k : Int) (f l b a)) w = .ok w' ∧
      (∀ i, PhAt v el f w i → PhAt v el f w' i) ∧ ∀ l ∈ ls, PhAt v el f w' (l, c, b, a) := by
  obtain ⟨w', g, k1, d⟩ := foldlM_est (PhAt v el f) (fun (l : Nat) i => i = (l, c, b, a))
    (xs := ls) (step := fun w l => e.wr0 w l (k : Int) (f l b a))
    (by
      intro l _ w
      refine ⟨_, wr0_ok w l (hp.lt c b a k hb ha hk) (f l b a), ?_, ?_⟩
      · rintro ⟨l', c', b', a'⟩ hi hb' ha' k' hk'
        simp only at hb' ha' hk' ⊢
        split
        · rename_i hh
          obtain ⟨rfl, rfl⟩ := hh
          obtain ⟨rfl, rfl, rfl⟩ := hp.inj c' b' a' c b a k' hb' ha' hb ha hk' hk
          rfl
        · exact hi hb' ha' k' hk'
      · rintro i rfl _ _ k' hk'
        simp only at hk' ⊢
        rw [hk] at hk'
        simp only [Option.some.injEq] at hk'
        subst hk'
        simp) w
  exact ⟨w', g, k1, fun l hl => d l hl _ rfl⟩

/-- The array filled by `generate_fct` of the Pauli approach. -/
theorem PauliPh.genFct_ok (h : VOk v la) (hp : PhOk v e la el) (nb : Nat) (E : Nat → ℝ)
    (B : PhBaths) :
    ∃ fp, PauliPh.genFct e nb E B = .ok fp ∧ ∀ c b a l, b ∈ v.row c → a ∈ v.row c → b ≠ a →
      l < nb → ∀ k, el c b a = some k → fp l k = PauliPh.amp E B l b a := by
  let P := PhAt v el (fun l b a => PauliPh.amp E B l b a)
  have key := foldlM_est P (fun (q : Nat) i => i.2.1 = q ∧ i.1 < nb ∧ i.2.2.1 ∈ v.row q ∧
      i.2.2.2 ∈ v.row q ∧ i.2.2.1 ≠ i.2.2.2)
    (xs := List.range e.ncharge)
    (step := fun fct (charge : Nat) => do
      let l ← e.states charge
      (perms2 l).foldlM (PauliPh.fctStep e nb E B charge) fct)
    (by
      intro q hq s
      have hq' : q < v.ncharge := by have := List.mem_range.1 hq; rw [hp.ncharge] at this; exact this
      rw [hp.states q hq']
      simp only [py_bind_ok]
      obtain ⟨s', g, k, d⟩ := foldlM_est P (fun (p : Nat × Nat) i => i.2.1 = q ∧ i.2.2 = p ∧
          i.1 < nb) (xs := perms2 (v.row q)) (step := PauliPh.fctStep e nb E B q)
        (by
          rintro ⟨b, a⟩ hm s
          obtain ⟨hb, ha, hne⟩ := (perms2_mem (h.nodup q)).1 hm
          unfold PauliPh.fctStep
          simp only
          rw [hp.bool0 q b a hb ha, hp.ind0 q b a hb ha]
          simp only [py_bind_ok]
          cases hk : el q b a with
          | none =>
            refine ⟨s, by simp, fun _ hi => hi, ?_⟩
            rintro ⟨l, q', b', a'⟩ ⟨rfl, e, _⟩ _ _ k hk'
            simp only [Prod.mk.injEq] at e
            obtain ⟨rfl, rfl⟩ := e
            simp only at hk'
            rw [hk] at hk'
            simp at hk'
          | some k =>
            simp only [Option.isSome_some, if_true]
            obtain ⟨s', g, k1, d⟩ := writes_ok hp (fun l b a => PauliPh.amp E B l b a) hb ha hk
              (List.range nb) s
            refine ⟨s', g, k1, ?_⟩
            rintro ⟨l, q', b', a'⟩ ⟨rfl, e, hl⟩
            simp only [Prod.mk.injEq] at e
            obtain ⟨rfl, rfl⟩ := e
            exact d l (List.mem_range.2 hl)) s
      refine ⟨s', g, k, ?_⟩
      rintro ⟨l, q', b, a⟩ ⟨rfl, hl, hb, ha, hne⟩
      exact d (b, a) ((perms2_mem (h.nodup _)).2 ⟨hb, ha, hne⟩) _ ⟨rfl, rfl, hl⟩) (fun _ _ => 0)
  obtain ⟨fp, g, _, d⟩ := key
  refine ⟨fp, g, ?_⟩
  intro c b a l hb ha hne hl k hk
  exact d c (List.mem_range.2 (by rw [hp.ncharge]; exact h.row_lt hb)) (l, c, b, a)
    ⟨rfl, hl, hb, ha, hne⟩ hb ha k hk

/-- The values stored by `generate_fct` of 1vN and Redfield. -/
def VN1Ph.value (E : Nat → ℝ) (B : PhBaths) (quad : (ℝ → ℝ) → ℝ → ℝ → ℝ → ℝ) (itype : Int)
    (l b a : Nat) : ℂ × ℂ :=
  if b = a then VN1Ph.diagAmp (B.func1vN quad itype 0 l)
  else B.func1vN quad itype (E b - E a) l

/-- One element of the arrays. -/
theorem VN1Ph.fctStep_ok (hp : PhOk v e la el) (f : Nat → Nat → Nat → ℂ × ℂ) {c b a : Nat}
    (hb : b ∈ v.row c) (ha : a ∈ v.row c) (ls : List Nat) (x : Nat → ℂ × ℂ)
    (hx : ∀ l, x l = f l b a) (w : Nat → Nat → ℂ × ℂ) :
    ∃ w', VN1Ph.fctStep e c b a ls x w = .ok w' ∧
      (∀ i, PhAt v el f w i → PhAt v el f w' i) ∧ ∀ l ∈ ls, PhAt v el f w' (l, c, b, a) := by
  unfold VN1Ph.fctStep
  rw [hp.bool0 c b a hb ha, hp.ind0 c b a hb ha]
  simp only [py_bind_ok]
  cases hk : el c b a with
  | none =>
    refine ⟨w, by simp, fun _ hi => hi, ?_⟩
    intro l _ _ _ k hk'
    simp only at hk'
    rw [hk] at hk'
    simp at hk'
  | some k =>
    simp only [Option.isSome_some, and_true]
    rw [if_pos (by omega)]
    have : x = fun l => f l b a := funext hx
    subst this
    exact writes_ok hp f hb ha hk ls w

/-- The array filled by `generate_fct` of 1vN and Redfield. -/
theorem VN1Ph.genFct_ok (h : VOk v la) (hp : PhOk v e la el) (nb : Nat) (E : Nat → ℝ)
    (B : PhBaths) (quad : (ℝ → ℝ) → ℝ → ℝ → ℝ → ℝ) (itype : Int) :
    ∃ w, VN1Ph.genFct e nb E B quad itype = .ok w ∧ ∀ c b a l, b ∈ v.row c → a ∈ v.row c →
      l < nb → ∀ k, el c b a = some k → w l k = VN1Ph.value E B quad itype l b a := by
  let P := PhAt v el (VN1Ph.value E B quad itype)
  have hd : ∀ l b, VN1Ph.diagAmp (B.func1vN quad itype 0 l) = VN1Ph.value E B quad itype l b b := by
    intro l b; simp [VN1Ph.value]
  obtain ⟨w1, g1, _, d1⟩ := foldlM_est P (fun (l : Nat) i => i.1 = l ∧ i.2.2.1 ∈ v.row i.2.1 ∧
      i.2.2.2 = i.2.2.1) (xs := List.range nb)
    (step := fun w l => (List.range e.ncharge).foldlM
      (fun w (charge : Nat) => do
        let bs ← e.states charge
        bs.foldlM (fun w b => fctStep e charge b b [l]
          (fun l => diagAmp (B.func1vN quad itype 0 l)) w) w) w)
    (by
      intro l _ s
      obtain ⟨s', g, k, d⟩ := foldlM_est P (fun (q : Nat) i => i.1 = l ∧ i.2.1 = q ∧
          i.2.2.1 ∈ v.row q ∧ i.2.2.2 = i.2.2.1) (xs := List.range e.ncharge)
        (step := fun w (charge : Nat) => do
          let bs ← e.states charge
          bs.foldlM (fun w b => fctStep e charge b b [l]
            (fun l => diagAmp (B.func1vN quad itype 0 l)) w) w)
        (by
          intro q hq s
          have hq' : q < v.ncharge := by
            have := List.mem_range.1 hq; rw [hp.ncharge] at this; exact this
          rw [hp.states q hq']
          simp only [py_bind_ok]
          obtain ⟨s', g, k, d⟩ := foldlM_est P (fun (b : Nat) i => i = (l, q, b, b))
            (xs := v.row q) (step := fun w b => fctStep e q b b [l]
              (fun l => diagAmp (B.func1vN quad itype 0 l)) w)
            (by
              intro b hb s
              obtain ⟨s', g, k, d⟩ := VN1Ph.fctStep_ok hp (VN1Ph.value E B quad itype) hb hb [l]
                (fun l => diagAmp (B.func1vN quad itype 0 l)) (fun l => hd l b) s
              refine ⟨s', g, k, ?_⟩
              rintro i rfl
              exact d l (by simp)) s
          refine ⟨s', g, k, ?_⟩
          rintro ⟨l', q', b, a⟩ ⟨rfl, rfl, hb, e⟩
          simp only at hb e
          subst e
          exact d _ hb _ rfl) s
      refine ⟨s', g, k, ?_⟩
      rintro ⟨l', q', b, a⟩ ⟨rfl, hb, e⟩
      exact d q' (List.mem_range.2 (by rw [hp.ncharge]; exact h.row_lt hb)) _ ⟨rfl, rfl, hb, e⟩)
    (fun _ _ => (0, 0))
  obtain ⟨w2, g2, k2, d2⟩ := foldlM_est P (fun (q : Nat) i => i.2.1 = q ∧ i.1 < nb ∧
      i.2.2.1 ∈ v.row q ∧ i.2.2.2 ∈ v.row q ∧ i.2.2.1 ≠ i.2.2.2)
    (xs := List.range e.ncharge)
    (step := fun w (charge : Nat) => do
      let bs ← e.states charge
      (perms2 bs).foldlM (fun w p => fctStep e charge p.1 p.2 (List.range nb)
        (fun l => B.func1vN quad itype (E p.1 - E p.2) l) w) w)
    (by
      intro q hq s
      have hq' : q < v.ncharge := by have := List.mem_range.1 hq; rw [hp.ncharge] at this; exact this
      rw [hp.states q hq']
      simp only [py_bind_ok]
      obtain ⟨s', g, k, d⟩ := foldlM_est P (fun (p : Nat × Nat) i => i.2.1 = q ∧ i.2.2 = p ∧
          i.1 < nb) (xs := perms2 (v.row q))
        (step := fun w p => fctStep e q p.1 p.2 (List.range nb)
          (fun l => B.func1vN quad itype (E p.1 - E p.2) l) w)
        (by
          rintro ⟨b, a⟩ hm s
          obtain ⟨hb, ha, hne⟩ := (perms2_mem (h.nodup q)).1 hm
          obtain ⟨s', g, k, d⟩ := VN1Ph.fctStep_ok hp (VN1Ph.value E B quad itype) hb ha
            (List.range nb) (fun l => B.func1vN quad itype (E b - E a) l)
            (fun l => by simp [VN1Ph.value, hne]) s
          refine ⟨s', g, k, ?_⟩
          rintro ⟨l, q', b', a'⟩ ⟨rfl, e, hl⟩
          simp only [Prod.mk.injEq] at e
          obtain ⟨rfl, rfl⟩ := e
          exact d l (List.mem_range.2 hl)) s
      refine ⟨s', g, k, ?_⟩
      rintro ⟨l, q', b, a⟩ ⟨rfl, hl, hb, ha, hne⟩
      exact d (b, a) ((perms2_mem (h.nodup _)).2 ⟨hb, ha, hne⟩) _ ⟨rfl, rfl, hl⟩) w1
  refine ⟨w2, ?_, ?_⟩
  · unfold VN1Ph.genFct
    rw [g1]
    exact g2
  · intro c b a l hb ha hl k hk
    by_cases hne : b = a
    · subst hne
      exact k2 _ (d1 l (List.mem_range.2 hl) (l, c, b, b) ⟨rfl, hb, rfl⟩) hb hb k hk
    · exact d2 c (List.mem_range.2 (by rw [hp.ncharge]; exact h.row_lt hb)) (l, c, b, a)
        ⟨rfl, hl, hb, ha, hne⟩ hb ha k hk

/-! ### The Pauli kernel -/

namespace PauliPh

/-- The calls made for phonons for the state `b`. -/
def group (v : View) (la : Lab) (el : Nat → Nat → Nat → Option Nat) (nb : Nat)
    (fp : Nat → Nat → ℝ) (c b : Nat) : List KCall :=
  (v.row c).flatMap fun a => if (el c b a).isSome then
    [KCall.pauli (∑ l ∈ range nb, -phW el fp l c a b) (∑ l ∈ range nb, phW el fp l c b a)
      (la.lab c b b) (la.lab c a a)] else []

theorem extra_ok (h : VOk v la) (hp : PhOk v e la el) (nb : Nat) (fp : Nat → Nat → ℝ) {c b : Nat}
    (hb : b ∈ v.row c) : extra v e nb fp b (c : Int) = .ok (group v la el nb fp c b) := by
  have hcl := h.row_lt hb
  unfold extra
  rw [ind0_diag h hb, h.states (by omega)]
  simp only [py_bind_ok]
  apply collect_ok
  intro a ha
  unfold coupStep
  rw [ind0_diag h ha, hp.ind0 c a b ha hb, hp.ind0 c b a hb ha]
  simp only [py_bind_ok]
  have hs := hp.symm c a b ha hb
  cases hk : el c b a with
  | none => simp
  | some k =>
    rw [hk] at hs
    cases hk' : el c a b with
    | none => rw [hk'] at hs; simp at hs
    | some k' =>
      simp only [Option.isSome_some, if_true]
      rw [if_neg (by omega), sumM_range (g := fun l => (-fp l k', fp l k)), Pauli.fst_sum]
      · simp only [py_bind_ok, phW, hk, hk']
        rfl
      · intro l _
        rw [rd0_ok e fp l (hp.lt c a b k' ha hb hk'), rd0_ok e fp l (hp.lt c b a k hb ha hk)]
        rfl

theorem genKern_ok (h : VOk v la) (hp : PhOk v e la el) (nb : Nat) (fe : Nat → Nat → ℝ × ℝ)
    (fp : Nat → Nat → ℝ) :
    genKern v e nb fe fp = .ok ((List.range v.ncharge).flatMap fun c =>
      (v.row c).flatMap fun b => Pauli.group v la fe c b ++ group v la el nb fp c b) := by
  unfold genKern
  apply collect_ok
  intro c hc
  rw [h.states (by have := List.mem_range.1 hc; omega)]
  simp only [py_bind_ok]
  apply collect_ok
  intro b hb
  unfold View.isUnique
  rw [h.bool0 c b b hb hb (h.inc_diag c b hb), h.can_diag c b hb]
  simp only [py_bind_ok, Bool.and_self, if_true]
  unfold coup
  rw [Pauli.coup_ok h fe hb, extra_ok h hp nb fp hb]
  rfl

/-- The rows of a matrix assembled from Pauli calls. -/
theorem rows_of_groups (h : VOk v la) (g : Nat → Nat → List KCall)
    (hg : ∀ c b, b ∈ v.row c → ∀ k ∈ g c b, PGood v.npauli k ∧
      ∃ x y aa, k = KCall.pauli x y (la.lab c b b) aa) (symq : Bool) {calls : Py (List KCall)}
    (hc : calls = .ok ((List.range v.ncharge).flatMap fun c => (v.row c).flatMap fun b => g c b)) :
    ∃ m, v.assemble v.npauli symq calls = .ok m ∧ m.cols = v.npauli ∧
      m.rows = (if symq then v.npauli else v.npauli + 1) ∧
      ∀ φ c b, b ∈ v.row c → m.app φ (la.lab c b b)
        = ((g c b).map fun k => k.pcontrib φ (la.lab c b b)).sum := by
  have hgood : ∀ k ∈ (List.range v.ncharge).flatMap fun c => (v.row c).flatMap fun b => g c b,
      PGood v.npauli k := by
    intro k hk
    simp only [List.mem_flatMap] at hk
    obtain ⟨c, _, b, hb, hk⟩ := hk
    exact (hg c b hb k hk).1
  obtain ⟨m, gm, ad⟩ := runKern_pauli v _ hgood
    (m := Mat.zeros (if symq then v.npauli else v.npauli + 1) v.npauli)
    (by simp only [Mat.zeros]; split <;> omega) rfl
  refine ⟨m, ?_, ad.cols, ad.rows, ?_⟩
  · unfold View.assemble
    rw [hc]
    exact gm
  · intro φ c b hb
    have zero : ∀ c' b', b' ∈ v.row c' → ¬ (c = c' ∧ b = b') → ∀ k ∈ g c' b',
        k.pcontrib φ (la.lab c b b) = 0 := by
      intro c' b' hb' hne k hk
      obtain ⟨_, x, y, aa, rfl⟩ := hg c' b' hb' k hk
      have hd : la.lab c b b ≠ la.lab c' b' b' := by
        intro e
        have := h.lab_inj c b b c' b' b' hb hb (h.inc_diag c b hb) hb' hb' (h.inc_diag c' b' hb') e
        rcases this.2 with ⟨e, _⟩ | ⟨e, _⟩ <;> exact hne ⟨this.1, e⟩
      simp [KCall.pcontrib, hd]
    rw [ad.app, Mat.app_zeros, zero_add, sum_flatMap',
      sum_single List.nodup_range (x := c) (by simpa using h.row_lt hb), sum_flatMap',
      sum_single (h.nodup c) (x := b) hb]
    · intro b' hb' hne
      apply List.sum_eq_zero
      intro t ht
      simp only [List.mem_map] at ht
      obtain ⟨k, hk, rfl⟩ := ht
      exact zero c b' hb' (fun e => hne e.2.symm) k hk
    · intro c' _ hne
      apply List.sum_eq_zero
      intro t ht
      simp only [List.mem_map, List.mem_flatMap] at ht
      obtain ⟨k, ⟨b', hb', hk⟩, rfl⟩ := ht
      exact zero c' b' hb' (fun e => hne e.1.symm) k hk

/-- Rate of `a → b` due to phonons. -/
def Γ (el : Nat → Nat → Nat → Option Nat) (nb : Nat) (fp : Nat → Nat → ℝ) (c b a : Nat) : ℝ :=
  ∑ l ∈ range nb, phW el fp l c b a

/-- The Pauli kernel with phonons, compared to the one without. -/
theorem kernel_rows (h : VOk v la) (hp : PhOk v e la el) (nb : Nat) (fe : Nat → Nat → ℝ × ℝ)
    (fp : Nat → Nat → ℝ) (symq : Bool) :
    ∃ m0 m, Pauli.kernel v symq fe = .ok m0 ∧ kernel v e nb symq fe fp = .ok m ∧
      m0.cols = v.npauli ∧ m.cols = v.npauli ∧
      ∀ φ c b, b ∈ v.row c → m.app φ (la.lab c b b) = m0.app φ (la.lab c b b) +
        ∑ a ∈ v.R c, (Γ el nb fp c b a * φ (la.lab c a a) - Γ el nb fp c a b * φ (la.lab c b b)) := by
  have g1 : ∀ c b, b ∈ v.row c → ∀ k ∈ Pauli.group v la fe c b, PGood v.npauli k ∧
      ∃ x y aa, k = KCall.pauli x y (la.lab c b b) aa := by
    intro c b hb k hk
    refine ⟨Pauli.group_good h fe k ?_, ?_⟩
    · simp only [List.mem_flatMap]
      exact ⟨c, List.mem_range.2 (h.row_lt hb), b, hb, hk⟩
    · simp only [Pauli.group, List.mem_append, List.mem_map] at hk
      rcases hk with ⟨a, ha, rfl⟩ | ⟨x, hx, rfl⟩ <;> exact ⟨_, _, _, rfl⟩
  have g2 : ∀ c b, b ∈ v.row c → ∀ k ∈ group v la el nb fp c b, PGood v.npauli k ∧
      ∃ x y aa, k = KCall.pauli x y (la.lab c b b) aa := by
    intro c b hb k hk
    have hlb := h.lab_diag c b hb
    simp only [group, List.mem_flatMap] at hk
    obtain ⟨a, ha, hk⟩ := hk
    split at hk
    · simp only [List.mem_singleton] at hk
      subst hk
      have := h.lab_diag c a ha
      exact ⟨⟨by omega, by simpa using hlb, by omega, by simpa using this⟩, _, _, _, rfl⟩
    · simp at hk
  obtain ⟨m0, e0, c0, _, r0⟩ := rows_of_groups h _ g1 symq (Pauli.genKern_ok h fe)
  obtain ⟨m, e1, c1, _, r1⟩ := rows_of_groups h
    (fun c b => Pauli.group v la fe c b ++ group v la el nb fp c b)
    (fun c b hb k hk => (List.mem_append.1 hk).elim (g1 c b hb k) (g2 c b hb k)) symq
    (genKern_ok h hp nb fe fp)
  refine ⟨m0, m, e0, e1, c0, c1, ?_⟩
  intro φ c b hb
  rw [r0 φ c b hb, r1 φ c b hb, List.map_append, List.sum_append]
  congr 1
  rw [group, sum_flatMap', View.R, List.sum_toFinset _ (h.nodup c)]
  congr 1
  apply List.map_congr_left
  intro a ha
  split
  · simp [KCall.pcontrib, Γ, sum_neg_distrib]
    ring
  · rename_i hn
    have h1 : el c b a = none := by simpa using hn
    have h2 : el c a b = none := by
      have := hp.symm c b a hb ha
      rw [h1] at this
      simpa using this.symm
    simp [Γ, phW, h1, h2]

end PauliPh

end

end Verif
