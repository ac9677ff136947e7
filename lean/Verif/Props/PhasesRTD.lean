import Verif.Props.Phases

/-! C69 for the RTD approach with corrections from coherences. -/

namespace Verif

open Finset
open scoped ComplexConjugate

noncomputable section

namespace RTD

/-! ### Two computations with related results -/

/-- Both fail with the same error, or both succeed with related results. -/
inductive PRel {α β : Type} (R : α → β → Prop) : Py α → Py β → Prop
  | err (e : PyErr) : PRel R (.error e) (.error e)
  | ok {a : α} {b : β} (h : R a b) : PRel R (.ok a) (.ok b)

theorem PRel.bind {α β γ δ : Type} {R : α → β → Prop} {S : γ → δ → Prop} {p : Py α} {q : Py β} (h : PRel R p q)
    {f : α → Py γ} {g : β → Py δ} (hf : ∀ a b, R a b → PRel S (f a) (g b)) : PRel S (p >>= f) (q >>= g) := by
  cases h with
  | err e => exact .err e
  | ok h => exact hf _ _ h

theorem PRel.bind_same {α γ δ : Type} {S : γ → δ → Prop} (p : Py α) {f : α → Py γ} {g : α → Py δ}
    (hf : ∀ a, p = .ok a → PRel S (f a) (g a)) : PRel S (p >>= f) (p >>= g) := by
  cases p with
  | error e => exact .err e
  | ok a => exact hf a rfl

theorem PRel.eq {α β γ : Type} {R : α → β → Prop} {p : Py α} {q : Py β} (h : PRel R p q) {f : α → Py γ} {g : β → Py γ}
    (hf : ∀ a b, R a b → f a = g b) : (p >>= f) = (q >>= g) := by
  cases h with
  | err e => rfl
  | ok h => exact hf _ _ h

/-! ### Related calls -/

/-- The call writes no element of the matrices that connect populations and coherences. -/
def PlainCall (k : Call) : Prop := k.name = none ∨ k.name = some .Wdd ∨ k.name = some .WE1 ∨ k.name = some .WE2

/-- The calls `ks'` are the calls `ks`, except that a contribution to the column `p` of `Wdn` has the factor `κ p` and a
contribution to the row `p` of `Wnd` the factor `conj (κ p)`. -/
inductive Rel (v : View) (κ : Nat → ℂ) : List Call → List Call → Prop
  | nil : Rel v κ [] []
  | app {a a' b b' : List Call} : Rel v κ a a' → Rel v κ b b' → Rel v κ (a ++ b) (a' ++ b')
  | plain (k : Call) : PlainCall k → Rel v κ [k] [k]
  | dn {x y x' y' : ℝ} {l a2 a1 b1 p : Nat} {q2 q1 : Int} : offPos v a1 b1 q1 = .ok (p : Int) →
      (⟨x', y'⟩ : ℂ) = κ p * ⟨x, y⟩ →
      Rel v κ (pair x y l a2 a2 q2 a1 b1 q1 .ReWdn .ImWdn) (pair x' y' l a2 a2 q2 a1 b1 q1 .ReWdn .ImWdn)
  | nd {x y x' y' : ℝ} {l a2 b2 a1 p : Nat} {q2 q1 : Int} : offPos v a2 b2 q2 = .ok (p : Int) →
      (⟨x', y'⟩ : ℂ) = conj (κ p) * ⟨x, y⟩ →
      Rel v κ (pair x y l a2 b2 q2 a1 a1 q1 .ReWnd .ImWnd) (pair x' y' l a2 b2 q2 a1 a1 q1 .ReWnd .ImWnd)

theorem Rel.flatMap {v : View} {κ : Nat → ℂ} {α : Type} (l : List α) {f g : α → List Call}
    (hf : ∀ x ∈ l, Rel v κ (f x) (g x)) : Rel v κ (l.flatMap f) (l.flatMap g) := by
  induction l with
  | nil => exact .nil
  | cons x l ih =>
    simp only [List.flatMap_cons]
    exact .app (hf x (by simp)) (ih fun y hy => hf y (by simp [hy]))

theorem Rel.same {v : View} {κ : Nat → ℂ} (l : List Call) (hl : ∀ k ∈ l, PlainCall k) : Rel v κ l l := by
  induction l with
  | nil => exact .nil
  | cons x l ih => exact .app (.plain x (hl x (by simp))) (ih fun y hy => hl y (by simp [hy]))

theorem both_rel {v : View} {κ : Nat → ℂ} {p q p' q' : Py (List Call)} (h1 : PRel (Rel v κ) p p')
    (h2 : PRel (Rel v κ) q q') : PRel (Rel v κ) (both p q) (both p' q') :=
  h1.bind fun _ _ r1 => h2.bind fun _ _ r2 => .ok (.app r1 r2)

theorem collect_rel {v : View} {κ : Nat → ℂ} {α : Type} (l : List α) {f g : α → Py (List Call)}
    (hf : ∀ x ∈ l, PRel (Rel v κ) (f x) (g x)) : PRel (Rel v κ) (collect l f) (collect l g) := by
  have key : ∀ (l : List α) (acc acc' : List Call), (∀ x ∈ l, PRel (Rel v κ) (f x) (g x)) → Rel v κ acc acc' →
      PRel (Rel v κ) (l.foldlM (fun acc x => do let r ← f x; pure (acc ++ r)) acc)
        (l.foldlM (fun acc x => do let r ← g x; pure (acc ++ r)) acc') := by
    intro l
    induction l with
    | nil => exact fun acc acc' _ h => .ok h
    | cons x l ih =>
      intro acc acc' hf h
      rw [List.foldlM_cons, List.foldlM_cons]
      refine PRel.bind (R := Rel v κ) ((hf x (by simp)).bind fun _ _ r => .ok (Rel.app h r)) fun _ _ r => ?_
      exact ih _ _ (fun y hy => hf y (by simp [hy])) r
  exact key l [] [] hf .nil

theorem upper_rel {v : View} {κ : Nat → ℂ} {c : Nat} {f g : List Nat → List Call}
    (hf : Rel v κ (f (v.row (c + 1))) (g (v.row (c + 1)))) : PRel (Rel v κ) (upper v c f) (upper v c g) := by
  unfold upper
  split
  · refine .bind_same _ fun l e => ?_
    obtain rfl := states_row v (c := c + 1) (by push_cast; exact e)
    exact .ok hf
  · exact .ok .nil

theorem lower_rel {v : View} {κ : Nat → ℂ} {c : Nat} {f g : List Nat → List Call}
    (hf : ∀ c1, c = c1 + 1 → Rel v κ (f (v.row c1)) (g (v.row c1))) : PRel (Rel v κ) (lower v c f) (lower v c g) := by
  unfold lower
  split
  · rename_i hc
    obtain ⟨c1, rfl⟩ : ∃ c1, c = c1 + 1 := ⟨c - 1, by omega⟩
    refine .bind_same _ fun l e => ?_
    obtain rfl := states_row v (c := c1) (by rw [← e]; congr 1; push_cast; ring)
    exact .ok (hf c1 rfl)
  · exact .ok .nil

/-! ### Related matrices -/

/-- The matrices `m'` are the matrices `m`, except that the column `p` of `Wdn` has the factor `κ p` and the row `p` of
`Wnd` the factor `conj (κ p)`. -/
structure MatsRel (κ : Nat → ℂ) (m m' : Mats) : Prop where
  sh : m'.sh = m.sh
  dn : m.sh .ImWdn = m.sh .ReWdn
  nd : m.sh .ImWnd = m.sh .ReWnd
  dd : ∀ n, n = .Wdd ∨ n = .WE1 ∨ n = .WE2 → m'.ten n = m.ten n
  lnn : m'.Lnn = m.Lnn
  sq : m.Lnn.rows = m.Lnn.cols
  diag : ∀ i j, i ≠ j → m.Lnn.val i j = 0
  col : ∀ l i j, (⟨(m'.ten .ReWdn).val l i j, (m'.ten .ImWdn).val l i j⟩ : ℂ) =
    κ j * ⟨(m.ten .ReWdn).val l i j, (m.ten .ImWdn).val l i j⟩
  row : ∀ l i j, (⟨(m'.ten .ReWnd).val l i j, (m'.ten .ImWnd).val l i j⟩ : ℂ) =
    conj (κ i) * ⟨(m.ten .ReWnd).val l i j, (m.ten .ImWnd).val l i j⟩

/-- Related matrices and the same flag. -/
def ARel (κ : Nat → ℂ) (a a' : Acc) : Prop := a'.im = a.im ∧ MatsRel κ a.mats a'.mats

/-- `m[l, i, j] += x` resolved. -/
def Ten.upd (t : Ten) (k r c : Nat) (x : ℝ) : Ten :=
  { t with val := fun k' r' c' => if k' = k ∧ r' = r ∧ c' = c then t.val k' r' c' + x else t.val k' r' c' }

/-- The indices are resolved in the same way for arrays of one shape. -/
theorem ten_add (sh : Nat × Nat × Nat) (l : Nat) (i j : Int) :
    (∃ e, ∀ (t : Ten) x, (t.leads, t.rows, t.cols) = sh → t.add l i j x = .error e) ∨
    ∃ k r c, pyIdx sh.2.1 i = .ok r ∧ pyIdx sh.2.2 j = .ok c ∧
      ∀ (t : Ten) x, (t.leads, t.rows, t.cols) = sh → t.add l i j x = .ok (Ten.upd t k r c x) := by
  obtain ⟨s1, s2, s3⟩ := sh
  cases e1 : pyIdx s1 l with
  | error e =>
    refine Or.inl ⟨e, fun t x h => ?_⟩
    obtain ⟨rfl, rfl, rfl⟩ : t.leads = s1 ∧ t.rows = s2 ∧ t.cols = s3 := by simpa using h
    unfold Ten.add; rw [e1]; rfl
  | ok k =>
    cases e2 : pyIdx s2 i with
    | error e =>
      refine Or.inl ⟨e, fun t x h => ?_⟩
      obtain ⟨rfl, rfl, rfl⟩ : t.leads = s1 ∧ t.rows = s2 ∧ t.cols = s3 := by simpa using h
      unfold Ten.add; rw [e1, e2]; rfl
    | ok r =>
      cases e3 : pyIdx s3 j with
      | error e =>
        refine Or.inl ⟨e, fun t x h => ?_⟩
        obtain ⟨rfl, rfl, rfl⟩ : t.leads = s1 ∧ t.rows = s2 ∧ t.cols = s3 := by simpa using h
        unfold Ten.add; rw [e1, e2, e3]; rfl
      | ok c =>
        refine Or.inr ⟨k, r, c, rfl, rfl, fun t x h => ?_⟩
        obtain ⟨rfl, rfl, rfl⟩ : t.leads = s1 ∧ t.rows = s2 ∧ t.cols = s3 := by simpa using h
        unfold Ten.add; rw [e1, e2, e3]; rfl

/-- The matrices with one array replaced. -/
def Mats.put (m : Mats) (mi : Name) (t : Ten) : Mats := { m with ten := fun n => if n = mi then t else m.ten n }

theorem mats_add {m : Mats} {mi : Name} {l : Nat} {i j : Int} {x : ℝ} {t : Ten}
    (h : (m.ten mi).add l i j x = .ok t) : m.add mi l i j x = .ok (m.put mi t) := by
  unfold Mats.add; rw [h]; rfl

theorem mats_add_err {m : Mats} {mi : Name} {l : Nat} {i j : Int} {x : ℝ} {e : PyErr}
    (h : (m.ten mi).add l i j x = .error e) : m.add mi l i j x = .error e := by
  unfold Mats.add; rw [h]; rfl

theorem add_rel {κ : Nat → ℂ} {m m' : Mats} (h : MatsRel κ m m') {mi : Name} (hn : mi = .Wdd ∨ mi = .WE1 ∨ mi = .WE2)
    (l : Nat) (i j : Int) (x : ℝ) : PRel (MatsRel κ) (m.add mi l i j x) (m'.add mi l i j x) := by
  rcases ten_add (m.sh mi) l i j with ⟨e, h1⟩ | ⟨k, r, c, -, -, h1⟩
  · rw [mats_add_err (h1 _ x rfl), mats_add_err (by rw [h.dd mi hn]; exact h1 _ x rfl)]
    exact .err e
  · rw [mats_add (h1 _ x rfl), mats_add (by rw [h.dd mi hn]; exact h1 _ x rfl)]
    refine .ok ?_
    have ne : mi ≠ .ReWdn ∧ mi ≠ .ImWdn ∧ mi ≠ .ReWnd ∧ mi ≠ .ImWnd := by
      rcases hn with rfl | rfl | rfl <;> simp
    obtain ⟨n1, n2, n3, n4⟩ := ne
    have s1 : ∀ m : Mats, (m.put mi (Ten.upd (m.ten mi) k r c x)).sh = m.sh := by
      intro m
      funext n
      unfold Mats.sh Mats.put
      dsimp only
      split
      · rename_i e; subst e; rfl
      · rfl
    have s2 : ∀ (m : Mats) n t, n ≠ mi → (m.put mi t).ten n = m.ten n := fun m n t hne => if_neg hne
    refine ⟨?_, ?_, ?_, ?_, h.lnn, h.sq, h.diag, ?_, ?_⟩
    · rw [s1]
      have : Ten.upd (m.ten mi) k r c x = Ten.upd (m'.ten mi) k r c x := by rw [h.dd mi hn]
      rw [this, s1]; exact h.sh
    · rw [s1]; exact h.dn
    · rw [s1]; exact h.nd
    · intro n hn'
      unfold Mats.put
      dsimp only
      rw [h.dd n hn']
    · intro l' i' j'
      rw [s2 _ _ _ n1.symm, s2 _ _ _ n2.symm, s2 _ _ _ n1.symm, s2 _ _ _ n2.symm]
      exact h.col l' i' j'
    · intro l' i' j'
      rw [s2 _ _ _ n3.symm, s2 _ _ _ n4.symm, s2 _ _ _ n3.symm, s2 _ _ _ n4.symm]
      exact h.row l' i' j'

theorem call_plain {v : View} {κ : Nat → ℂ} {a a' : Acc} (h : ARel κ a a') {k : Call} (hk : PlainCall k) :
    PRel (ARel κ) (call v a k) (call v a' k) := by
  obtain ⟨hi, hm⟩ := h
  have nm : ∀ {mi : Name}, (some mi = (none : Option Name) ∨ some mi = some .Wdd ∨ some mi = some .WE1 ∨
      some mi = some .WE2) → mi = .Wdd ∨ mi = .WE1 ∨ mi = .WE2 := by
    intro mi h; simpa using h
  cases k with
  | dd l fm fp bb aa mi =>
    have hn := nm hk
    exact (add_rel hm hn _ _ _ _).bind fun m m' hm => (add_rel hm hn _ _ _ _).bind fun m m' hm => .ok ⟨hi, hm⟩
  | two r fct i0 i1 a3 q3 a4 q4 =>
    refine .bind_same _ fun i3 _ => .bind_same _ fun i4 _ => ?_
    exact (add_rel hm (Or.inl rfl) _ _ _ _).bind fun m m' hm => (add_rel hm (Or.inl rfl) _ _ _ _).bind fun m m' hm =>
      (add_rel hm (Or.inl rfl) _ _ _ _).bind fun m m' hm => (add_rel hm (Or.inl rfl) _ _ _ _).bind fun m m' hm =>
      .ok ⟨hi, hm⟩
  | elem fct l b bp q a ap q' mi =>
    refine .bind_same _ fun i3 _ => .bind_same _ fun i4 _ => ?_
    exact (add_rel hm (nm hk) _ _ _ _).bind fun m m' hm => .ok ⟨hi, hm⟩
  | lnn a1 b1 q fct =>
    refine .bind_same _ fun i _ => ?_
    dsimp only
    rw [hm.lnn]
    refine .bind_same _ fun t ht => .ok ⟨hi, ?_⟩
    unfold Mat.add at ht
    rw [← hm.sq] at ht
    obtain ⟨r, h1, ht⟩ := bind_ok_inv ht
    obtain ⟨c, h2, ht⟩ := bind_ok_inv ht
    obtain rfl : r = c := by rw [h1] at h2; exact Except.ok.inj h2
    obtain rfl := Except.ok.inj ht
    refine ⟨hm.sh, hm.dn, hm.nd, hm.dd, rfl, rfl, ?_, hm.col, hm.row⟩
    intro i j hij
    dsimp only
    rw [if_neg (by rintro ⟨rfl, rfl⟩; exact hij rfl)]
    exact hm.diag i j hij
  | imGamma => exact .ok ⟨rfl, hm⟩

theorem pyIdx_nat_inv {n p c : Nat} (h : pyIdx n (p : Int) = .ok c) : c = p := by
  by_cases hp : p < n
  · rw [pyIdx_nat hp] at h; exact (Except.ok.inj h).symm
  · rw [pyIdx_nat_err (by omega)] at h; simp at h

/-- Two contributions at the same place of the arrays `re` and `im` of one shape. -/
theorem pair_run (v : View) (re im : Name) (hne : re ≠ im) (sh : Nat × Nat × Nat) (l b bp a ap : Nat) (q q' : Int) :
    (∃ e, ∀ (acc : Acc) x y, acc.mats.sh re = sh → acc.mats.sh im = sh →
      run v acc (pair x y l b bp q a ap q' re im) = .error e) ∨
    ∃ k r c i j, offPos v b bp q = .ok i ∧ offPos v a ap q' = .ok j ∧ pyIdx sh.2.1 i = .ok r ∧ pyIdx sh.2.2 j = .ok c ∧
      ∀ (acc : Acc) x y, acc.mats.sh re = sh → acc.mats.sh im = sh →
      run v acc (pair x y l b bp q a ap q' re im) =
        .ok ⟨(acc.mats.put re (Ten.upd (acc.mats.ten re) k r c x)).put im (Ten.upd (acc.mats.ten im) k r c y), acc.im⟩ := by
  have run2 : ∀ (acc : Acc) x y, run v acc (pair x y l b bp q a ap q' re im) =
      (do let s ← call v acc (.elem x l b bp q a ap q' re); call v s (.elem y l b bp q a ap q' im)) := by
    intro acc x y
    unfold run pair
    rw [List.foldlM_cons]
    refine congrArg (fun k => _ >>= k) (funext fun s => ?_)
    rw [List.foldlM_cons]
    exact bind_pure _
  cases e1 : offPos v b bp q with
  | error e =>
    refine Or.inl ⟨e, fun acc x y _ _ => ?_⟩
    rw [run2]; simp only [call]; rw [e1]; rfl
  | ok i =>
    cases e2 : offPos v a ap q' with
    | error e =>
      refine Or.inl ⟨e, fun acc x y _ _ => ?_⟩
      rw [run2]; simp only [call]; rw [e1, e2]; rfl
    | ok j =>
      rcases ten_add sh l i j with ⟨e, h1⟩ | ⟨k, r, c, hr, hc, h1⟩
      · refine Or.inl ⟨e, fun acc x y s1 s2 => ?_⟩
        rw [run2]; simp only [call]; rw [e1, e2]
        simp only [py_bind_ok]
        rw [mats_add_err (h1 _ x s1)]
        rfl
      · refine Or.inr ⟨k, r, c, i, j, rfl, rfl, hr, hc, fun acc x y s1 s2 => ?_⟩
        rw [run2]; simp only [call]; rw [e1, e2]
        simp only [py_bind_ok]
        rw [mats_add (h1 _ x s1)]
        simp only [py_bind_ok, py_pure]
        have : (acc.mats.put re (Ten.upd (acc.mats.ten re) k r c x)).ten im = acc.mats.ten im := if_neg hne.symm
        rw [mats_add (t := Ten.upd (acc.mats.ten im) k r c y) (by rw [this]; exact h1 _ y s2)]
        rfl

theorem put2_sh (m : Mats) (re im : Name) (k r c : Nat) (x y : ℝ) :
    ((m.put re (Ten.upd (m.ten re) k r c x)).put im (Ten.upd (m.ten im) k r c y)).sh = m.sh := by
  funext n
  unfold Mats.sh Mats.put
  dsimp only
  split
  · rename_i e; subst e; rfl
  · split
    · rename_i e; subst e; rfl
    · rfl

theorem upd_c {t1 t2 t1' t2' : Ten} {f : Nat → Nat → Nat → ℂ} {k r c : Nat} {x y x' y' : ℝ}
    (h : ∀ l i j, (⟨t1'.val l i j, t2'.val l i j⟩ : ℂ) = f l i j * ⟨t1.val l i j, t2.val l i j⟩)
    (e : (⟨x', y'⟩ : ℂ) = f k r c * ⟨x, y⟩) (l i j : Nat) :
    (⟨(Ten.upd t1' k r c x').val l i j, (Ten.upd t2' k r c y').val l i j⟩ : ℂ) =
      f l i j * ⟨(Ten.upd t1 k r c x).val l i j, (Ten.upd t2 k r c y).val l i j⟩ := by
  unfold Ten.upd
  dsimp only
  by_cases hc : l = k ∧ i = r ∧ j = c
  · simp only [if_pos hc]
    obtain ⟨rfl, rfl, rfl⟩ := hc
    have := h l i j
    have e1 : ∀ p q p' q' : ℝ, (⟨p + p', q + q'⟩ : ℂ) = ⟨p, q⟩ + ⟨p', q'⟩ := fun _ _ _ _ => rfl
    rw [e1, e1, this, e, mul_add]
  · simp only [if_neg hc]
    exact h l i j

theorem run_rel {v : View} {κ : Nat → ℂ} {ks ks' : List Call} (hk : Rel v κ ks ks') :
    ∀ {a a' : Acc}, ARel κ a a' → PRel (ARel κ) (run v a ks) (run v a' ks') := by
  induction hk with
  | nil => exact fun h => .ok h
  | app _ _ ih1 ih2 =>
    intro a a' h
    unfold run at *
    rw [List.foldlM_append, List.foldlM_append]
    exact (ih1 h).bind fun _ _ h => ih2 h
  | plain k hk =>
    intro a a' h
    unfold run
    rw [List.foldlM_cons, List.foldlM_cons]
    exact (call_plain h hk).bind fun _ _ h => .ok h
  | @dn x y x' y' l a2 a1 b1 p q2 q1 hpos e =>
    intro a a' h
    obtain ⟨hi, hm⟩ := h
    rcases pair_run v .ReWdn .ImWdn (by simp) (a.mats.sh .ReWdn) l a2 a2 a1 b1 q2 q1 with
      ⟨er, h1⟩ | ⟨k, r, c, i, j, e1, e2, -, hc, h1⟩
    · rw [h1 a x y rfl hm.dn, h1 a' x' y' (by rw [hm.sh]) (by rw [hm.sh]; exact hm.dn)]
      exact .err er
    · rw [h1 a x y rfl hm.dn, h1 a' x' y' (by rw [hm.sh]) (by rw [hm.sh]; exact hm.dn)]
      obtain rfl : j = (p : Int) := by rw [hpos] at e2; exact (Except.ok.inj e2).symm
      obtain rfl : c = p := pyIdx_nat_inv hc
      refine .ok ⟨hi, ?_⟩
      refine ⟨by rw [put2_sh, put2_sh]; exact hm.sh, by rw [put2_sh]; exact hm.dn, by rw [put2_sh]; exact hm.nd, ?_,
        hm.lnn, hm.sq, hm.diag, ?_, ?_⟩
      · intro n hn
        rcases hn with rfl | rfl | rfl
        · exact hm.dd _ (Or.inl rfl)
        · exact hm.dd _ (Or.inr (Or.inl rfl))
        · exact hm.dd _ (Or.inr (Or.inr rfl))
      · exact upd_c (f := fun _ _ j => κ j) hm.col e
      · exact hm.row
  | @nd x y x' y' l a2 b2 a1 p q2 q1 hpos e =>
    intro a a' h
    obtain ⟨hi, hm⟩ := h
    rcases pair_run v .ReWnd .ImWnd (by simp) (a.mats.sh .ReWnd) l a2 b2 a1 a1 q2 q1 with
      ⟨er, h1⟩ | ⟨k, r, c, i, j, e1, e2, hc, -, h1⟩
    · rw [h1 a x y rfl hm.nd, h1 a' x' y' (by rw [hm.sh]) (by rw [hm.sh]; exact hm.nd)]
      exact .err er
    · rw [h1 a x y rfl hm.nd, h1 a' x' y' (by rw [hm.sh]) (by rw [hm.sh]; exact hm.nd)]
      obtain rfl : i = (p : Int) := by rw [hpos] at e1; exact (Except.ok.inj e1).symm
      obtain rfl : r = p := pyIdx_nat_inv hc
      refine .ok ⟨hi, ?_⟩
      refine ⟨by rw [put2_sh, put2_sh]; exact hm.sh, by rw [put2_sh]; exact hm.dn, by rw [put2_sh]; exact hm.nd, ?_,
        hm.lnn, hm.sq, hm.diag, ?_, ?_⟩
      · intro n hn
        rcases hn with rfl | rfl | rfl
        · exact hm.dd _ (Or.inl rfl)
        · exact hm.dd _ (Or.inr (Or.inl rfl))
        · exact hm.dd _ (Or.inr (Or.inr rfl))
      · exact hm.col
      · exact upd_c (f := fun _ i _ => conj (κ i)) hm.row e

/-! ### The corrections -/

theorem sum_diag {n : Nat} {L : Nat → Nat → ℝ} (hL : ∀ i j, i ≠ j → L i j = 0) (f : Nat → ℝ) {k : Nat} (hk : k < n) :
    ∑ i ∈ range n, f i * L i k = f k * L k k := by
  rw [sum_eq_single k (fun i _ hi => by rw [hL i k hi, mul_zero]) (fun hk' => absurd (mem_range.2 hk) hk')]

theorem corr_rel {κ : Nat → ℂ} (hκ : ∀ p, κ p * conj (κ p) = 1) {m m' : Mats} (h : MatsRel κ m m') (l : Nat) :
    corr m' l = corr m l := by
  have sh : ∀ n, (m'.ten n).leads = (m.ten n).leads ∧ (m'.ten n).rows = (m.ten n).rows ∧
      (m'.ten n).cols = (m.ten n).cols := by
    intro n
    have := congrFun h.sh n
    simpa [Mats.sh] using this
  have dn : (m.ten .ImWdn).leads = (m.ten .ReWdn).leads ∧ (m.ten .ImWdn).rows = (m.ten .ReWdn).rows ∧
      (m.ten .ImWdn).cols = (m.ten .ReWdn).cols := by simpa [Mats.sh] using h.dn
  have nd : (m.ten .ImWnd).leads = (m.ten .ReWnd).leads ∧ (m.ten .ImWnd).rows = (m.ten .ReWnd).rows ∧
      (m.ten .ImWnd).cols = (m.ten .ReWnd).cols := by simpa [Mats.sh] using h.nd
  unfold corr Mat.mul Ten.lead Ten.sumLeads addMat
  dsimp only
  simp only [h.lnn, (sh _).1, (sh _).2.1, (sh _).2.2, dn.1, dn.2.1, dn.2.2, nd.1, nd.2.1, nd.2.2]
  by_cases c1 : (m.ten .ReWdn).cols = m.Lnn.rows
  · rw [if_pos c1, if_pos c1, if_pos c1, if_pos c1]
    simp only [py_pure, py_bind_ok]
    by_cases c2 : m.Lnn.cols = (m.ten .ReWnd).rows
    · rw [if_pos c2, if_pos c2, if_pos c2, if_pos c2]
      simp only [py_bind_ok]
      refine congrArg Except.ok ?_
      refine congrArg (fun f => Mat.mk _ _ f) (funext fun i => funext fun j => ?_)
      rw [← sum_add_distrib, ← sum_add_distrib]
      refine sum_congr rfl fun k hk => ?_
      have hk' : k < (m.ten .ReWdn).cols := by rw [c1, h.sq]; exact mem_range.1 hk
      rw [sum_diag h.diag _ hk', sum_diag h.diag _ hk', sum_diag h.diag _ hk', sum_diag h.diag _ hk']
      have e1 := h.col l i k
      have e2 : (⟨∑ l ∈ range (m.ten .ReWnd).leads, (m'.ten .ReWnd).val l k j,
          ∑ l ∈ range (m.ten .ReWnd).leads, (m'.ten .ImWnd).val l k j⟩ : ℂ) = conj (κ k) *
          ⟨∑ l ∈ range (m.ten .ReWnd).leads, (m.ten .ReWnd).val l k j,
          ∑ l ∈ range (m.ten .ReWnd).leads, (m.ten .ImWnd).val l k j⟩ := by
        have sp : ∀ (f g : Nat → ℝ) (n : Nat), (⟨∑ l ∈ range n, f l, ∑ l ∈ range n, g l⟩ : ℂ) =
            ∑ l ∈ range n, (⟨f l, g l⟩ : ℂ) := by
          intro f g n
          apply Complex.ext <;> simp
        rw [sp, sp, mul_sum]
        exact sum_congr rfl fun l' _ => h.row l' k j
      generalize (m'.ten .ReWdn).val l i k = x' at *
      generalize (m'.ten .ImWdn).val l i k = y' at *
      generalize (m.ten .ReWdn).val l i k = x at *
      generalize (m.ten .ImWdn).val l i k = y at *
      generalize ∑ l ∈ range (m.ten .ReWnd).leads, (m'.ten .ReWnd).val l k j = p' at *
      generalize ∑ l ∈ range (m.ten .ReWnd).leads, (m'.ten .ImWnd).val l k j = q' at *
      generalize ∑ l ∈ range (m.ten .ReWnd).leads, (m.ten .ReWnd).val l k j = p at *
      generalize ∑ l ∈ range (m.ten .ReWnd).leads, (m.ten .ImWnd).val l k j = q at *
      have e3 : (⟨x', y'⟩ : ℂ) * ⟨p', q'⟩ = ⟨x, y⟩ * ⟨p, q⟩ := by
        rw [e1, e2]
        linear_combination (⟨x, y⟩ * ⟨p, q⟩ : ℂ) * hκ k
      have e4 := congrArg Complex.im e3
      simp only [Complex.mul_im] at e4
      linear_combination m.Lnn.val k k * e4
    · rw [if_neg c2, if_neg c2, if_neg c2, if_neg c2]
  · rw [if_neg c1, if_neg c1, if_neg c1, if_neg c1]
    rfl

theorem corrs_rel {κ : Nat → ℂ} (hκ : ∀ p, κ p * conj (κ p) = 1) {m m' : Mats} (h : MatsRel κ m m') (n : Nat) :
    corrs m' n = corrs m n := by
  unfold corrs
  simp only [corr_rel hκ h]

/-- The kernel, the flag and the matrices from which the currents are made are the same. -/
structure SRel (st st' : St) : Prop where
  kern : st'.kern = st.kern
  im : st'.acc.im = st.acc.im
  dd : ∀ n, n = .Wdd ∨ n = .WE1 ∨ n = .WE2 → st'.acc.mats.ten n = st.acc.mats.ten n

theorem addCorr_rel {v : View} {κ : Nat → ℂ} (hκ : ∀ p, κ p * conj (κ p) = 1) {a a' : Acc} (h : ARel κ a a')
    (kern : Mat) : PRel SRel (addCorr v ⟨kern, a⟩) (addCorr v ⟨kern, a'⟩) := by
  obtain ⟨hi, hm⟩ := h
  unfold addCorr
  dsimp only
  rw [corrs_rel hκ hm]
  refine .bind_same _ fun w _ => .ok ⟨rfl, hi, ?_⟩
  intro n hn
  dsimp only
  rw [hm.dd _ (Or.inl rfl), hm.dd n hn]

/-! ### The phases of the coherences -/

section
variable {s : In} {la : Lab} (h : VOk s.v la) {u w z : Nat → ℂ} {T' : Nat → Nat → Nat → ℂ} {tl' : Nat → Nat → ℂ}
  (hp : Phases s.v u w z s.L.Tba T' s.tl tl') (hall : AllCoherences s.v la)

/-- The phase of the coherence at position `p`. -/
def kap (v : View) (u : Nat → ℂ) (p : Nat) : ℂ := by
  classical
  exact if h : ∃ x : Nat × Nat × Nat, x.2.1 ∈ v.row x.1 ∧ x.2.2 ∈ v.row x.1 ∧ x.2.1 ≠ x.2.2 ∧
    offPos v x.2.1 x.2.2 x.1 = .ok (p : Int) then conj (u h.choose.2.1) * u h.choose.2.2 else 1

include h hall in
theorem offPos_inj {c a b c' a' b' : Nat} {i : Int} (ha : a ∈ s.v.row c) (hb : b ∈ s.v.row c) (hne : a ≠ b)
    (ha' : a' ∈ s.v.row c') (hb' : b' ∈ s.v.row c') (hne' : a' ≠ b') (e : offPos s.v a b c = .ok i)
    (e' : offPos s.v a' b' c' = .ok i) : a = a' ∧ b = b' := by
  obtain ⟨l1, l2⟩ := h.lab_off c a b ha hb hne (hall c a b ha hb)
  obtain ⟨l1', l2'⟩ := h.lab_off c' a' b' ha' hb' hne' (hall c' a' b' ha' hb')
  unfold offPos at e e'
  rw [h.ind0 c a b ha hb, hall c a b ha hb] at e
  rw [h.ind0 c' a' b' ha' hb', hall c' a' b' ha' hb'] at e'
  simp only [py_bind_ok, if_true, py_pure, Except.ok.injEq] at e e'
  rw [if_pos hne] at e
  rw [if_pos hne'] at e'
  have key : la.lab c a b = la.lab c' a' b' ∧ (a > b ↔ a' > b') := by
    split at e <;> split at e' <;> omega
  obtain ⟨-, ⟨h1, h2⟩ | ⟨h1, h2⟩⟩ := h.lab_inj c a b c' a' b' ha hb (hall c a b ha hb) ha' hb' (hall c' a' b' ha' hb') key.1
  · exact ⟨h1, h2⟩
  · exfalso; have := key.2; omega

include h hall in
theorem kap_ok {c a b p : Nat} (ha : a ∈ s.v.row c) (hb : b ∈ s.v.row c) (hne : a ≠ b)
    (e : offPos s.v a b c = .ok (p : Int)) : kap s.v u p = conj (u a) * u b := by
  have hx : ∃ x : Nat × Nat × Nat, x.2.1 ∈ s.v.row x.1 ∧ x.2.2 ∈ s.v.row x.1 ∧ x.2.1 ≠ x.2.2 ∧
    offPos s.v x.2.1 x.2.2 x.1 = .ok (p : Int) := ⟨(c, a, b), ha, hb, hne, e⟩
  unfold kap
  rw [dif_pos hx]
  obtain ⟨h1, h2, h3, h4⟩ := hx.choose_spec
  obtain ⟨e1, e2⟩ := offPos_inj h hall h1 h2 h3 ha hb hne h4 e
  rw [e1, e2]

include hp in
theorem kap_unit (p : Nat) : kap s.v u p * conj (kap s.v u p) = 1 := by
  unfold kap
  split
  · rename_i hx
    have h1 := hp.nu hx.choose.2.1; have h2 := hp.nu hx.choose.2.2
    simp only [map_mul, Complex.conj_conj]
    rw [hp.cu, hp.cu]
    field_simp
  · simp

/-! ### The generators -/

theorem trans_ph {t2 t2' k : ℂ} (e : t2' = k * t2) (x y sign : ℝ) (l : Nat) :
    (⟨(trans (s.withTba T' tl') t2' x y sign l).1, (trans (s.withTba T' tl') t2' x y sign l).2⟩ : ℂ) =
      k * ⟨(trans s t2 x y sign l).1, (trans s t2 x y sign l).2⟩ := by
  have key : ∀ t : ℂ, (⟨(trans s t x y sign l).1, (trans s t x y sign l).2⟩ : ℂ) =
      t * ⟨Real.pi * (fermiFunc (sign * s.alpha l x) + fermiFunc (sign * s.alpha l y)),
        deltaPhi s.lib (s.alpha l x) (s.alpha l y) (s.L.Dm l / s.L.T l) (s.L.Dp l / s.L.T l) sign⟩ := by
    intro t
    apply Complex.ext
    · simp only [trans, Complex.mul_re]; ring
    · simp only [trans, Complex.mul_im]; ring
  rw [show trans (s.withTba T' tl') t2' x y sign l = trans s t2' x y sign l from rfl, key, key, e, mul_assoc]

theorem stay_ph {t2 t2' k : ℂ} (e : t2' = k * t2) (x sign up : ℝ) (l : Nat) :
    (⟨(stay (s.withTba T' tl') t2' x sign up l).1, (stay (s.withTba T' tl') t2' x sign up l).2⟩ : ℂ) =
      k * ⟨(stay s t2 x sign up l).1, (stay s t2 x sign up l).2⟩ := by
  have key : ∀ t : ℂ, (⟨(stay s t x sign up l).1, (stay s t x sign up l).2⟩ : ℂ) =
      t * ⟨-Real.pi * fermiFunc (sign * s.alpha l x),
        up * phi s.lib (s.alpha l x) (s.L.Dm l / s.L.T l) (s.L.Dp l / s.L.T l) sign⟩ := by
    intro t
    apply Complex.ext
    · simp only [stay, Complex.mul_re]; ring
    · simp only [stay, Complex.mul_im]; ring
  rw [show stay (s.withTba T' tl') t2' x sign up l = stay s t2' x sign up l from rfl, key, key, e, mul_assoc]

include hp in
/-- Two amplitudes with the same upper state. -/
theorem amp_hi {c x a b : Nat} (hx : x ∈ s.v.row (c + 1)) (ha : a ∈ s.v.row c) (hb : b ∈ s.v.row c) (l : Nat) :
    T' l x a * conj (T' l x b) = (conj (u a) * u b) * (s.L.Tba l x a * conj (s.L.Tba l x b)) := by
  rw [hp.add l _ _ _ hx ha, hp.add l _ _ _ hx hb]
  simp only [map_mul, hp.cu, hp.cw, Complex.conj_conj, map_inv₀, inv_inv]
  have := hp.nu x; have := hp.nw l
  field_simp

include hp in
/-- Two amplitudes with the same lower state. -/
theorem amp_lo {c x a b : Nat} (hx : x ∈ s.v.row c) (ha : a ∈ s.v.row (c + 1)) (hb : b ∈ s.v.row (c + 1)) (l : Nat) :
    T' l b x * conj (T' l a x) = (conj (u a) * u b) * (s.L.Tba l b x * conj (s.L.Tba l a x)) := by
  rw [hp.add l _ _ _ ha hx, hp.add l _ _ _ hb hx]
  simp only [map_mul, hp.cu, hp.cw, Complex.conj_conj, map_inv₀, inv_inv]
  have := hp.nu x; have := hp.nw l
  field_simp

include h hp hall

theorem colDn_ph {a1 b1 c : Nat} (h1 : a1 ∈ s.v.row c) (h2 : b1 ∈ s.v.row c) (hne : a1 ≠ b1) :
    PRel (Rel s.v (kap s.v u)) (colDn s a1 b1 c) (colDn (s.withTba T' tl') a1 b1 c) := by
  obtain ⟨p, -, hpos⟩ := offPos_ok h hall h1 h2 hne
  have hk := kap_ok (u := u) h hall h1 h2 hne hpos
  unfold colDn
  refine both_rel (both_rel ?_ ?_) ?_
  · refine upper_rel (Rel.flatMap _ fun a2 ha2 => Rel.flatMap _ fun l _ => ?_)
    refine Rel.dn hpos (trans_ph ?_ _ _ _ _)
    rw [hk]; exact amp_hi hp ha2 h1 h2 l
  · refine lower_rel (fun c1 ec => Rel.flatMap _ fun a2 ha2 => Rel.flatMap _ fun l _ => ?_)
    subst ec
    refine Rel.dn hpos (trans_ph ?_ _ _ _ _)
    rw [hk]; exact amp_lo hp ha2 h1 h2 l
  · refine PRel.bind_same _ fun l2 e => ?_
    obtain rfl := states_row s.v e
    refine collect_rel _ fun a2 ha2 => both_rel ?_ ?_
    · refine upper_rel (Rel.flatMap _ fun x hx => Rel.app ?_ ?_)
      · split
        · rename_i eq; subst eq
          refine Rel.flatMap _ fun l _ => Rel.dn hpos (stay_ph ?_ _ _ _ _)
          rw [hk]; exact amp_hi hp hx h1 h2 l
        · exact .nil
      · split
        · rename_i eq; subst eq
          refine Rel.flatMap _ fun l _ => Rel.dn hpos (stay_ph ?_ _ _ _ _)
          rw [hk]; exact amp_hi hp hx h1 h2 l
        · exact .nil
    · refine lower_rel (fun c1 ec => Rel.flatMap _ fun x hx => Rel.app ?_ ?_)
      · subst ec
        split
        · rename_i eq; subst eq
          refine Rel.flatMap _ fun l _ => Rel.dn hpos (stay_ph ?_ _ _ _ _)
          rw [hk]; exact amp_lo hp hx h1 h2 l
        · exact .nil
      · subst ec
        split
        · rename_i eq; subst eq
          refine Rel.flatMap _ fun l _ => Rel.dn hpos (stay_ph ?_ _ _ _ _)
          rw [hk]; exact amp_lo hp hx h1 h2 l
        · exact .nil

theorem colNd_ph {a1 c : Nat} (h1 : a1 ∈ s.v.row c) :
    PRel (Rel s.v (kap s.v u)) (colNd s a1 c) (colNd (s.withTba T' tl') a1 c) := by
  have pos : ∀ {c a b : Nat}, a ∈ s.v.row c → b ∈ s.v.row c → a ≠ b →
      ∃ p : Nat, offPos s.v a b c = .ok (p : Int) ∧ conj (kap s.v u p) = conj (u b) * u a := by
    intro c a b ha hb hne
    obtain ⟨p, -, hpos⟩ := offPos_ok h hall ha hb hne
    refine ⟨p, hpos, ?_⟩
    rw [kap_ok (u := u) h hall ha hb hne hpos]
    simp [mul_comm]
  unfold colNd
  refine both_rel (both_rel ?_ ?_) ?_
  · refine upper_rel (Rel.flatMap _ fun a2 ha2 => Rel.flatMap _ fun b2 hb2 => ?_)
    split
    · exact .nil
    rename_i hne
    obtain ⟨p, hpos, hk⟩ := pos ha2 hb2 hne
    refine Rel.flatMap _ fun l _ => Rel.nd (p := p) (by exact_mod_cast hpos) (trans_ph ?_ _ _ _ _)
    rw [hk]; exact amp_lo hp h1 hb2 ha2 l
  · refine lower_rel (fun c1 ec => Rel.flatMap _ fun a2 ha2 => Rel.flatMap _ fun b2 hb2 => ?_)
    subst ec
    split
    · exact .nil
    rename_i hne
    obtain ⟨p, hpos, hk⟩ := pos ha2 hb2 (Ne.symm hne)
    refine Rel.flatMap _ fun l _ => Rel.nd (p := p) (by
      rw [← hpos]; congr 1; push_cast; ring) (trans_ph ?_ _ _ _ _)
    rw [hk]; exact amp_hi hp h1 hb2 ha2 l
  · refine PRel.bind_same _ fun l2 e => ?_
    obtain rfl := states_row s.v e
    refine collect_rel _ fun a2 ha2 => collect_rel _ fun b2 hb2 => ?_
    split
    · exact .ok .nil
    rename_i hne
    obtain ⟨p, hpos, hk⟩ := pos ha2 hb2 hne
    refine both_rel ?_ ?_
    · refine upper_rel (Rel.flatMap _ fun x hx => Rel.app ?_ ?_)
      · split
        · rename_i eq; subst eq
          refine Rel.flatMap _ fun l _ => Rel.nd hpos (stay_ph ?_ _ _ _ _)
          rw [hk]; exact amp_hi hp hx hb2 ha2 l
        · exact .nil
      · split
        · rename_i eq; subst eq
          refine Rel.flatMap _ fun l _ => Rel.nd hpos (stay_ph ?_ _ _ _ _)
          rw [hk]; exact amp_hi hp hx hb2 ha2 l
        · exact .nil
    · refine lower_rel (fun c1 ec => Rel.flatMap _ fun x hx => Rel.app ?_ ?_)
      · subst ec
        split
        · rename_i eq; subst eq
          refine Rel.flatMap _ fun l _ => Rel.nd hpos (stay_ph ?_ _ _ _ _)
          rw [hk]; exact amp_lo hp hx hb2 ha2 l
        · exact .nil
      · subst ec
        split
        · rename_i eq; subst eq
          refine Rel.flatMap _ fun l _ => Rel.nd hpos (stay_ph ?_ _ _ _ _)
          rw [hk]; exact amp_lo hp hx hb2 ha2 l
        · exact .nil

theorem calls2_ph : PRel (Rel s.v (kap s.v u)) (calls2 s) (calls2 (s.withTba T' tl')) := by
  unfold calls2
  refine collect_rel _ fun c _ => PRel.bind_same _ fun l2 e => ?_
  obtain rfl := states_row s.v e
  refine collect_rel _ fun a ha => collect_rel _ fun b hb => ?_
  split
  · exact .ok .nil
  rename_i hne
  refine (colDn_ph h hp hall ha hb hne).bind fun k1 k1' r => .ok (.app r (.plain _ (Or.inl rfl)))

omit hall in
theorem calls1_ph (fct : Nat → Nat → ℝ × ℝ) (off : Bool) (hall : off = true → AllCoherences s.v la) :
    PRel (Rel s.v (kap s.v u)) (calls1 s fct off) (calls1 (s.withTba T' tl') fct off) := by
  have lo : ∀ {c : Nat}, ∀ a ∈ s.v.low c, ∃ c', c = c' + 1 ∧ a ∈ s.v.row c' := by
    intro c a ha
    obtain ⟨h0, ha', -⟩ := h.low_mem ha
    exact ⟨c - 1, by omega, ha'⟩
  unfold calls1
  refine collect_rel _ fun c _ => PRel.bind_same _ fun l2 e => ?_
  obtain rfl := states_row s.v e
  refine collect_rel _ fun b hb => PRel.bind_same _ fun un _ => ?_
  split
  · have e2 := rowE1_ok (s := s.withTba T' tl') (la := la) h hb
    have e3 := rowE2_ok (s := s.withTba T' tl') (la := la) h hb
    have g2 : groupE s.v la (energy1 (s.withTba T' tl')) c b = groupE s.v la (energy1 s) c b :=
      groupE_ph hp (fun a b c i j l hb ha => energy1_ph hp hb ha i j l) hb lo
    have g3 : groupE s.v la (energy2 (s.withTba T' tl')) c b = groupE s.v la (energy2 s) c b :=
      groupE_ph hp (fun a b c i j l hb ha => energy2_ph hp hb ha i j l) hb lo
    rw [e2, e3, rowE1_ok h hb, rowE2_ok h hb, row1_ok h fct hb, col2_ph h hp hb]
    rw [show row1 (s.withTba T' tl').v fct b (c : Int) = .ok (group1 s.v la fct c b) from row1_ok h fct hb]
    rw [show groupE (s.withTba T' tl').v la (energy1 (s.withTba T' tl')) c b = _ from g2,
      show groupE (s.withTba T' tl').v la (energy2 (s.withTba T' tl')) c b = _ from g3]
    simp only [py_bind_ok]
    refine PRel.bind_same _ fun k2 hk2 => ?_
    have hnd : PRel (Rel s.v (kap s.v u)) (nd s off b c) (nd (s.withTba T' tl') off b c) := by
      unfold nd
      cases off with
      | false => exact .ok .nil
      | true => exact colNd_ph h hp (hall rfl) hb
    refine hnd.bind fun k5 k5' r => .ok (.app (.app (.app (.app ?_ ?_) ?_) ?_) r)
    · refine Rel.same _ fun k hk => ?_
      simp only [group1, List.mem_append, List.mem_flatMap, List.mem_singleton] at hk
      rcases hk with ⟨_, _, _, _, rfl⟩ | ⟨_, _, _, _, rfl⟩ <;> exact Or.inr (Or.inl rfl)
    · exact Rel.same _ fun k hk => Or.inr (Or.inl (col2_calls (view_mem h hb) hk2 k hk).name)
    · refine Rel.same _ fun k hk => ?_
      rcases groupE_name (n := .WE1) (fun _ _ _ _ _ => energy1_name) c b k hk with e | e
      · exact Or.inr (Or.inr (Or.inl e))
      · exact Or.inl e
    · refine Rel.same _ fun k hk => ?_
      rcases groupE_name (n := .WE2) (fun _ _ _ _ _ => energy2_name) c b k hk with e | e
      · exact Or.inr (Or.inr (Or.inr e))
      · exact Or.inl e
  · exact .ok .nil

omit h hp hall in
theorem fresh_rel (v : View) (κ : Nat → ℂ) (symq : Bool) : ARel κ (fresh v symq).acc (fresh v symq).acc := by
  refine ⟨rfl, ⟨rfl, rfl, rfl, fun _ _ => rfl, rfl, rfl, fun _ _ _ => rfl, ?_, ?_⟩⟩
  · intro l i j
    show (⟨0, 0⟩ : ℂ) = κ j * ⟨0, 0⟩
    rw [show (⟨0, 0⟩ : ℂ) = 0 from rfl, mul_zero]
  · intro l i j
    show (⟨0, 0⟩ : ℂ) = conj (κ i) * ⟨0, 0⟩
    rw [show (⟨0, 0⟩ : ℂ) = 0 from rfl, mul_zero]

omit hall in
theorem genKern_ph (fct : Nat → Nat → ℝ × ℝ) (off symq : Bool) (hall : off = true → AllCoherences s.v la) :
    PRel SRel (genKern s fct off (fresh s.v symq)) (genKern (s.withTba T' tl') fct off (fresh s.v symq)) := by
  unfold genKern
  refine (calls1_ph h hp fct off hall).bind fun k1 k1' r1 => ?_
  refine (run_rel r1 (fresh_rel s.v _ symq)).bind fun a a' ha => ?_
  dsimp only
  rw [ha.2.dd _ (Or.inl rfl)]
  cases off with
  | false => exact .ok ⟨rfl, ha.1, ha.2.dd⟩
  | true =>
    refine (calls2_ph h hp (hall rfl)).bind fun k2 k2' r2 => ?_
    exact (run_rel r2 ha).bind fun a a' ha => addCorr_rel (kap_unit hp) ha _

omit hall in
/-- **C69** for the RTD approach. With other phases the kernel is the same, and so are the currents for every vector of
populations; if one calculation raises an error, the other raises the same. This includes the second order, the energy
kernels with the flag that turns energy currents into `nan`, and the corrections from coherences. -/
theorem c69_rtd (off symq : Bool) (hall : off = true → AllCoherences s.v la) :
    (do let f ← Pauli.genFct s.v s.E (s.L.withTba T')
        let st ← genKern (s.withTba T' tl') f off (fresh s.v symq)
        pure st.kern) =
      (do let f ← Pauli.genFct s.v s.E s.L
          let st ← genKern s f off (fresh s.v symq)
          pure st.kern) ∧
    ∀ LN φ,
      (do let f ← Pauli.genFct s.v s.E (s.L.withTba T')
          let st ← genKern (s.withTba T' tl') f off (fresh s.v symq)
          genCurrent (s.withTba T' tl') LN st.acc φ) =
      (do let f ← Pauli.genFct s.v s.E s.L
          let st ← genKern s f off (fresh s.v symq)
          genCurrent s LN st.acc φ) := by
  rw [c69_pauli h hp]
  refine ⟨congrArg (fun k => _ >>= k) (funext fun f => ?_), fun LN φ => congrArg (fun k => _ >>= k) (funext fun f => ?_)⟩
  · exact ((genKern_ph h hp f off symq hall).eq fun st st' r => congrArg Except.ok r.kern.symm).symm
  · refine ((genKern_ph h hp f off symq hall).eq fun st st' r => ?_).symm
    unfold genCurrent leadCurrent
    rw [r.dd _ (Or.inl rfl), r.dd _ (Or.inr (Or.inl rfl)), r.dd _ (Or.inr (Or.inr rfl)), r.im]
    rfl

end

/-- The hypotheses of `c69_pauli` and `c69_rtd` hold for two leads of different temperature, corrections from coherences and
phases of all kinds, and the calculation raises no error. -/
example (F : Fun) (P : F.lib.Poles) : ∃ (s : In) (la : Lab) (u w z : Nat → ℂ) (T' : Nat → Nat → Nat → ℂ) (tl' : Nat → Nat → ℂ)
    (fct : Nat → Nat → ℝ × ℝ) (st : St), s.lib = F.lib ∧ VOk s.v la ∧ AllCoherences s.v la ∧
    Phases s.v u w z s.L.Tba T' s.tl tl' ∧ Pauli.genFct s.v s.E s.L = .ok fct ∧
    genKern s fct true (fresh s.v true) = .ok st ∧ s.v.nleads = 2 ∧ s.L.T 0 ≠ s.L.T 1 ∧ s.L.Tba 0 1 0 ≠ 0 ∧
    T' 0 1 0 * s.L.Tba 0 2 0 ≠ T' 0 2 0 * s.L.Tba 0 1 0 ∧ T' 0 1 0 * s.L.Tba 1 1 0 ≠ T' 1 1 0 * s.L.Tba 0 1 0 ∧
    tl' 0 0 * s.tl 0 1 ≠ tl' 0 1 * s.tl 0 0 := by
  obtain ⟨d, e, hv, ha, hst, _⟩ := view_all
  let L : Leads := ⟨fun l => l, fun l => l + 1, fun _ => -60, fun _ => 60, fun l _ _ => l + 1, 1, 10000⟩
  let s : In := ⟨d.view 2, fun b => b, 4, L, fun _ _ => 1, 2, F.lib, some P⟩
  let f : Nat → ℂ := fun n => if n = 0 then 1 else if n = 1 then Complex.I else -1
  have hf : ∀ n, ‖f n‖ = 1 := by
    intro n
    simp only [f]
    split
    · simp
    · split <;> simp
  obtain ⟨fct, hf', _⟩ := Pauli.genFct_ok (v := s.v) hv s.E s.L
  obtain ⟨st, hst'⟩ := genKern_some (s := s) hv (Or.inl rfl) fct true true (fun _ => ha)
  have lt : ∀ q c b, c ∈ s.v.row (q + 1) → b ∈ s.v.row q → b < c := by
    intro q c b hc hb
    have hc' : c ∈ (d.statesdm[q + 1]?).getD [] := hc
    have hb' : b ∈ (d.statesdm[q]?).getD [] := hb
    rw [hst] at hc' hb'
    match q with
    | 0 => simp at hc' hb'; omega
    | 1 => simp at hc' hb'; omega
    | 2 => simp at hc'
    | q + 3 => simp at hc'
  refine ⟨s, d.labOf, f, f, f, fun l x y => if y < x then f l * f x * L.Tba l x y * conj (f y)
    else conj (f l) * f x * L.Tba l x y * conj (f y), fun l n => f l * f n * 1, fct, st, rfl, hv, ha,
    ⟨hf, hf, hf, ?_, ?_, fun _ _ => rfl⟩, hf', hst', rfl, by norm_num [s, L], by norm_num [s, L], ?_, ?_, ?_⟩
  · intro l q c b hc hb
    exact if_pos (lt q c b hc hb)
  · intro l q c b hc hb
    have := lt q c b hc hb
    exact if_neg (by omega)
  · simp [s, L, f, Complex.ext_iff]
  · simp [s, L, f, Complex.ext_iff]
  · simp [s, f, Complex.ext_iff]

end RTD
end
end Verif
