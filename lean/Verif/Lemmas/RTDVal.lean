import Verif.Lemmas.RTDOut

/-! The entries of the matrices made by `generate_kern` of the RTD approach. -/

namespace Verif

open Finset
open scoped ComplexConjugate

noncomputable section

namespace RTD

/-- What `set_matrix_element_dd(l, x, y, bb, aa, ..)` adds to the entry `i, j` for lead `l`. -/
def ddAt (i j bb aa : Nat) (x y : ℝ) : ℝ :=
  (if bb = i ∧ bb = j then x else 0) + (if bb = i ∧ aa = j then y else 0)

/-- The value `temp` in `generate_row_1st_energy_kernel`. -/
def In.t1 (s : In) (a b l : Nat) : ℝ :=
  ((∑ lp ∈ range s.v.nleads, if lp = l then 0 else s.gamma a b l lp).re * s.phi2 l (s.E b - s.E a)) * Real.pi

/-- The value `temp` in `generate_row_2nd_energy_kernel`. -/
def In.t2 (s : In) (a b l : Nat) : ℝ :=
  (∑ lp ∈ range s.v.nleads, if lp = l then 0 else (s.gamma a b l lp).re * s.phi2 lp (s.E b - s.E a)) * Real.pi

/-- The entries of the energy kernels. -/
def wE (v : View) (la : Lab) (t : Nat → Nat → Nat → ℝ) (l i j : Nat) : ℝ :=
  ∑ q ∈ range v.ncharge, ∑ b ∈ v.R q,
    (∑ a ∈ v.Lo q, ddAt i j (la.lab q b b) (la.lab (q - 1) a a) (t a b l) (t a b l) +
      ∑ x ∈ v.R (q + 1), ddAt i j (la.lab q b b) (la.lab (q + 1) x x) (t b x l) (t b x l))

/-- The first-order part of the kernel. -/
def wD (v : View) (la : Lab) (fct : Nat → Nat → ℝ × ℝ) (l i j : Nat) : ℝ :=
  ∑ q ∈ range v.ncharge, ∑ b ∈ v.R q,
    (∑ a ∈ v.Lo q, ddAt i j (la.lab q b b) (la.lab (q - 1) a a)
        (-(fct l (la.ix1 (q - 1) b a)).2) (fct l (la.ix1 (q - 1) b a)).1 +
      ∑ x ∈ v.R (q + 1), ddAt i j (la.lab q b b) (la.lab (q + 1) x x)
        (-(fct l (la.ix1 q x b)).1) (fct l (la.ix1 q x b)).2)

theorem dd_at {v : View} {sh : Shape} {n : Name} (hsh : sh n = (v.nleads, v.npauli, v.npauli)) {l l' : Nat}
    (hl : l' < v.nleads) (i j : Nat) {bb aa : Nat} (hb : bb < v.npauli) (ha : aa < v.npauli) (x y : ℝ) :
    atOf v sh n l i j (.dd l' x y (bb : Nat) (aa : Nat) n) = if l' = l then ddAt i j bb aa x y else 0 := by
  unfold atOf
  rw [evs_dd (by rw [hsh]; exact hl) (by rw [hsh]; exact hb) (by rw [hsh]; exact hb) (by rw [hsh]; exact ha)]
  simp only [List.map_cons, List.map_nil, List.sum_cons, List.sum_nil, Ev.at, true_and, add_zero, ddAt]
  by_cases e : l' = l <;> simp [e]

section
variable {s : In} {la : Lab} (h : VOk s.v la)
include h

theorem groupE_at {sh : Shape} {n : Name} (hsh : sh n = (s.v.nleads, s.v.npauli, s.v.npauli))
    {e : Nat → Nat → Int → Int → Nat → List Call} {t : Nat → Nat → Nat → ℝ}
    (he : ∀ a b bb aa l, ∃ ks, e a b bb aa l = ks ++ [.dd l (t a b l) (t a b l) bb aa n] ∧ ∀ k ∈ ks, k.name = none)
    {l : Nat} (hl : l < s.v.nleads) (i j : Nat) {q b : Nat} (hb : b ∈ s.v.row q) :
    ((groupE s.v la e q b).map (atOf s.v sh n l i j)).sum =
      ∑ a ∈ s.v.Lo q, ddAt i j (la.lab q b b) (la.lab (q - 1) a a) (t a b l) (t a b l) +
      ∑ x ∈ s.v.R (q + 1), ddAt i j (la.lab q b b) (la.lab (q + 1) x x) (t b x l) (t b x l) := by
  have lb := h.lab_diag q b hb
  have lead : ∀ (x y bb aa : Nat), bb < s.v.npauli → aa < s.v.npauli →
      (((List.range s.v.nleads).flatMap fun l => e x y (bb : Nat) (aa : Nat) l).map (atOf s.v sh n l i j)).sum =
        ddAt i j bb aa (t x y l) (t x y l) := by
    intro x y bb aa hbb haa
    have each : ∀ l' < s.v.nleads, ((e x y (bb : Nat) (aa : Nat) l').map (atOf s.v sh n l i j)).sum =
        if l' = l then ddAt i j bb aa (t x y l') (t x y l') else 0 := by
      intro l' hl'
      obtain ⟨ks, e1, e2⟩ := he x y bb aa l'
      rw [e1, List.map_append, List.sum_append, sum_zero (fun k hk => atOf_name (by rw [e2 k hk]; simp)), zero_add]
      simp only [List.map_cons, List.map_nil, List.sum_cons, List.sum_nil, add_zero]
      exact dd_at hsh hl' i j hbb haa _ _
    apply sum_leads' hl
    · rw [each l hl, if_pos rfl]
    · intro l' hl' hne
      rw [each l' hl', if_neg hne]
  unfold groupE
  rw [List.map_append, List.sum_append, sum_flatMap', sum_flatMap', View.Lo, View.R,
    List.sum_toFinset _ (h.low_nodup q), List.sum_toFinset _ (h.nodup (q + 1))]
  congr 2
  · exact List.map_congr_left fun a ha => lead _ _ _ _ lb (h.lab_diag _ _ (h.low_mem ha).2.1)
  · exact List.map_congr_left fun a ha => lead _ _ _ _ lb (h.lab_diag _ _ ha)

theorem group1_at {sh : Shape} (hsh : sh .Wdd = (s.v.nleads, s.v.npauli, s.v.npauli)) (fct : Nat → Nat → ℝ × ℝ)
    {l : Nat} (hl : l < s.v.nleads) (i j : Nat) {q b : Nat} (hb : b ∈ s.v.row q) :
    ((group1 s.v la fct q b).map (atOf s.v sh .Wdd l i j)).sum =
      ∑ a ∈ s.v.Lo q, ddAt i j (la.lab q b b) (la.lab (q - 1) a a)
        (-(fct l (la.ix1 (q - 1) b a)).2) (fct l (la.ix1 (q - 1) b a)).1 +
      ∑ x ∈ s.v.R (q + 1), ddAt i j (la.lab q b b) (la.lab (q + 1) x x)
        (-(fct l (la.ix1 q x b)).1) (fct l (la.ix1 q x b)).2 := by
  have lb := h.lab_diag q b hb
  unfold group1
  rw [List.map_append, List.sum_append, sum_flatMap', sum_flatMap', View.Lo, View.R,
    List.sum_toFinset _ (h.low_nodup q), List.sum_toFinset _ (h.nodup (q + 1))]
  congr 2
  · apply List.map_congr_left
    intro a ha
    have la' := h.lab_diag _ _ (h.low_mem ha).2.1
    apply sum_leads h hl
    · rw [dd_at hsh hl i j lb la', if_pos rfl]
    · intro k hk hne
      rw [dd_at hsh hk i j lb la', if_neg hne]
  · apply List.map_congr_left
    intro a ha
    have la' := h.lab_diag _ _ ha
    apply sum_leads h hl
    · rw [dd_at hsh hl i j lb la', if_pos rfl]
    · intro k hk hne
      rw [dd_at hsh hk i j lb la', if_neg hne]

omit h in
theorem energy1_shape (a b : Nat) (bb aa : Int) (l : Nat) :
    ∃ ks, energy1 s a b bb aa l = ks ++ [.dd l (s.t1 a b l) (s.t1 a b l) bb aa .WE1] ∧ ∀ k ∈ ks, k.name = none := by
  refine ⟨_, rfl, ?_⟩
  intro k hk
  split at hk
  · simp only [List.mem_singleton] at hk; subst hk; rfl
  · simp at hk

omit h in
theorem energy2_shape (a b : Nat) (bb aa : Int) (l : Nat) :
    ∃ ks, energy2 s a b bb aa l = ks ++ [.dd l (s.t2 a b l) (s.t2 a b l) bb aa .WE2] ∧ ∀ k ∈ ks, k.name = none := by
  refine ⟨_, rfl, ?_⟩
  intro k hk
  obtain ⟨_, _, hk⟩ := List.mem_flatMap.1 hk
  split at hk
  · simp only [List.mem_singleton] at hk; subst hk; rfl
  · simp at hk

/-- Entries made by the first loop. -/
theorem calls1_at {fct : Nat → Nat → ℝ × ℝ} {off : Bool} {ks : List Call} (hk : calls1 s fct off = .ok ks) {l : Nat}
    (hl : l < s.v.nleads) (i j : Nat) :
    (ks.map (atOf s.v (shapes s.v) .WE1 l i j)).sum = wE s.v la s.t1 l i j ∧
    (ks.map (atOf s.v (shapes s.v) .WE2 l i j)).sum = wE s.v la s.t2 l i j ∧
    (ks.map (atOf s.v (shapes s.v) .Wdd l i j)).sum = wD s.v la fct l i j +
      ∑ q ∈ range s.v.ncharge, ∑ b ∈ s.v.R q, ((valD (col2 s b q)).map (atOf s.v (shapes s.v) .Wdd l i j)).sum := by
  have key := (calls1_inv h hk).1
  have n1 : ∀ (n : Name) q b, b ∈ s.v.row q → n ≠ .WE1 →
      ((groupE s.v la (energy1 s) q b).map (atOf s.v (shapes s.v) n l i j)).sum = 0 := by
    intro n q b hb hn
    refine sum_zero fun k hk => atOf_name ?_
    rcases groupE_name (n := .WE1) (fun _ _ _ _ _ => energy1_name) q b k hk with e | e <;> rw [e] <;> simp [hn.symm]
  have n2 : ∀ (n : Name) q b, b ∈ s.v.row q → n ≠ .WE2 →
      ((groupE s.v la (energy2 s) q b).map (atOf s.v (shapes s.v) n l i j)).sum = 0 := by
    intro n q b hb hn
    refine sum_zero fun k hk => atOf_name ?_
    rcases groupE_name (n := .WE2) (fun _ _ _ _ _ => energy2_name) q b k hk with e | e <;> rw [e] <;> simp [hn.symm]
  have n3 : ∀ (n : Name) q b, b ∈ s.v.row q → n ≠ .Wdd →
      ((group1 s.v la fct q b).map (atOf s.v (shapes s.v) n l i j)).sum = 0 := by
    intro n q b hb hn
    refine sum_zero fun k hk => atOf_name ?_
    simp only [group1, List.mem_append, List.mem_flatMap, List.mem_singleton] at hk
    rcases hk with ⟨_, _, _, _, rfl⟩ | ⟨_, _, _, _, rfl⟩ <;> simp [Call.name, hn.symm]
  have n4 : ∀ (n : Name) q b, b ∈ s.v.row q → n ≠ .Wdd →
      ((valD (col2 s b q)).map (atOf s.v (shapes s.v) n l i j)).sum = 0 := by
    intro n q b hb hn
    refine sum_zero fun k hk => atOf_name ?_
    rw [(col2_calls (view_mem h hb) (key q b hb).1 k hk).name]; simp [hn.symm]
  have n5 : ∀ (n : Name) q b, b ∈ s.v.row q → n ≠ .ReWnd → n ≠ .ImWnd →
      ((valD (nd s off b q)).map (atOf s.v (shapes s.v) n l i j)).sum = 0 := by
    intro n q b hb hn hn'
    refine sum_zero fun k hk => atOf_name ?_
    rcases nd_name (key q b hb).2 k hk with e | e <;> rw [e] <;> simp [hn.symm, hn'.symm]
  refine ⟨?_, ?_, ?_⟩
  · rw [calls1_sum h hk]
    refine sum_congr rfl fun q _ => sum_congr rfl fun b hb => ?_
    have hb := (mem_R h).1 hb
    unfold one
    simp only [List.map_append, List.sum_append]
    rw [n3 _ q b hb (by simp), n4 _ q b hb (by simp), n2 _ q b hb (by simp), n5 _ q b hb (by simp) (by simp),
      groupE_at h rfl energy1_shape hl i j hb]
    ring
  · rw [calls1_sum h hk]
    refine sum_congr rfl fun q _ => sum_congr rfl fun b hb => ?_
    have hb := (mem_R h).1 hb
    unfold one
    simp only [List.map_append, List.sum_append]
    rw [n3 _ q b hb (by simp), n4 _ q b hb (by simp), n1 _ q b hb (by simp), n5 _ q b hb (by simp) (by simp),
      groupE_at h rfl energy2_shape hl i j hb]
    ring
  · rw [calls1_sum h hk, wD, ← sum_add_distrib]
    refine sum_congr rfl fun q _ => ?_
    rw [← sum_add_distrib]
    refine sum_congr rfl fun b hb => ?_
    have hb := (mem_R h).1 hb
    unfold one
    simp only [List.map_append, List.sum_append]
    rw [n1 _ q b hb (by simp), n2 _ q b hb (by simp), n5 _ q b hb (by simp) (by simp), group1_at h rfl fct hl i j hb]
    ring

/-- The entries of the energy kernels. -/
theorem Steps.we {fct : Nat → Nat → ℝ × ℝ} {off symq : Bool} {st : St} (S : Steps s fct off symq st) {l : Nat}
    (hl : l < s.v.nleads) (i j : Nat) : (st.acc.mats.ten .WE1).val l i j = wE s.v la s.t1 l i j ∧
      (st.acc.mats.ten .WE2).val l i j = wE s.v la s.t2 l i j := by
  obtain ⟨c1, c2, _⟩ := calls1_at h S.h1 hl i j
  rw [S.rest _ (by simp), S.rest _ (by simp), S.second h (by simp) (by simp), S.second h (by simp) (by simp),
    run_val S.r1, run_val S.r1, fresh_sh, c1, c2, fresh_val, fresh_val]
  exact ⟨zero_add _, zero_add _⟩

/-- The entries of the kernel. -/
theorem Steps.wdd_eq {fct : Nat → Nat → ℝ × ℝ} {off symq : Bool} {st : St} (S : Steps s fct off symq st) {l : Nat}
    (hl : l < s.v.nleads) (i j : Nat) : (st.acc.mats.ten .Wdd).val l i j = wD s.v la fct l i j +
      ∑ q ∈ range s.v.ncharge, ∑ b ∈ s.v.R q, ((valD (col2 s b q)).map (atOf s.v (shapes s.v) .Wdd l i j)).sum
      + (S.w l).val i j := by
  rw [S.wdd _ _ _ hl, S.second h (by simp) (by simp), run_val S.r1, fresh_sh, (calls1_at h S.h1 hl i j).2.2, fresh_val,
    zero_add]

end

end RTD

end

end Verif
