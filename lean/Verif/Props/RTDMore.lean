import Verif.Lemmas.RTDVal
import Verif.Props.RTD
import Verif.Props.Pauli

/-! More properties of the RTD approach: energy currents, decoupled leads, range of the kernel, Pauli limit. -/

namespace Verif

open Finset
open scoped ComplexConjugate

noncomputable section

namespace RTD

/-! ### C61: energy and heat currents -/

theorem gamma_swap (s : In) (a b l lp : Nat) : (s.gamma a b lp l).re = (s.gamma a b l lp).re := by
  have : s.gamma a b lp l = conj (s.gamma a b l lp) := by
    unfold In.gamma
    rw [map_sum]
    refine sum_congr rfl fun n _ => ?_
    simp only [map_mul, Complex.conj_conj]
    ring
  rw [this, Complex.conj_re]

/-- The terms with the energy of the lead itself and with the energy of the other lead have the same sum. -/
theorem sum_t (s : In) (a b : Nat) : ∑ l ∈ range s.v.nleads, s.t1 a b l = ∑ l ∈ range s.v.nleads, s.t2 a b l := by
  unfold In.t1 In.t2
  rw [← sum_mul, ← sum_mul]
  congr 1
  have : ∀ l, (∑ lp ∈ range s.v.nleads, if lp = l then 0 else s.gamma a b l lp).re * s.phi2 l (s.E b - s.E a) =
      ∑ lp ∈ range s.v.nleads, if lp = l then 0 else (s.gamma a b l lp).re * s.phi2 l (s.E b - s.E a) := by
    intro l
    rw [Complex.re_sum, sum_mul]
    refine sum_congr rfl fun lp _ => ?_
    split <;> simp
  simp only [this]
  rw [sum_comm]
  refine sum_congr rfl fun lp _ => sum_congr rfl fun l _ => ?_
  by_cases e : lp = l
  · simp [e]
  · rw [if_neg e, if_neg (Ne.symm e), gamma_swap]

theorem ddAt_add (i j bb aa : Nat) (x y : ℝ) : ddAt i j bb aa x x + ddAt i j bb aa y y = ddAt i j bb aa (x + y) (x + y) := by
  unfold ddAt
  split <;> split <;> ring

theorem sum_ddAt (n i j bb aa : Nat) (t : Nat → ℝ) :
    ∑ l ∈ range n, ddAt i j bb aa (t l) (t l) = ddAt i j bb aa (∑ l ∈ range n, t l) (∑ l ∈ range n, t l) := by
  induction n with
  | zero => simp [ddAt]
  | succ n ih => rw [sum_range_succ, sum_range_succ, ih, ddAt_add]

theorem sum_wE (s : In) (la : Lab) (i j : Nat) :
    ∑ l ∈ range s.v.nleads, wE s.v la s.t1 l i j = ∑ l ∈ range s.v.nleads, wE s.v la s.t2 l i j := by
  unfold wE
  rw [sum_comm, sum_comm (s := range s.v.nleads)]
  refine sum_congr rfl fun q _ => ?_
  rw [sum_comm, sum_comm (s := range s.v.nleads)]
  refine sum_congr rfl fun b _ => ?_
  simp only [sum_add_distrib]
  congr 1
  · rw [sum_comm, sum_comm (s := range s.v.nleads)]
    refine sum_congr rfl fun a _ => ?_
    rw [sum_ddAt, sum_ddAt, sum_t]
  · rw [sum_comm, sum_comm (s := range s.v.nleads)]
    refine sum_congr rfl fun a _ => ?_
    rw [sum_ddAt, sum_ddAt, sum_t]

/-- **C61**, energy: let `φ` be annihilated by the kernel, except possibly by the row `r`, which is replaced by the
normalisation. If the energy currents are numbers, they sum to zero. -/
theorem c61_energy {s : In} {la : Lab} (h : VOk s.v la) {fct : Nat → Nat → ℝ × ℝ} {off symq : Bool} {st : St}
    (hst : genKern s fct off (fresh s.v symq) = .ok st) {LN φ : Vec} {cur : Currents}
    (hc : genCurrent s LN st.acc φ = .ok cur) {r : Nat}
    (hφ : ∀ i < s.v.npauli, i ≠ r → ∑ j ∈ range s.v.npauli, st.kern.val i j * φ.val j = 0) {e : Nat → ℝ}
    (he : ∀ l < s.v.nleads, cur.energy l = some (e l)) : ∑ l ∈ range s.v.nleads, e l = 0 := by
  obtain ⟨S⟩ := genKern_steps hst
  obtain ⟨w, hw, rfl⟩ := genCurrent_inv hc
  have e1 : ∀ l ∈ range s.v.nleads, e l =
      0.5 * ∑ i ∈ range s.v.npauli, 2 * s.E i * ∑ j ∈ range s.v.npauli, (st.acc.mats.ten .Wdd).val l i j * φ.val j
        - 0.5 * ∑ i ∈ range s.v.npauli, ∑ j ∈ range s.v.npauli, wE s.v la s.t1 l i j * φ.val j
        + 0.5 * ∑ i ∈ range s.v.npauli, ∑ j ∈ range s.v.npauli, wE s.v la s.t2 l i j * φ.val j := by
    intro l hl
    have hl := mem_range.1 hl
    have := he l hl
    simp only at this
    split at this
    · simp at this
    · simp only [Option.some.injEq] at this
      rw [← this, (leadCurrent_inv S.sh (hw l hl)).2.2.2.2]
      simp only [(S.we h hl _ _).1, (S.we h hl _ _).2]
  rw [sum_congr rfl e1, sum_add_distrib, sum_sub_distrib, ← mul_sum, ← mul_sum, ← mul_sum]
  have a0 : ∑ l ∈ range s.v.nleads, ∑ i ∈ range s.v.npauli, 2 * s.E i *
      ∑ j ∈ range s.v.npauli, (st.acc.mats.ten .Wdd).val l i j * φ.val j = 0 := by
    rw [sum_comm]
    refine sum_eq_zero fun i hi => ?_
    rw [← mul_sum, sum_comm]
    refine mul_eq_zero_of_right _ ?_
    rw [← c28_row h hst hφ i (mem_range.1 hi)]
    refine sum_congr rfl fun j hj => ?_
    rw [← sum_mul, c28_total h hst (mem_range.1 hi) (mem_range.1 hj)]
  have a1 : ∑ l ∈ range s.v.nleads, ∑ i ∈ range s.v.npauli, ∑ j ∈ range s.v.npauli, wE s.v la s.t1 l i j * φ.val j =
      ∑ l ∈ range s.v.nleads, ∑ i ∈ range s.v.npauli, ∑ j ∈ range s.v.npauli, wE s.v la s.t2 l i j * φ.val j := by
    rw [sum_comm, sum_comm (s := range s.v.nleads)]
    refine sum_congr rfl fun i _ => ?_
    rw [sum_comm, sum_comm (s := range s.v.nleads)]
    refine sum_congr rfl fun j _ => ?_
    rw [← sum_mul, ← sum_mul, sum_wE]
  rw [a0, a1]
  ring

/-- **C61**, heat: the heat currents add up to minus the power `∑ μ I`. -/
theorem c61_heat {s : In} {la : Lab} (h : VOk s.v la) {fct : Nat → Nat → ℝ × ℝ} {off symq : Bool} {st : St}
    (hst : genKern s fct off (fresh s.v symq) = .ok st) {LN φ : Vec} {cur : Currents}
    (hc : genCurrent s LN st.acc φ = .ok cur) {r : Nat}
    (hφ : ∀ i < s.v.npauli, i ≠ r → ∑ j ∈ range s.v.npauli, st.kern.val i j * φ.val j = 0) {Q : Nat → ℝ}
    (hQ : ∀ l < s.v.nleads, cur.heat l = some (Q l)) :
    ∑ l ∈ range s.v.nleads, Q l = -∑ l ∈ range s.v.nleads, s.L.mu l * cur.current l := by
  obtain ⟨w, hw, e⟩ := genCurrent_inv hc
  have hE : ∀ l < s.v.nleads, cur.energy l = some (Q l + s.L.mu l * cur.current l) := by
    intro l hl
    have := hQ l hl
    rw [e] at this ⊢
    simp only at this ⊢
    split at this
    · simp at this
    · rename_i hi
      simp only [Option.some.injEq] at this
      rw [if_neg hi, ← this]
      congr 1
      ring
  have := c61_energy h hst hc hφ hE
  rw [sum_add_distrib] at this
  linarith

/-- The calls only ever set the flag. -/
theorem run_im {v : View} {a a' : Acc} {ks : List Call} (h : run v a ks = .ok a') (hn : ∀ k ∈ ks, k ≠ .imGamma) :
    a'.im = a.im := by
  induction ks generalizing a with
  | nil =>
    have h : Except.ok a = (Except.ok a' : Py Acc) := h
    simp only [Except.ok.injEq] at h
    rw [h]
  | cons k ks ih =>
    unfold run at h
    rw [List.foldlM_cons] at h
    obtain ⟨a1, h1, h⟩ := bind_ok_inv h
    rw [ih h fun k hk => hn k (by simp [hk])]
    have hk := hn k (by simp)
    cases k with
    | imGamma => exact absurd rfl hk
    | dd =>
      simp only [call] at h1
      obtain ⟨_, _, h1⟩ := bind_ok_inv h1
      obtain ⟨_, _, h1⟩ := bind_ok_inv h1
      simp only [py_pure, Except.ok.injEq] at h1
      rw [← h1]
    | two =>
      simp only [call] at h1
      obtain ⟨_, _, h1⟩ := bind_ok_inv h1
      obtain ⟨_, _, h1⟩ := bind_ok_inv h1
      obtain ⟨_, _, h1⟩ := bind_ok_inv h1
      obtain ⟨_, _, h1⟩ := bind_ok_inv h1
      obtain ⟨_, _, h1⟩ := bind_ok_inv h1
      obtain ⟨_, _, h1⟩ := bind_ok_inv h1
      simp only [py_pure, Except.ok.injEq] at h1
      rw [← h1]
    | elem =>
      simp only [call] at h1
      obtain ⟨_, _, h1⟩ := bind_ok_inv h1
      obtain ⟨_, _, h1⟩ := bind_ok_inv h1
      obtain ⟨_, _, h1⟩ := bind_ok_inv h1
      simp only [py_pure, Except.ok.injEq] at h1
      rw [← h1]
    | lnn =>
      simp only [call] at h1
      obtain ⟨_, _, h1⟩ := bind_ok_inv h1
      obtain ⟨_, _, h1⟩ := bind_ok_inv h1
      simp only [py_pure, Except.ok.injEq] at h1
      rw [← h1]

theorem maxT_cutE (s : In) : 0 ≤ s.cutE := by
  unfold In.cutE
  have := sq_nonneg s.maxT
  positivity

/-- **C61**, the energy and heat currents are numbers if the products of the amplitudes of two leads are real. -/
theorem c61_defined {s : In} {la : Lab} (h : VOk s.v la) {fct : Nat → Nat → ℝ × ℝ} {off symq : Bool} {st : St}
    (hst : genKern s fct off (fresh s.v symq) = .ok st) {LN φ : Vec} {cur : Currents}
    (hc : genCurrent s LN st.acc φ = .ok cur) (hg : ∀ a b l lp, (s.gamma a b l lp).im = 0) :
    ∃ e Q : Nat → ℝ, ∀ l, cur.energy l = some (e l) ∧ cur.heat l = some (Q l) := by
  obtain ⟨S⟩ := genKern_steps hst
  obtain ⟨w, hw, rfl⟩ := genCurrent_inv hc
  have hz := maxT_cutE s
  have im : st.acc.im = false := by
    have i2 : S.a2.im = S.a1.im := by
      refine run_im S.r2 fun k hk => ?_
      rcases S.cases with ⟨_, e, _⟩ | ⟨_, e, _⟩
      · rw [e] at hk; simp at hk
      · obtain ⟨key, e⟩ := calls2_inv h e
        rw [e] at hk
        obtain ⟨q, _, hk⟩ := List.mem_flatMap.1 hk
        obtain ⟨b, hb, hk⟩ := List.mem_flatMap.1 hk
        obtain ⟨bp, hbp, hk⟩ := List.mem_flatMap.1 hk
        split at hk
        · simp at hk
        · rename_i hne
          rcases List.mem_append.1 hk with hk | hk
          · obtain ⟨x, l, a2, q2, mi, rfl, _⟩ := colDn_calls (key q b bp hb hbp hne) k hk
            simp
          · simp only [rowL, List.mem_singleton] at hk
            subst hk; simp
    have i1 : S.a1.im = (fresh s.v symq).acc.im := by
      refine run_im S.r1 fun k hk => ?_
      obtain ⟨key, e⟩ := calls1_inv h S.h1
      rw [e] at hk
      obtain ⟨q, _, hk⟩ := List.mem_flatMap.1 hk
      obtain ⟨b, hb, hk⟩ := List.mem_flatMap.1 hk
      simp only [one, List.mem_append] at hk
      rcases hk with (((hk | hk) | hk) | hk) | hk
      · simp only [group1, List.mem_append, List.mem_flatMap, List.mem_singleton] at hk
        rcases hk with ⟨_, _, _, _, rfl⟩ | ⟨_, _, _, _, rfl⟩ <;> simp
      · obtain ⟨r, f, i0, i1, a1, a3, q3, a4, q4, rfl, _⟩ := col2_calls (view_mem h hb) (key q b hb).1 k hk
        simp
      · have e1 : ∀ a b bb aa l, ∀ k ∈ energy1 s a b bb aa l, k ≠ .imGamma := by
          intro a b bb aa l k hk
          simp only [energy1, List.mem_append, List.mem_singleton] at hk
          rcases hk with hk | rfl
          · rw [if_neg] at hk
            · simp at hk
            · rw [Complex.im_sum, sum_eq_zero (fun lp _ => by split <;> simp [hg])]
              simpa using hz
          · simp
        rcases List.mem_append.1 hk with hk | hk <;>
        · obtain ⟨a, _, hk⟩ := List.mem_flatMap.1 hk
          obtain ⟨l, _, hk⟩ := List.mem_flatMap.1 hk
          exact e1 _ _ _ _ _ k hk
      · have e1 : ∀ a b bb aa l, ∀ k ∈ energy2 s a b bb aa l, k ≠ .imGamma := by
          intro a b bb aa l k hk
          simp only [energy2, List.mem_append, List.mem_singleton, List.mem_flatMap] at hk
          rcases hk with ⟨_, _, hk⟩ | rfl
          · rw [if_neg] at hk
            · simp at hk
            · rw [hg]; simpa using fun _ => hz
          · simp
        rcases List.mem_append.1 hk with hk | hk <;>
        · obtain ⟨a, _, hk⟩ := List.mem_flatMap.1 hk
          obtain ⟨l, _, hk⟩ := List.mem_flatMap.1 hk
          exact e1 _ _ _ _ _ k hk
      · intro e
        rcases nd_name (key q b hb).2 k hk with e' | e' <;> rw [e] at e' <;> simp [Call.name] at e'
    rw [S.im, i2, i1]
    rfl
  exact ⟨fun l => (w l).2, fun l => (w l).2 - (w l).1 * s.L.mu l, fun l => by simp [im]⟩

/-! ### C62: a lead that is not coupled -/

theorem two_at {s : In} {la : Lab} (h : VOk s.v la) {a0 q : Nat} (ha : a0 ∈ s.v.row q) {k : Call} (hk : TwoOk s a0 q k)
    (l i j : Nat) (hz : atOf s.v (shapes s.v) .Wdd l i j k ≠ 0) :
    (∃ x y, s.L.Tba l x y ≠ 0) ∧ ¬ s.lib.Zero ∧ ∃ c a c' a', a ∈ s.v.row c ∧ a' ∈ s.v.row c' ∧ i = la.lab c a a ∧
      j = la.lab c' a' a' ∧ c' ≤ c + 2 ∧ c ≤ c' + 2 := by
  obtain ⟨r, f, a1, a3, c3, a4, c4, rfl, hr, hT, ha1, ha3, ha4, b1, b2, b3, b4, hf⟩ := TwoOk.nat h ha hk
  have e := evs_two h (sh := shapes s.v) rfl hr f (h.lab_diag _ _ ha) (h.lab_diag _ _ ha1) ha3 ha4
  unfold atOf evsD at hz
  rw [e] at hz
  simp only [List.map_cons, List.map_nil, List.sum_cons, List.sum_nil, Ev.at, true_and, add_zero] at hz
  have hfz : f ≠ 0 := by
    rintro rfl
    simp at hz
  have hr' : r = l := by
    by_contra hne
    simp [hne] at hz
  subst hr'
  refine ⟨hT, fun hh => hfz (hf hh), ?_⟩
  simp only [true_and] at hz
  by_cases h4 : la.lab c4 a4 a4 = i ∧ la.lab q a0 a0 = j
  · exact ⟨c4, a4, q, a0, ha4, ha, h4.1.symm, h4.2.symm, by omega, by omega⟩
  by_cases h3 : la.lab c3 a3 a3 = i ∧ la.lab q a0 a0 = j
  · exact ⟨c3, a3, q, a0, ha3, ha, h3.1.symm, h3.2.symm, by omega, by omega⟩
  by_cases h4' : la.lab c4 a4 a4 = i ∧ la.lab (q + 1) a1 a1 = j
  · exact ⟨c4, a4, q + 1, a1, ha4, ha1, h4'.1.symm, h4'.2.symm, by omega, by omega⟩
  by_cases h3' : la.lab c3 a3 a3 = i ∧ la.lab (q + 1) a1 a1 = j
  · exact ⟨c3, a3, q + 1, a1, ha3, ha1, h3'.1.symm, h3'.2.symm, by omega, by omega⟩
  simp [h4, h3, h4', h3'] at hz

/-- The second-order contribution to an entry. -/
def w2 (s : In) (l i j : Nat) : ℝ :=
  ∑ q ∈ range s.v.ncharge, ∑ b ∈ s.v.R q, ((valD (col2 s b q)).map (atOf s.v (shapes s.v) .Wdd l i j)).sum

theorem w2_zero {s : In} {la : Lab} (h : VOk s.v la) {fct : Nat → Nat → ℝ × ℝ} {off : Bool} {ks : List Call}
    (hk : calls1 s fct off = .ok ks) {l i j : Nat}
    (hz : ∀ q b, b ∈ s.v.row q → ∀ k, TwoOk s b q k → atOf s.v (shapes s.v) .Wdd l i j k = 0) : w2 s l i j = 0 := by
  refine sum_eq_zero fun q _ => sum_eq_zero fun b hb => sum_zero fun k hk' => ?_
  have hb := (mem_R h).1 hb
  exact hz q b hb k (col2_calls (view_mem h hb) ((calls1_inv h hk).1 q b hb).1 k hk')

theorem corr_zero {m : Mats} {l i j : Nat} {x : Mat} (h : corr m l = .ok x)
    (h1 : ∀ k, (m.ten .ReWdn).val l i k = 0) (h2 : ∀ k, (m.ten .ImWdn).val l i k = 0) : x.val i j = 0 := by
  obtain ⟨x1, x2, y1, y2, e1, e2, e3, e4, rfl⟩ := corr_inv h
  simp only [addMat, (mul_inv e2).2, (mul_inv e4).2, (mul_inv e1).2, (mul_inv e3).2, Ten.lead, h1, h2]
  simp

theorem wdn_zero {s : In} {la : Lab} (h : VOk s.v la) {fct : Nat → Nat → ℝ × ℝ} {off symq : Bool} {st : St}
    (S : Steps s fct off symq st) {n : Name} (hn : n = .ReWdn ∨ n = .ImWdn) {l i k : Nat}
    (hz : ∀ q a b, a ∈ s.v.row q → b ∈ s.v.row q → a ≠ b → ∀ x l' a2 q2, l' < s.v.nleads → View.mem s.v a2 q2 →
      (q : Int) - 1 ≤ q2 → q2 ≤ q + 1 → ((∀ a b, s.L.Tba l' a b = 0) → x = 0) →
      atOf s.v (shapes s.v) n l i k (.elem x l' a2 a2 q2 a b q n) = 0) :
    (S.a2.mats.ten n).val l i k = 0 := by
  have sh1 : S.a1.mats.sh = shapes s.v := (run_made S.r1).sh.trans (fresh_sh _ _)
  rw [run_val S.r2, run_val S.r1, fresh_val, sh1, sum_zero, sum_zero]
  · simp
  · intro c hc
    rcases S.cases with ⟨_, e, _⟩ | ⟨_, e, _⟩
    · rw [e] at hc; simp at hc
    · obtain ⟨key, e⟩ := calls2_inv h e
      rw [e] at hc
      obtain ⟨q, _, hc⟩ := List.mem_flatMap.1 hc
      obtain ⟨b, hb, hc⟩ := List.mem_flatMap.1 hc
      obtain ⟨bp, hbp, hc⟩ := List.mem_flatMap.1 hc
      split at hc
      · simp at hc
      · rename_i hne
        rcases List.mem_append.1 hc with hc | hc
        · obtain ⟨x, l', a2, q2, mi, rfl, hmi, hl, hm, b1, b2, hx⟩ := colDn_calls (key q b bp hb hbp hne) c hc
          by_cases e : mi = n
          · subst e
            exact hz q b bp hb hbp hne x l' a2 q2 hl hm b1 b2 hx
          · exact atOf_name (by simp [Call.name, e])
        · simp only [rowL, List.mem_singleton] at hc
          subst hc
          exact atOf_name (by simp [Call.name])
  · intro c hc
    apply atOf_name
    rcases hn with rfl | rfl
    · exact (calls1_name h S.h1 c hc).1
    · exact (calls1_name h S.h1 c hc).2

/-- The entry an element is added to. -/
theorem elem_at {v : View} {sh : Shape} {n m : Name} {x : ℝ} {l i j l' b bp a ap : Nat} {q q' : Int}
    (hz : atOf v sh n l i j (.elem x l' b bp q a ap q' m) ≠ 0) : x ≠ 0 ∧ l' = l ∧ m = n ∧
      ∃ i' j', offPos v b bp q = .ok i' ∧ offPos v a ap q' = .ok j' ∧ pyIdx (sh n).2.1 i' = .ok i ∧
        pyIdx (sh n).2.2 j' = .ok j := by
  unfold atOf evsD at hz
  rcases h : evs v sh (.elem x l' b bp q a ap q' m) with e | es
  · rw [h] at hz; simp at hz
  · rw [h] at hz
    simp only [evs] at h
    obtain ⟨i', hi, h⟩ := bind_ok_inv h
    obtain ⟨j', hj, h⟩ := bind_ok_inv h
    obtain ⟨ev, he, h⟩ := bind_ok_inv h
    simp only [py_pure, Except.ok.injEq] at h
    subst h
    obtain ⟨e1, e2, _, e3, e4, e5⟩ := resolve_inv he
    simp only [List.map_cons, List.map_nil, List.sum_cons, List.sum_nil, Ev.at, add_zero] at hz
    split at hz
    · rename_i hh
      obtain ⟨c1, c2, c3, c4⟩ := hh
      rw [e1] at c1
      subst c1
      exact ⟨e5 ▸ hz, e2.symm.trans c2, rfl, i', j', hi, hj, c3 ▸ e3, c4 ▸ e4⟩
    · exact absurd rfl hz

/-- **C62**, the kernel: a lead without tunnelling amplitudes contributes nothing, to any order. -/
theorem c62_kernel {s : In} {la : Lab} (h : VOk s.v la) {fct : Nat → Nat → ℝ × ℝ}
    (hf : Pauli.genFct s.v s.E s.L = .ok fct) {off symq : Bool} {st : St}
    (hst : genKern s fct off (fresh s.v symq) = .ok st) {l : Nat} (hl : l < s.v.nleads)
    (hT : ∀ a b, s.L.Tba l a b = 0) (i j : Nat) : (st.acc.mats.ten .Wdd).val l i j = 0 ∧
      (st.acc.mats.ten .WE1).val l i j = 0 ∧ (st.acc.mats.ten .WE2).val l i j = 0 := by
  obtain ⟨S⟩ := genKern_steps hst
  have g : ∀ a b lp, s.gamma a b l lp = 0 := fun a b lp => by simp [In.gamma, hT]
  have t1 : ∀ a b, s.t1 a b l = 0 := fun a b => by simp [In.t1, g]
  have t2 : ∀ a b, s.t2 a b l = 0 := fun a b => by simp [In.t2, g]
  refine ⟨?_, ?_, ?_⟩
  · have a1 : wD s.v la fct l i j = 0 := by
      obtain ⟨f', hf', amp⟩ := Pauli.genFct_ok h s.E s.L
      have e : f' = fct := by rw [hf] at hf'; simpa using hf'.symm
      subst e
      have z : ∀ q x b, x ∈ s.v.row (q + 1) → b ∈ s.v.row q → f' l (la.ix1 q x b) = (0, 0) := by
        intro q x b hx hb
        rw [amp q x b l ((mem_R h).2 hx) ((mem_R h).2 hb) hl]
        simp [Pauli.amp, hT]
      unfold wD
      refine sum_eq_zero fun q _ => sum_eq_zero fun b hb => ?_
      have hb := (mem_R h).1 hb
      rw [sum_eq_zero, sum_eq_zero, add_zero]
      · intro x hx
        rw [z q x b ((mem_R h).1 hx) hb]
        simp [ddAt]
      · intro a ha
        obtain ⟨h0, ha', _⟩ := h.low_mem (by simpa [View.Lo] using ha)
        rw [z (q - 1) b a (by rwa [Nat.sub_add_cancel h0]) ha']
        simp [ddAt]
    have a2 : w2 s l i j = 0 := by
      refine w2_zero h S.h1 fun q b hb k hk => ?_
      by_contra hne
      obtain ⟨⟨x, y, hxy⟩, _⟩ := two_at h hb hk l i j hne
      exact hxy (hT x y)
    have a3 : (S.w l).val i j = 0 := by
      rcases S.cases with ⟨_, _, hw⟩ | ⟨_, h2, hw⟩
      · exact hw _ _ _
      · have z : ∀ n, n = .ReWdn ∨ n = .ImWdn → ∀ k, (S.a2.mats.ten n).val l i k = 0 := by
          intro n hn k
          refine wdn_zero h S hn fun q a b _ _ _ x l' a2 q2 _ _ _ _ hx => ?_
          by_contra hne
          obtain ⟨x0, rfl, _⟩ := elem_at hne
          exact x0 (hx hT)
        exact corr_zero (hw l hl) (z _ (Or.inl rfl)) (z _ (Or.inr rfl))
    rw [S.wdd_eq h hl, a1, a3, zero_add, add_zero]
    exact a2
  · rw [(S.we h hl i j).1]
    simp [wE, t1, ddAt]
  · rw [(S.we h hl i j).2]
    simp [wE, t2, ddAt]

/-- **C62**, the currents of a lead without tunnelling amplitudes vanish, for every density matrix. -/
theorem c62_current {s : In} {la : Lab} (h : VOk s.v la) {fct : Nat → Nat → ℝ × ℝ}
    (hf : Pauli.genFct s.v s.E s.L = .ok fct) {off symq : Bool} {st : St}
    (hst : genKern s fct off (fresh s.v symq) = .ok st) {LN φ : Vec} {cur : Currents}
    (hc : genCurrent s LN st.acc φ = .ok cur) {l : Nat} (hl : l < s.v.nleads)
    (hT : ∀ a b, s.L.Tba l a b = 0) :
    cur.current l = 0 ∧ (∀ e, cur.energy l = some e → e = 0) ∧ ∀ e, cur.heat l = some e → e = 0 := by
  obtain ⟨S⟩ := genKern_steps hst
  obtain ⟨w, hw, rfl⟩ := genCurrent_inv hc
  obtain ⟨_, _, _, w1, w2⟩ := leadCurrent_inv S.sh (hw l hl)
  have z := c62_kernel h hf hst hl hT
  have w1 : (w l).1 = 0 := by
    rw [w1]; simp [(z _ _).1]
  have w2 : (w l).2 = 0 := by
    rw [w2]; simp [(z _ _).1, (z _ _).2.1, (z _ _).2.2]
  refine ⟨w1, ?_, ?_⟩
  · intro e he
    simp only at he
    split at he
    · simp at he
    · simpa [w2] using he.symm
  · intro e he
    simp only at he
    split at he
    · simp at he
    · simpa [w1, w2] using he.symm

/-! ### C63: charges differing by more than two -/

/-- The positions of coherences of different charge differ. -/
theorem offPos_charge {v : View} {la : Lab} (h : VOk v la) (hall : AllCoherences v la) {c a b c' a' b' : Nat}
    (ha : a ∈ v.row c) (hb : b ∈ v.row c) (hne : a ≠ b) (ha' : a' ∈ v.row c') (hb' : b' ∈ v.row c') (hne' : a' ≠ b')
    {i : Int} (e : offPos v a b c = .ok i) (e' : offPos v a' b' c' = .ok i) : c = c' := by
  obtain ⟨l1, l2⟩ := h.lab_off c a b ha hb hne (hall c a b ha hb)
  obtain ⟨l1', l2'⟩ := h.lab_off c' a' b' ha' hb' hne' (hall c' a' b' ha' hb')
  unfold offPos at e e'
  rw [h.ind0 c a b ha hb, hall c a b ha hb] at e
  rw [h.ind0 c' a' b' ha' hb', hall c' a' b' ha' hb'] at e'
  simp only [py_bind_ok, if_true, py_pure, Except.ok.injEq] at e e'
  rw [if_pos hne] at e
  rw [if_pos hne'] at e'
  refine (h.lab_inj c a b c' a' b' ha hb (hall c a b ha hb) ha' hb' (hall c' a' b' ha' hb') ?_).1
  split at e <;> split at e' <;> omega

/-- A square matrix without entries off the diagonal. -/
def DiagMat (m : Mat) : Prop := m.rows = m.cols ∧ ∀ i j, i ≠ j → m.val i j = 0

/-- `Lnn` is diagonal. -/
theorem run_diag {v : View} {a a' : Acc} {ks : List Call} (h : run v a ks = .ok a')
    (hd : DiagMat a.mats.Lnn) : DiagMat a'.mats.Lnn := by
  induction ks generalizing a with
  | nil =>
    have h : Except.ok a = (Except.ok a' : Py Acc) := h
    simp only [Except.ok.injEq] at h
    rw [← h]; exact hd
  | cons k ks ih =>
    unfold run at h
    rw [List.foldlM_cons] at h
    obtain ⟨a1, h1, h⟩ := bind_ok_inv h
    refine ih h ?_
    have add : ∀ {m m' : Mats} {n l i j x}, m.add n l i j x = .ok m' → m'.Lnn = m.Lnn := by
      intro m m' n l i j x e
      unfold Mats.add at e
      obtain ⟨_, _, e⟩ := bind_ok_inv e
      simp only [py_pure, Except.ok.injEq] at e
      rw [← e]
    cases k with
    | imGamma =>
      simp only [call, py_pure, Except.ok.injEq] at h1
      rw [← h1]; exact hd
    | dd =>
      simp only [call] at h1
      obtain ⟨_, e1, h1⟩ := bind_ok_inv h1
      obtain ⟨_, e2, h1⟩ := bind_ok_inv h1
      simp only [py_pure, Except.ok.injEq] at h1
      rw [← h1]
      simp only [add e2, add e1]
      exact hd
    | two =>
      simp only [call] at h1
      obtain ⟨_, _, h1⟩ := bind_ok_inv h1
      obtain ⟨_, _, h1⟩ := bind_ok_inv h1
      obtain ⟨_, e1, h1⟩ := bind_ok_inv h1
      obtain ⟨_, e2, h1⟩ := bind_ok_inv h1
      obtain ⟨_, e3, h1⟩ := bind_ok_inv h1
      obtain ⟨_, e4, h1⟩ := bind_ok_inv h1
      simp only [py_pure, Except.ok.injEq] at h1
      rw [← h1]
      simp only [add e4, add e3, add e2, add e1]
      exact hd
    | elem =>
      simp only [call] at h1
      obtain ⟨_, _, h1⟩ := bind_ok_inv h1
      obtain ⟨_, _, h1⟩ := bind_ok_inv h1
      obtain ⟨_, e1, h1⟩ := bind_ok_inv h1
      simp only [py_pure, Except.ok.injEq] at h1
      rw [← h1]
      simp only [add e1]
      exact hd
    | lnn =>
      simp only [call] at h1
      obtain ⟨_, _, h1⟩ := bind_ok_inv h1
      obtain ⟨_, e1, h1⟩ := bind_ok_inv h1
      simp only [py_pure, Except.ok.injEq] at h1
      unfold Mat.add at e1
      obtain ⟨r, hr, e1⟩ := bind_ok_inv e1
      obtain ⟨c, hc, e1⟩ := bind_ok_inv e1
      simp only [py_pure, Except.ok.injEq] at e1
      rw [← h1, ← e1]
      refine ⟨hd.1, fun i j hij => ?_⟩
      rw [hd.1] at hr
      have e := hr.symm.trans hc
      simp only [Except.ok.injEq] at e
      subst e
      simp only
      rw [if_neg (by rintro ⟨rfl, rfl⟩; exact hij rfl)]
      exact hd.2 i j hij

/-- A product of matrices with a diagonal one in the middle. -/
theorem mul_diag {a b c x y : Mat} (h1 : a.mul b = .ok x) (h2 : x.mul c = .ok y) (hd : DiagMat b) {i j : Nat}
    (hz : ∀ k, a.val i k = 0 ∨ c.val k j = 0) : y.val i j = 0 := by
  rw [(mul_inv h2).2]
  refine sum_eq_zero fun k _ => ?_
  rcases hz k with e | e
  · rw [(mul_inv h1).2, sum_eq_zero, zero_mul]
    intro m _
    by_cases hm : m = k
    · subst hm; rw [e, zero_mul]
    · rw [hd.2 m k hm, mul_zero]
  · rw [e, mul_zero]

/-- What is known if an entry of `Wnd` is not zero. -/
theorem wnd_inv {s : In} {la : Lab} (h : VOk s.v la) {fct : Nat → Nat → ℝ × ℝ} {off symq : Bool} {st : St}
    (S : Steps s fct off symq st) {n : Name} (hn : n = .ReWnd ∨ n = .ImWnd) {l k j : Nat}
    (hz : (S.a2.mats.ten n).val l k j ≠ 0) :
    ∃ q a x a2 b2 q2, a ∈ s.v.row q ∧ a2 ≠ b2 ∧ (∃ r, s.v.states q2 = .ok r ∧ a2 ∈ r ∧ b2 ∈ r) ∧
      (q : Int) - 1 ≤ q2 ∧ q2 ≤ q + 1 ∧ atOf s.v (shapes s.v) n l k j (.elem x l a2 b2 q2 a a q n) ≠ 0 := by
  rw [S.second h (by rcases hn with rfl | rfl <;> simp) (by rcases hn with rfl | rfl <;> simp), run_val S.r1, fresh_val,
    zero_add, fresh_sh] at hz
  by_contra hcon
  apply hz
  apply sum_zero
  intro c hc
  by_contra hne
  obtain ⟨key, e⟩ := calls1_inv h S.h1
  have nm : c.name = some n := by
    by_contra hh
    exact hne (atOf_name hh)
  rw [e] at hc
  obtain ⟨q, _, hc⟩ := List.mem_flatMap.1 hc
  obtain ⟨b, hb, hc⟩ := List.mem_flatMap.1 hc
  simp only [one, List.mem_append] at hc
  rcases hc with (((hc | hc) | hc) | hc) | hc
  · simp only [group1, List.mem_append, List.mem_flatMap, List.mem_singleton] at hc
    rcases hc with ⟨_, _, _, _, rfl⟩ | ⟨_, _, _, _, rfl⟩ <;> rcases hn with rfl | rfl <;> simp [Call.name] at nm
  · rw [(col2_calls (view_mem h hb) (key q b hb).1 c hc).name] at nm
    rcases hn with rfl | rfl <;> simp at nm
  · rcases groupE_name (n := .WE1) (fun _ _ _ _ _ => energy1_name) q b c hc with e | e <;> rw [e] at nm <;>
      rcases hn with rfl | rfl <;> simp at nm
  · rcases groupE_name (n := .WE2) (fun _ _ _ _ _ => energy2_name) q b c hc with e | e <;> rw [e] at nm <;>
      rcases hn with rfl | rfl <;> simp at nm
  · have h5 := (key q b hb).2
    rcases off with _ | _
    · simp [nd, valD] at hc
    · unfold nd at h5 hc
      simp only [if_true] at h5 hc
      obtain ⟨x, l', a2, b2, q2, mi, rfl, hmi, hl, h2, hm, b1, b3⟩ := colNd_calls h5 c hc
      obtain ⟨_, rfl, rfl, _⟩ := elem_at hne
      exact hcon ⟨q, b, x, a2, b2, q2, hb, h2, hm, b1, b3, hne⟩

/-- **C63**. The kernel connects only states whose charges differ by at most two. -/
theorem c63_range {s : In} {la : Lab} (h : VOk s.v la) {fct : Nat → Nat → ℝ × ℝ} {off symq : Bool}
    (hall : off = true → AllCoherences s.v la) {st : St} (hst : genKern s fct off (fresh s.v symq) = .ok st)
    {c b c' b' : Nat} (hb : b ∈ s.v.row c) (hb' : b' ∈ s.v.row c') (hcc : c + 2 < c' ∨ c' + 2 < c) :
    st.kern.val (la.lab c b b) (la.lab c' b' b') = 0 ∧
      ∀ l < s.v.nleads, (st.acc.mats.ten .Wdd).val l (la.lab c b b) (la.lab c' b' b') = 0 := by
  obtain ⟨S⟩ := genKern_steps hst
  have sh1 : S.a1.mats.sh = shapes s.v := (run_made S.r1).sh.trans (fresh_sh _ _)
  have inj : ∀ {q x q' x'}, x ∈ s.v.row q → x' ∈ s.v.row q' → la.lab q x x = la.lab q' x' x' → q = q' := by
    intro q x q' x' hx hx' e
    exact (h.lab_inj q x x q' x' x' hx hx (h.inc_diag _ _ hx) hx' hx' (h.inc_diag _ _ hx') e).1
  have key : ∀ l < s.v.nleads, (st.acc.mats.ten .Wdd).val l (la.lab c b b) (la.lab c' b' b') = 0 := by
    intro l hl
    have a1 : wD s.v la fct l (la.lab c b b) (la.lab c' b' b') = 0 := by
      have z : ∀ q x q' x' u w, x ∈ s.v.row q → x' ∈ s.v.row q' → (q ≤ q' + 1 ∧ q' ≤ q + 1) →
          ddAt (la.lab c b b) (la.lab c' b' b') (la.lab q x x) (la.lab q' x' x') u w = 0 := by
        intro q x q' x' u w hx hx' hq
        unfold ddAt
        rw [if_neg, if_neg, add_zero]
        · rintro ⟨e1, e2⟩
          have := inj hx hb e1
          have := inj hx' hb' e2
          omega
        · rintro ⟨e1, e2⟩
          have := inj hx hb e1
          have := inj hx hb' e2
          omega
      unfold wD
      refine sum_eq_zero fun q _ => sum_eq_zero fun x hx => ?_
      have hx := (mem_R h).1 hx
      rw [sum_eq_zero, sum_eq_zero, add_zero]
      · exact fun y hy => z _ _ _ _ _ _ hx ((mem_R h).1 hy) (by omega)
      · intro y hy
        obtain ⟨h0, hy', _⟩ := h.low_mem (by simpa [View.Lo] using hy)
        exact z _ _ _ _ _ _ hx hy' (by omega)
    have a2 : w2 s l (la.lab c b b) (la.lab c' b' b') = 0 := by
      refine w2_zero h S.h1 fun q x hx k hk => ?_
      by_contra hne
      obtain ⟨_, _, d, y, d', y', hy, hy', e, e', _, _⟩ := two_at h hx hk l _ _ hne
      have := inj hb hy e
      have := inj hb' hy' e'
      omega
    have a3 : (S.w l).val (la.lab c b b) (la.lab c' b' b') = 0 := by
      rcases S.cases with ⟨_, _, hw⟩ | ⟨hoff, h2, hw⟩
      · exact hw _ _ _
      · have hall := hall hoff
        have hd : DiagMat S.a2.mats.Lnn := run_diag S.r2 (run_diag S.r1 ⟨rfl, fun _ _ _ => rfl⟩)
        have each : ∀ n n', (n = .ReWdn ∨ n = .ImWdn) → (n' = .ReWnd ∨ n' = .ImWnd) → ∀ l' k,
            (S.a2.mats.ten n).val l (la.lab c b b) k = 0 ∨ (S.a2.mats.ten n').val l' k (la.lab c' b' b') = 0 := by
          intro n n' hn hn' l' k
          by_contra hcon
          push Not at hcon
          obtain ⟨z1, z2⟩ := hcon
          obtain ⟨q', a, x, a2, b2, q2, ha, hne, ⟨r, hr, m1, m2⟩, u1, u2, hz⟩ := wnd_inv h S hn' z2
          have hq' := h.row_lt ha
          obtain ⟨q2, rfl, ha2⟩ := mem_inv h ⟨r, hr, m1⟩ (by omega) (by omega)
          obtain ⟨_, e, hb2⟩ := mem_inv h ⟨r, hr, m2⟩ (by omega) (by omega)
          have e := Int.ofNat.inj e
          subst e
          obtain ⟨_, _, _, i', j', o1, o2, p1, p2⟩ := elem_at hz
          apply z1
          refine wdn_zero h S hn fun q a1 b1 ha1 hb1 hne1 x' l'' a3 q3 _ hm3 v1 v2 _ => ?_
          by_contra hnz
          have hq := h.row_lt ha1
          obtain ⟨q3, rfl, ha3⟩ := mem_inv h hm3 (by omega) (by omega)
          obtain ⟨_, _, _, i'', j'', o1', o2', p1', p2'⟩ := elem_at hnz
          -- the two charges of the coherence agree
          obtain ⟨p, hp, op⟩ := offPos_ok h hall ha2 hb2 hne
          obtain ⟨p', hp', op'⟩ := offPos_ok h hall ha1 hb1 hne1
          have e1 : i' = p := by rw [op] at o1; simpa using o1.symm
          have e2 : j'' = p' := by rw [op'] at o2'; simpa using o2'.symm
          have s1 : (shapes s.v n').2.1 = 2 * s.v.ndm0 - 2 * s.v.npauli := by rcases hn' with rfl | rfl <;> rfl
          have s2 : (shapes s.v n).2.2 = 2 * s.v.ndm0 - 2 * s.v.npauli := by rcases hn with rfl | rfl <;> rfl
          have s3 : (shapes s.v n').2.2 = s.v.npauli := by rcases hn' with rfl | rfl <;> rfl
          have s4 : (shapes s.v n).2.1 = s.v.npauli := by rcases hn with rfl | rfl <;> rfl
          rw [e1, s1, pyIdx_nat hp] at p1
          rw [e2, s2, pyIdx_nat hp'] at p2'
          simp only [Except.ok.injEq] at p1 p2'
          have ee : p = p' := p1.trans p2'.symm
          subst ee
          have hc := offPos_charge h hall ha2 hb2 hne ha1 hb1 hne1 op op'
          -- the populations
          have l1 := h.lab_diag _ _ ha
          have l2 := h.lab_diag _ _ ha3
          rw [offPos_diag h ha] at o2
          rw [offPos_diag h ha3] at o1'
          simp only [Except.ok.injEq] at o2 o1'
          rw [← o2, s3, pyIdx_nat l1] at p2
          rw [← o1', s4, pyIdx_nat l2] at p1'
          simp only [Except.ok.injEq] at p2 p1'
          have d1 := inj ha hb' p2
          have d2 := inj ha3 hb p1'
          omega
        obtain ⟨x1, x2, y1, y2, e1, e2, e3, e4, e⟩ := corr_inv (hw l hl)
        rw [e]
        simp only [addMat]
        rw [mul_diag e1 e2 hd, mul_diag e3 e4 hd, add_zero]
        · intro k
          by_cases hk : (S.a2.mats.ten .ImWdn).val l (la.lab c b b) k = 0
          · exact Or.inl hk
          · right
            simp only [Ten.sumLeads]
            exact sum_eq_zero fun l' _ => (each _ _ (Or.inr rfl) (Or.inl rfl) l' k).resolve_left hk
        · intro k
          by_cases hk : (S.a2.mats.ten .ReWdn).val l (la.lab c b b) k = 0
          · exact Or.inl hk
          · right
            simp only [Ten.sumLeads]
            exact sum_eq_zero fun l' _ => (each _ _ (Or.inl rfl) (Or.inr rfl) l' k).resolve_left hk
    rw [S.wdd_eq h hl, a1, a3, zero_add, add_zero]
    exact a2
  refine ⟨?_, key⟩
  rw [S.kern_eq h (h.lab_diag _ _ hb) (h.lab_diag _ _ hb')]
  exact sum_eq_zero fun l hl => key l (mem_range.1 hl)

/-! ### C64: first order -/

/-- The rows of the first-order kernel. -/
theorem wD_row {v : View} {la : Lab} (h : VOk v la) (fct : Nat → Nat → ℝ × ℝ) (l : Nat) {c b : Nat} (hb : b ∈ v.row c)
    (φ : Nat → ℝ) : ∑ j ∈ range v.npauli, wD v la fct l (la.lab c b b) j * φ j =
      ∑ a ∈ v.Lo c, ((fct l (la.ix1 (c - 1) b a)).1 * φ (la.lab (c - 1) a a)
          - (fct l (la.ix1 (c - 1) b a)).2 * φ (la.lab c b b)) +
        ∑ x ∈ v.R (c + 1), ((fct l (la.ix1 c x b)).2 * φ (la.lab (c + 1) x x)
          - (fct l (la.ix1 c x b)).1 * φ (la.lab c b b)) := by
  have lb := h.lab_diag c b hb
  have other : ∀ q x, x ∈ v.row q → (q ≠ c ∨ x ≠ b) → la.lab q x x ≠ la.lab c b b := by
    intro q x hx hne e
    obtain ⟨e1, e2⟩ := h.lab_inj q x x c b b hx hx (h.inc_diag _ _ hx) hb hb (h.inc_diag _ _ hb) e
    rcases hne with hne | hne
    · exact hne e1
    · rcases e2 with e2 | e2 <;> exact hne e2.1
  have one : ∀ j, wD v la fct l (la.lab c b b) j =
      ∑ a ∈ v.Lo c, ddAt (la.lab c b b) j (la.lab c b b) (la.lab (c - 1) a a)
        (-(fct l (la.ix1 (c - 1) b a)).2) (fct l (la.ix1 (c - 1) b a)).1 +
      ∑ x ∈ v.R (c + 1), ddAt (la.lab c b b) j (la.lab c b b) (la.lab (c + 1) x x)
        (-(fct l (la.ix1 c x b)).1) (fct l (la.ix1 c x b)).2 := by
    intro j
    unfold wD
    rw [sum_eq_single_of_mem c (mem_range.2 (h.row_lt hb)), sum_eq_single_of_mem b ((mem_R h).2 hb)]
    · intro x hx hne
      have := other c x ((mem_R h).1 hx) (Or.inr hne)
      simp [ddAt, this]
    · intro q _ hne
      refine sum_eq_zero fun x hx => ?_
      have := other q x ((mem_R h).1 hx) (Or.inl hne)
      simp [ddAt, this]
  have term : ∀ aa x y, aa < v.npauli → ∑ j ∈ range v.npauli, ddAt (la.lab c b b) j (la.lab c b b) aa x y * φ j =
      x * φ (la.lab c b b) + y * φ aa := by
    intro aa x y haa
    simp only [ddAt, true_and, add_mul, sum_add_distrib, ite_mul, zero_mul]
    rw [sum_ite_eq, sum_ite_eq, if_pos (mem_range.2 lb), if_pos (mem_range.2 haa)]
  simp only [one, add_mul, sum_add_distrib, sum_mul]
  rw [sum_comm, sum_comm (s := range v.npauli)]
  congr 1
  · refine sum_congr rfl fun a ha => ?_
    rw [term _ _ _ (h.lab_diag _ _ (h.low_mem (by simpa [View.Lo] using ha)).2.1)]
    ring
  · refine sum_congr rfl fun x hx => ?_
    rw [term _ _ _ (h.lab_diag _ _ ((mem_R h).1 hx))]
    ring

/-- **C64**. If the second-order integrals vanish and no corrections are made, the kernel is that of the Pauli
master equation with the same rates. -/
theorem c64_pauli {s : In} {la : Lab} (h : VOk s.v la) (hz : s.lib.Zero) {fct : Nat → Nat → ℝ × ℝ} {symq : Bool}
    {st : St} (hst : genKern s fct false (fresh s.v symq) = .ok st) :
    ∃ m, Pauli.kernel s.v symq fct = .ok m ∧ m.rows = st.kern.rows ∧ m.cols = st.kern.cols ∧
      ∀ i < s.v.npauli, ∀ j < s.v.npauli, st.kern.val i j = m.val i j := by
  obtain ⟨S⟩ := genKern_steps hst
  obtain ⟨m, hm, hc, hr, rows⟩ := Pauli.kernel_rows h fct symq
  refine ⟨m, hm, hr.trans S.kern.1.symm, hc.trans S.kern.2.1.symm, fun i hi j hj => ?_⟩
  obtain ⟨c, b, bp, hb, hbp, hinc, rfl⟩ := h.lab_surj i (lt_of_lt_of_le hi h.np_le)
  have e : b = bp := by
    by_contra hne
    have := (h.lab_off c b bp hb hbp hne hinc).1
    omega
  subst e
  have w : ∀ l ∈ range s.v.nleads, (st.acc.mats.ten .Wdd).val l (la.lab c b b) j = wD s.v la fct l (la.lab c b b) j := by
    intro l hl
    have a2 : w2 s l (la.lab c b b) j = 0 := by
      refine w2_zero h S.h1 fun q x hx k hk => ?_
      by_contra hne
      exact (two_at h hx hk l _ _ hne).2.1 hz
    have a3 : (S.w l).val (la.lab c b b) j = 0 := by
      rcases S.cases with ⟨_, _, hw⟩ | ⟨hoff, _⟩
      · exact hw _ _ _
      · simp at hoff
    rw [S.wdd_eq h (mem_range.1 hl), a3, add_zero]
    show _ + w2 s l _ _ = _
    rw [a2, add_zero]
  rw [S.kern_eq h hi hj, sum_congr rfl w, Mat.val_eq_app m (by omega), rows _ c b hb]
  have w' : ∀ l, wD s.v la fct l (la.lab c b b) j =
      ∑ j' ∈ range s.v.npauli, wD s.v la fct l (la.lab c b b) j' * (if j' = j then 1 else 0) := by
    intro l
    simp [hj]
  rw [sum_congr rfl fun l _ => (w' l).trans (wD_row h fct l hb _), sum_add_distrib, sum_comm, sum_comm (s := range s.v.nleads)]
  congr 1
  · refine sum_congr rfl fun a _ => ?_
    rw [sum_sub_distrib, ← sum_mul, ← sum_mul]
    rfl
  · refine sum_congr rfl fun a _ => ?_
    rw [sum_sub_distrib, ← sum_mul, ← sum_mul]
    rfl

/-! ### Examples -/

/-- The routines of `lib0`, with integrals that vanish if `z` is true. -/
def libZ (z : Bool) : Lib where
  base := ⟨fun x _ _ _ => x, fun x => x⟩
  Poles := Unit
  ozaki _ := ()
  dEq _ a b c d := if z then 0 else a + b + c + d
  xEq _ a b c d := if z then 0 else a * b * c * d
  dOz _ _ a _ _ _ _ _ _ _ := if z then 0 else a
  xOz _ _ a _ _ _ _ _ _ _ := if z then 0 else a

/-- Input for the examples: leads of different temperature and real amplitudes `t l` of lead `l`. -/
def inR (v : View) (t : Nat → ℝ) (nmany : Nat) (z : Bool) : In where
  v := v
  E b := b
  nmany := nmany
  L := ⟨fun l => l, fun l => l + 1, fun _ => -60, fun _ => 60, fun l _ _ => t l, 2, 10000⟩
  tl _ _ := 1
  nsingle := 2
  lib := libZ z
  poles := some ()

/-- The hypotheses of the theorems for C61 hold for a system with off-diagonal corrections, two leads of different
temperature, amplitudes different from zero and a density matrix different from zero. -/
example : ∃ (s : In) (la : Lab) (fct : Nat → Nat → ℝ × ℝ) (LN φ : Vec) (st : St) (cur : Currents) (e Q : Nat → ℝ),
    VOk s.v la ∧ s.v.nleads = 2 ∧ s.L.T 0 ≠ s.L.T 1 ∧ s.L.Tba 0 0 1 ≠ 0 ∧ s.L.Tba 1 0 1 ≠ 0 ∧
    genKern s fct true (fresh s.v true) = .ok st ∧ genCurrent s LN st.acc φ = .ok cur ∧
    (∀ a b l lp, (s.gamma a b l lp).im = 0) ∧ (∃ i < s.v.npauli, φ.val i ≠ 0) ∧
    (∀ i < s.v.npauli, i ≠ 0 → ∑ j ∈ range s.v.npauli, st.kern.val i j * φ.val j = 0) ∧
    ∀ l < s.v.nleads, cur.energy l = some (e l) ∧ cur.heat l = some (Q l) := by
  obtain ⟨d, _, hv, ha, _, hp⟩ := view_all
  have hp' : (inR (d.view 2) (fun _ => 1) 4 false).v.npauli = 4 := hp
  obtain ⟨st, hst⟩ := genKern_some (s := inR (d.view 2) (fun _ => 1) 4 false) hv (Or.inl rfl) (fun _ _ => (1, 2)) true
    true (fun _ => ha)
  obtain ⟨φ, h1, h2⟩ := c28_state (s := inR (d.view 2) (fun _ => 1) 4 false) hv hst (by omega)
  obtain ⟨S⟩ := genKern_steps hst
  obtain ⟨cur, hc⟩ := genCurrent_some (s := inR (d.view 2) (fun _ => 1) 4 false) (LN := ⟨4, fun i => i⟩) (φ := ⟨4, φ⟩)
    S.sh hp'.symm hp'.symm hp'.symm
  have hg : ∀ a b l lp, ((inR (d.view 2) (fun _ => 1) 4 false).gamma a b l lp).im = 0 := by
    intro a b l lp
    simp [In.gamma, inR]
  obtain ⟨e, Q, heQ⟩ := c61_defined hv hst hc hg
  refine ⟨_, d.labOf, _, _, _, st, cur, e, Q, hv, rfl, ?_, ?_, ?_, hst, hc, hg, h1, fun i hi _ => h2 i hi,
    fun l _ => heQ l⟩ <;> simp [inR]

/-- The hypotheses of the theorems for C62 hold for a system of two leads of which one is not coupled. -/
example : ∃ (s : In) (la : Lab) (fct : Nat → Nat → ℝ × ℝ) (LN φ : Vec) (st : St) (cur : Currents), VOk s.v la ∧
    Pauli.genFct s.v s.E s.L = .ok fct ∧ genKern s fct true (fresh s.v true) = .ok st ∧
    genCurrent s LN st.acc φ = .ok cur ∧ 1 < s.v.nleads ∧ s.L.Tba 0 0 1 ≠ 0 ∧ (∀ a b, s.L.Tba 1 a b = 0) ∧
    ∃ i < s.v.npauli, φ.val i ≠ 0 := by
  obtain ⟨d, _, hv, ha, _, hp⟩ := view_all
  let s := inR (d.view 2) (fun l => if l = 0 then 1 else 0) 4 false
  have hp' : s.v.npauli = 4 := hp
  obtain ⟨fct, hf, _⟩ := Pauli.genFct_ok (v := s.v) hv s.E s.L
  obtain ⟨st, hst⟩ := genKern_some (s := s) hv (Or.inl rfl) fct true true (fun _ => ha)
  obtain ⟨S⟩ := genKern_steps hst
  obtain ⟨cur, hc⟩ := genCurrent_some (s := s) (LN := ⟨4, fun i => i⟩) (φ := ⟨4, fun _ => 1⟩)
    S.sh hp'.symm hp'.symm hp'.symm
  refine ⟨s, d.labOf, fct, _, _, st, cur, hv, hf, hst, hc, Nat.one_lt_two, ?_, ?_, 0, by omega, one_ne_zero⟩ <;>
    simp [s, inR]

/-- A concrete object with four charges: three single particle states, 'charge' indexing, two leads. -/
theorem view_three : ∃ d, DM.init .dm 3 "charge" = .ok d ∧ VOk (d.view 2) d.labOf ∧ AllCoherences (d.view 2) d.labOf ∧
    d.statesdm = [[0], [1, 2, 3], [4, 5, 6], [7], []] ∧ d.npauli = 8 := by
  have key : (SI.init 3 "charge" >>= fun si => DM.init .dm 3 "charge" >>= fun d =>
      .ok (d.statesdm, d.npauli, si.chargelst.length, decide (d.si.indexing = .charge))) =
      .ok ([[0], [1, 2, 3], [4, 5, 6], [7], []], 8, 4, true) := by decide +kernel
  rcases h1 : SI.init 3 "charge" with e | si
  · rw [h1] at key
    exact absurd (show (Except.error e : Py (List (List Nat) × Nat × Nat × Bool)) = .ok _ from key) (by simp)
  · rcases h2 : DM.init .dm 3 "charge" with e | d
    · rw [h1, h2] at key
      exact absurd (show (Except.error e : Py (List (List Nat) × Nat × Nat × Bool)) = .ok _ from key) (by simp)
    · rw [h1, h2] at key
      simp only [py_bind_ok, Except.ok.injEq, Prod.mk.injEq, decide_eq_true_iff] at key
      obtain ⟨k1, k2, k4, k5⟩ := key
      have hx : d.si.indexing ≠ .ssq := by rw [k5]; decide
      have hz : d.si.indexing ≠ .sz := by rw [k5]; decide
      exact ⟨d, rfl, view_ok (Reach.init h1 h2) hx k4, all_coherences (Reach.init h1 h2) hx hz k4, k1, k2⟩

/-- The hypotheses of the theorem for C63 hold for a system of three single particle states with corrections and the
states without and with three electrons. -/
example : ∃ (s : In) (la : Lab) (fct : Nat → Nat → ℝ × ℝ) (st : St), VOk s.v la ∧ AllCoherences s.v la ∧
    genKern s fct true (fresh s.v true) = .ok st ∧ s.L.Tba 0 0 1 ≠ 0 ∧ 0 ∈ s.v.row 0 ∧ 7 ∈ s.v.row 3 := by
  obtain ⟨d, _, hv, ha, hs, hp⟩ := view_three
  obtain ⟨st, hst⟩ := genKern_some (s := inR (d.view 2) (fun _ => 1) 8 false) hv (Or.inl rfl) (fun _ _ => (1, 2)) true
    true (fun _ => ha)
  refine ⟨_, d.labOf, _, st, hv, ha, hst, by simp [inR], ?_, ?_⟩ <;>
    simp [inR, View.row, DM.view, hs]

/-- The hypotheses of the theorem for C64 hold for a system of two leads of different temperature. -/
example : ∃ (s : In) (la : Lab) (fct : Nat → Nat → ℝ × ℝ) (st : St), VOk s.v la ∧ s.lib.Zero ∧
    Pauli.genFct s.v s.E s.L = .ok fct ∧ genKern s fct false (fresh s.v true) = .ok st ∧ s.L.Tba 0 0 1 ≠ 0 ∧
    s.v.npauli = 4 := by
  obtain ⟨d, _, hv, ha, hs, hp⟩ := view_all
  let s := inR (d.view 2) (fun _ => 1) 4 true
  obtain ⟨fct, hf, _⟩ := Pauli.genFct_ok (v := s.v) hv s.E s.L
  obtain ⟨st, hst⟩ := genKern_some (s := s) hv (Or.inl rfl) fct false true (by simp)
  refine ⟨s, d.labOf, fct, st, hv, ?_, hf, hst, by simp [s, inR], hp⟩
  simp [Lib.Zero, s, inR, libZ]

end RTD

end

end Verif
