import Verif.Props.Neumann2Eq

/-!
C90: for a single level the 2vN approach gives the current of the Landauer formula.
-/

namespace Verif

open Finset

noncomputable section

namespace VN2

/-! ### The equation for one level -/

/-- Two states that differ by one electron. -/
structure Dot.Level (D : Dot) (a b : Nat) : Prop where
  ne : a ≠ b
  states : D.states = {a, b}
  empty : D.charge a = 0
  full : D.charge b = 1

variable {D : Dot} {a b : Nat}

theorem level_source (h : D.Level a b) (A : Dot.Leads) (l : Nat) {ρ : Mx} (h1 : ρ a b = 0) (h2 : ρ b a = 0) :
    D.source A l ρ b a = D.T l b a * (A.f l * ρ a a - (1 - A.f l) * ρ b b) := by
  unfold Dot.source Dot.mix
  rw [h.states, sum_pair h.ne, h2]
  ring

theorem level_local (h : D.Level a b) (A : Dot.Leads) (Ek : ℝ) {X : Mx} (hX : First D X) :
    D.localTerm A Ek X b a = (∑ l ∈ range D.nleads, D.T l b a * D.T l a b * (A.F l Ek + A.G l Ek)) * X b a := by
  have x1 : X a a = 0 := hX a a (by rw [h.empty]; omega)
  have x2 : X a b = 0 := hX a b (by rw [h.empty, h.full]; omega)
  have x3 : X b b = 0 := hX b b (by rw [h.full]; omega)
  unfold Dot.localTerm
  rw [sum_mul]
  refine sum_congr rfl fun l _ => ?_
  simp only [Dot.anti, Dot.two, Dot.mix, h.states, sum_pair h.ne, h.empty, h.full, x1, x2, x3]
  norm_num
  ring

theorem level_nonlocal (h : D.Level a b) (A : Dot.Leads) (Ek : ℝ) (l : Nat) {U V : Nat → ℝ → Mx}
    (hU : ∀ l e c b, D.charge c ≠ D.charge b + 1 → U l e b c = 0) :
    D.nonlocalTerm A Ek l U V b a = -D.T l b a * ∑ l1 ∈ range D.nleads, D.T l1 b a * U l1 Ek a b := by
  have x1 : ∀ l e, U l e a a = 0 := fun l e => hU l e a a (by rw [h.empty]; omega)
  have x2 : ∀ l e, U l e b a = 0 := fun l e => hU l e a b (by rw [h.empty, h.full]; omega)
  have x3 : ∀ l e, U l e b b = 0 := fun l e => hU l e b b (by rw [h.full]; omega)
  unfold Dot.nonlocalTerm
  rw [mul_sum]
  refine sum_congr rfl fun l1 _ => ?_
  simp only [Dot.anti, Dot.two, Dot.mix, h.states, sum_pair h.ne, h.empty, h.full, x1, x2, x3]
  norm_num
  ring

/-- The first order element of one level: the dependence on the lead is explicit. -/
theorem level_equation (h : D.Level a b) {A : Dot.Leads} {Ek : ℝ} {l : Nat} {ρ X : Mx} {U V : Nat → ℝ → Mx} (h1 : ρ a b = 0) (h2 : ρ b a = 0)
    (hn : ρ a a + ρ b b = 1) (hX : First D X) (hU : ∀ l e c b, D.charge c ≠ D.charge b + 1 → U l e b c = 0)
    (e : D.Equation A Ek l ρ X U V b a) :
    (((Ek - D.E b + D.E a : ℝ) : ℂ) - ∑ l ∈ range D.nleads, D.T l b a * D.T l a b * (A.F l Ek + A.G l Ek)) * X b a =
      D.T l b a * (A.f l - (ρ b b + ∑ l1 ∈ range D.nleads, D.T l1 b a * U l1 Ek a b)) := by
  unfold Dot.Equation at e
  rw [level_source h A l h1 h2, level_local h A Ek hX, level_nonlocal h A Ek l hU] at e
  have hn' : ρ a a = 1 - ρ b b := by rw [← hn]; ring
  rw [hn'] at e
  linear_combination e

/-! ### The Green's function -/

theorem samp_conj (x h : ℝ) (N : Nat) {f : Nat → ℂ} (hf : ∀ i < N, (f i).im = 0) (E : ℝ) : (samp x h N f E).im = 0 := by
  unfold samp sample
  simp only [List.length_map, List.length_range]
  split
  · rw [Complex.im_sum]
    refine sum_eq_zero fun i hi => ?_
    rw [getD_map_range _ _ (mem_range.1 hi), Complex.mul_im, Complex.ofReal_im, hf i (mem_range.1 hi)]
    simp
  · rfl

theorem Grid.t_real (g : Grid) {f : Nat → ℂ} (hf : ∀ i, (f i).im = 0) (E : ℝ) : (g.t f E).im = 0 := by
  refine samp_conj _ _ _ (fun i _ => ?_) _
  unfold ht
  rw [Complex.im_sum]
  refine sum_eq_zero fun j _ => ?_
  have : (padf g.len g.left f j).im = 0 := by
    unfold padf
    split
    · exact hf _
    · rfl
  rw [Complex.mul_im, Complex.ofReal_im, this]
  simp

theorem samp_point {x h : ℝ} (hh : 0 < h) {N : Nat} (hN : 2 ≤ N) (f : Nat → ℂ) {i : Nat} (hi : i < N) : samp x h N f (x + i * h) = f i := by
  unfold samp
  rcases Nat.lt_or_ge (i + 1) N with h1 | h1
  · rw [sample_in hh (i := i) (t := 0) (by simpa using h1) le_rfl zero_le_one (by ring), getD_map_range _ _ hi]
    push_cast
    ring
  · obtain ⟨j, rfl⟩ : ∃ j, i = j + 1 := ⟨i - 1, by omega⟩
    rw [sample_in hh (i := j) (t := 1) (by simpa using hi) zero_le_one le_rfl (by push_cast; ring), getD_map_range _ _ hi]
    push_cast
    ring

theorem Grid.w_point (g : Grid) (hh : 0 < g.h) (h2 : 2 ≤ g.len) (f : Nat → ℂ) {k : Nat} (hk : k < g.len) : g.w f (g.x + k * g.h) = f k := by
  unfold Grid.w
  have := samp_point (x := g.x - g.left * g.h) hh (N := g.len + g.left + g.right) (by omega) (padf g.len g.left f) (i := k + g.left) (by omega)
  rw [show g.x - g.left * g.h + ((k + g.left : ℕ) : ℝ) * g.h = g.x + k * g.h by push_cast; ring] at this
  rw [this]
  unfold padf
  rw [if_pos (by omega), Nat.add_sub_cancel]

theorem Grid.t_point (g : Grid) (hh : 0 < g.h) (h2 : 2 ≤ g.len) (f : Nat → ℂ) {k : Nat} (hk : k < g.len) :
    IsHilbert g.x g.h ((List.range g.len).map f) (g.x - (g.left + 1) * g.h) (g.x + (g.len + g.right : ℕ) * g.h) (g.x + k * g.h)
      (g.t f (g.x + k * g.h)) := by
  obtain ⟨_, z, hz, ht, hp⟩ := g.pair hh (by omega) f
  have := hp (k + g.left) (by omega)
  rw [show g.x + (((k + g.left : ℕ) : ℝ) - g.left) * g.h = g.x + k * g.h by push_cast; ring] at this
  convert this using 1
  have hl : (List.range z.length).map (fun i => z.getD i 0) = z := by
    apply List.ext_getElem
    · simp
    · intro i i1 i2
      simp [i2]
  have hs := samp_point (x := g.x - g.left * g.h) hh (N := z.length) (by omega) (fun i => z.getD i 0) (i := k + g.left) (by omega)
  unfold samp at hs
  rw [hl, show g.x - g.left * g.h + ((k + g.left : ℕ) : ℝ) * g.h = g.x + k * g.h by push_cast; ring] at hs
  rw [ht, hs]

theorem Grid.F_add (g : Grid) (f : Nat → ℝ) (E : ℝ) : g.F f E + g.F (fun k => 1 - f k) E =
    Real.pi * (g.t (fun _ => 1) E - Complex.I * g.w (fun _ => 1) E) := by
  have hw := g.w_sum (univ : Finset (Fin 2)) ![fun k => (f k : ℂ), fun k => ((1 - f k : ℝ) : ℂ)] ![1, 1] E
  have ht := g.t_sum (univ : Finset (Fin 2)) ![fun k => (f k : ℂ), fun k => ((1 - f k : ℝ) : ℂ)] ![1, 1] E
  simp only [Fin.sum_univ_two, Matrix.cons_val_zero, Matrix.cons_val_one, mul_one] at hw ht
  have e : (fun i => (f i : ℂ) + ((1 - f i : ℝ) : ℂ)) = fun _ => 1 := by
    funext i
    push_cast
    ring
  rw [e] at hw ht
  unfold Grid.F
  rw [ht, hw]
  ring

/-! ### The integrals -/

theorem dx_uniform {g : Grid} {i : Nat} (hi : i < g.len) (h2 : 2 ≤ g.len) : dx g.list i = .ok (2 * trap g.h g.len i) := by
  have get : ∀ j : Nat, j < g.len → pyGet g.list (j : Int) = .ok (g.x + j * g.h) := fun j hj => uniform_get hj
  have len : g.list.length = g.len := by simp [Grid.list]
  unfold dx trap
  rw [len]
  by_cases h0 : i = 0
  · rw [if_pos h0, if_pos (Or.inl h0)]
    have := get (i + 1) (by omega)
    push_cast at this
    rw [this, py_bind_ok, get i hi, py_bind_ok]
    show Except.ok _ = _
    congr 1
    ring
  · have hp := get (i - 1) (by omega)
    rw [show ((i - 1 : Nat) : Int) = (i : Int) - 1 by omega] at hp
    have hr : ((i - 1 : ℕ) : ℝ) = i - 1 := by
      rw [Nat.cast_sub (by omega)]; simp
    rw [if_neg h0]
    by_cases h1 : i = g.len - 1
    · rw [if_pos h1, if_pos (Or.inr (by omega)), get i hi, py_bind_ok, hp, py_bind_ok]
      show Except.ok _ = _
      congr 1
      rw [hr]
      ring
    · rw [if_neg h1, if_neg (by omega)]
      have := get (i + 1) (by omega)
      push_cast at this
      rw [this, py_bind_ok, hp, py_bind_ok]
      show Except.ok _ = _
      congr 1
      rw [hr]
      ring

theorem phi1Phi0_val {g : Grid} (h2 : 2 ≤ g.len) {p : C4} {r : C3 × C3} (e : phi1Phi0 g.list p (fun _ _ _ => 0, fun _ _ _ => 0) = .ok r)
    (l cb j : Nat) : r.1 l cb j = ∑ k ∈ range g.len, (trap g.h g.len k : ℂ) * p k l cb j := by
  have len : g.list.length = g.len := by simp [Grid.list]
  unfold phi1Phi0 at e
  rw [len] at e
  have := (foldlM_sum (P := fun _ => True) (g := fun PQ : C3 × C3 => PQ.1 l cb j) (w := fun k => (trap g.h g.len k : ℂ) * p k l cb j)
    (fun k hk PQ _ t ht => ⟨trivial, by
      have hk := List.mem_range.1 hk
      have hy : pyGet g.list (k : Int) = .ok (g.x + k * g.h) := uniform_get hk
      rw [dx_uniform hk h2, py_bind_ok, hy, py_bind_ok] at ht
      obtain rfl := Except.ok.inj ht
      dsimp only
      push_cast
      ring⟩) e trivial).2
  rw [this]
  simp only [zero_add]
  exact sum_range_list _ _

theorem landauer_alg {n nl : Nat} {w c : Nat → ℝ} {γ I : Nat → ℝ} {f : Nat → Nat → ℝ} {σ : ℝ} (hΓ : ∑ m ∈ range nl, γ m ≠ 0)
    (hI : ∀ l < nl, I l = -2 * γ l * (∑ k ∈ range n, w k * (f l k * c k) - σ)) (h0 : ∑ l ∈ range nl, I l = 0) {l : Nat} (hl : l < nl) :
    I l = ∑ k ∈ range n, w k * ∑ l' ∈ range nl, -2 * γ l * γ l' * c k / (∑ m ∈ range nl, γ m) * (f l k - f l' k) := by
  have hs : ∑ l' ∈ range nl, γ l' * ∑ k ∈ range n, w k * (f l' k * c k) = (∑ m ∈ range nl, γ m) * σ := by
    have : ∑ l ∈ range nl, I l = ∑ l ∈ range nl, (-2 * (γ l * ∑ k ∈ range n, w k * (f l k * c k)) + 2 * (γ l * σ)) :=
      sum_congr rfl fun l hl => by rw [hI l (mem_range.1 hl)]; ring
    rw [h0, sum_add_distrib, ← mul_sum, ← mul_sum, ← sum_mul] at this
    linarith
  have e : ∑ k ∈ range n, w k * ∑ l' ∈ range nl, -2 * γ l * γ l' * c k / (∑ m ∈ range nl, γ m) * (f l k - f l' k) =
      -2 * γ l / (∑ m ∈ range nl, γ m) * ((∑ m ∈ range nl, γ m) * ∑ k ∈ range n, w k * (f l k * c k) -
        ∑ l' ∈ range nl, γ l' * ∑ k ∈ range n, w k * (f l' k * c k)) := by
    rw [sum_mul, ← sum_sub_distrib, mul_sum]
    simp only [mul_sum, ← sum_sub_distrib]
    rw [sum_comm]
    refine sum_congr rfl fun l' _ => sum_congr rfl fun k _ => ?_
    ring
  rw [e, hs, hI l hl]
  field_simp

/-! ### The last iteration -/

theorem iteration_opts {num : Num} {s s' : St} (hs : Inv s) (e : St.iteration num (s, none) = (s', none)) :
    s'.opts.symq = s.opts.symq ∧ s'.opts.normRow = s.opts.normRow := by
  obtain ⟨s1, s2, s3, s4, s5, s6, s7, s8, e1, e2, e3, e4, e5, e6, e7, e8, e9⟩ := iteration_inv e
  have i1 := inv_makeGrid hs e1
  have i2 := inv_extend i1 e2
  obtain ⟨a3, p⟩ := prepareKern_inv i2 e3
  obtain ⟨d, iv, h4⟩ := iterate_inv e4
  have ha4 : s4.arrs = some a3 := by rw [h4]; exact p.arrs
  obtain ⟨p5, pp, epp, h5⟩ := integrate_inv ha4 e5
  have ha5 : s5.arrs = some { a3 with pp := pp, epp := epp } := by rw [h5]
  obtain ⟨k, m, hk, hm, h6⟩ := genKern_inv ha5 e6
  have ha6 : s6.arrs = some { a3 with pp := pp, epp := epp, kern := some (m, k.2) } := by rw [h6]
  obtain ⟨m7, b7, x7, φ7, z7, q7, h7, -⟩ := solveKern_inv ha6 rfl e7
  have ha7 : s7.arrs = some { a3 with pp := pp, epp := epp, kern := some (m7, b7, k.2.2), phi0 := φ7 } := by rw [h7]
  obtain ⟨evs, hevs, h8⟩ := genCurrent_inv ha7 e8
  have ha8 : s8.arrs = some { a3 with pp := pp, epp := epp, kern := some (m7, b7, k.2.2), phi0 := φ7,
                                      phi1 := dotP s7.sys.v pp φ7, hphi1 := dotP s7.sys.v epp φ7,
                                      cur := a3.cur ++ evs } := by rw [h8]
  have h9 := record_inv ha8 e9
  have f1 : s1.opts = s.opts := by
    by_cases hz : s.zeroth = true
    · rw [if_pos hz] at e1
      rcases makeGrid_inv e1 (hs.zeroth hz) with rfl | ⟨n, _, rfl⟩ <;> rfl
    · rw [if_neg hz] at e1
      simp only [py_pure, Except.ok.injEq] at e1
      subst e1
      rfl
  have f2 : s2.opts = s1.opts := by
    by_cases hz : s1.zeroth = true
    · rw [if_pos hz] at e2
      obtain ⟨x, rfl⟩ := extend_inv e2
      rfl
    · rw [if_neg hz] at e2
      simp only [py_pure, Except.ok.injEq] at e2
      subst e2
      rfl
  have : s'.opts = s3.opts := by
    rw [h9]; simp only; rw [h8]; simp only; rw [h7]; simp only; rw [h6]; simp only; rw [h5]; simp only; rw [h4]
  rw [this, p.symq, p.normRow, f2, f1]
  exact ⟨rfl, rfl⟩

theorem iterations_opts {num : Num} (k : Nat) : ∀ {s s' : St}, Inv s → (St.iteration num)^[k] (s, none) = (s', none) →
    s'.sys = s.sys ∧ s'.opts.symq = s.opts.symq ∧ s'.opts.normRow = s.opts.normRow := by
  induction k with
  | zero =>
    intro s s' _ e
    obtain rfl : s = s' := congrArg Prod.fst e
    exact ⟨rfl, rfl, rfl⟩
  | succ k ih =>
    intro s s' hs e
    rw [Function.iterate_succ_apply] at e
    rcases h1 : St.iteration num (s, none) with ⟨u, _ | x⟩
    · rw [h1] at e
      have hu := inv_iteration num (r := (s, none)) hs
      rw [h1] at hu
      obtain ⟨a1, a2, a3⟩ := ih hu e
      obtain ⟨b2, b3⟩ := iteration_opts hs h1
      obtain ⟨_, _, _, _, _, _, _, _, _, _, _, _, _, _, _, _, _, b1, _⟩ := iteration_facts hs h1
      exact ⟨a1.trans b1, a2.trans b2, a3.trans b3⟩
    · rw [h1, iterate_err] at e
      simp at e

/-- The state before the last iteration. -/
theorem before_last {num : Num} {s s' : St} (hs : Hist num s) {N : Nat} (e : s.solve num true (some (N + 1)) = (s', none)) :
    ∃ u, Hist num u ∧ u.sys = s.sys ∧ u.opts.symq = s.opts.symq ∧ u.opts.normRow = s.opts.normRow ∧
      St.iteration num (u, none) = (s', none) := by
  change (St.iteration num)^[N + 1] (s.restart, none) = _ at e
  rw [Function.iterate_succ_apply'] at e
  rcases h1 : (St.iteration num)^[N] (s.restart, none) with ⟨u, _ | x⟩
  · rw [h1] at e
    obtain ⟨a1, a2, a3⟩ := iterations_opts N hs.inv.restart h1
    have h : Hist num (s.solve num true (some N)).1 := hs.solve true (some N)
    change Hist num ((St.iteration num)^[N] (s.restart, none)).1 at h
    rw [h1] at h
    exact ⟨u, h, a1, a2, a3, e⟩
  · rw [h1] at e
    have := iterate_err (num := num) (n := 1) (s := u) (e := x)
    simp only [Function.iterate_one] at this
    rw [this] at e
    simp at e

/-- The equation for the sums of a single level. -/
theorem level_sums {lab ix1 : Nat → Nat → Nat → Nat} {t : Terms} {y : Sys} {g : Grid} (lev : D.Level a b) (A : TermsAt t y g)
    (ok : VOkC y.v lab ix1) (hh : 0 < g.h) (h2 : 2 ≤ g.len) {p : HtPars} (p1 : p.Made) (p2 : p.left = g.left) (p3 : p.right = g.right)
    {inv : CMat → Option CMat} (hi : IsInverse inv) {d : Nat → C4} {i1 : C4} {N : Nat} (d0 : t.zeroth inv g.len = .ok (d 0, i1))
    (dn : ∀ i < N, ∃ p', t.next p g.len (d i) i1 = .ok (d (i + 1), p')) (hD : IsDot D y.v y.E y.T) {φ : Nat → ℂ}
    (hn1 : φ (lab 0 a a) + φ (lab 1 b b) = 1) (ma : a ∈ y.v.row 0) (mb : b ∈ y.v.row 1) :
    ∃ S : Nat → ℂ, ∀ k < g.len, ∀ l < D.nleads,
      (((g.x + k * g.h - D.E b + D.E a : ℝ) : ℂ) - ∑ l ∈ range D.nleads, D.T l b a * D.T l a b *
        ((y.leads g k).F l (g.x + k * g.h) + (y.leads g k).G l (g.x + k * g.h))) *
          firstMx D ix1 (sumX y d φ N k l) b a = D.T l b a * (y.occ g l k - S k) := by
  set ρ := zerothMx D lab φ
  have h0 : ∀ m n, D.charge m ≠ D.charge n → ρ m n = 0 := fun m n h => if_neg h
  have h1 : ∀ c b bp, b ∈ y.v.row c → bp ∈ y.v.row c → ρ b bp = φ (lab c b bp) := by
    intro c b bp hb hbp
    show (if _ then _ else _) = _
    rw [hD.charge _ _ hb, hD.charge _ _ hbp, if_pos rfl]
  have q1 : ρ a b = 0 := h0 a b (by rw [lev.empty, lev.full]; omega)
  have q2 : ρ b a = 0 := h0 b a (by rw [lev.empty, lev.full]; omega)
  have q3 : ρ a a + ρ b b = 1 := by rw [h1 0 a a ma ma, h1 1 b b mb mb, hn1]
  have sa : a ∈ D.states := by rw [lev.states]; simp
  have sb : b ∈ D.states := by rw [lev.states]; simp
  have hq : D.charge b = D.charge a + 1 := by rw [lev.empty, lev.full]
  have hS : ∀ (U : Nat → ℝ → Mx), (∀ l e c b, D.charge c ≠ D.charge b + 1 → U l e b c = 0) →
      (∀ k < g.len, ∀ l < D.nleads, ∃ V, D.Equation (y.leads g k) (g.x + k * g.h) l ρ (firstMx D ix1 (sumX y d φ N k l)) U V b a) →
      ∃ S : Nat → ℂ, ∀ k < g.len, ∀ l < D.nleads,
        (((g.x + k * g.h - D.E b + D.E a : ℝ) : ℂ) - ∑ l ∈ range D.nleads, D.T l b a * D.T l a b *
          ((y.leads g k).F l (g.x + k * g.h) + (y.leads g k).G l (g.x + k * g.h))) *
            firstMx D ix1 (sumX y d φ N k l) b a = D.T l b a * (y.occ g l k - S k) := by
    intro U hU hE
    refine ⟨fun k => ρ b b + ∑ l1 ∈ range D.nleads, D.T l1 b a * U l1 (g.x + k * g.h) a b, fun k hk l hl => ?_⟩
    obtain ⟨V, e⟩ := hE k hk l hl
    exact level_equation lev q1 q2 q3 (firstMx_first _) hU e
  have key := fun k (hk : k < g.len) l (hl : l < D.nleads) =>
    sums_equation A ok hh h2 p1 p2 p3 hi d0 dn hD h0 h1 hk hl sb sa hq
  rcases Nat.eq_zero_or_pos N with hN | hN
  · refine hS (fun _ _ _ _ => 0) (fun _ _ _ _ _ => rfl) fun k hk l hl => ⟨fun _ _ _ _ => 0, ?_⟩
    rw [hN]
    exact (key k hk l hl).1
  · obtain ⟨M, hM⟩ : ∃ M, N = M + 1 := ⟨N - 1, by omega⟩
    refine hS _ (sums_moved (y := y) hh (by omega) D ix1 d (fun j => (starRingEnd ℂ) (φ j)) M).zeroU fun k hk l hl =>
      ⟨fun l e => firstMx D ix1 fun cb => sumV g y d φ M l cb e, ?_⟩
    rw [hM]
    exact (key k hk l hl).2 M (by omega)

/-- C90: for a single level (the states `a` and `b`) the currents after any number of iterations are those of the Landauer formula,
provided that the linear equations of the last iteration have been solved. The level shift is that of a constant density of states
within the band, which is broken off linearly over one spacing at both ends. -/
theorem c90_landauer {inv : CMat → Option CMat} (hi : IsInverse inv) {solve lstsq : CMat → CVec → Option CVec} {s s' : St}
    (hs : Hist (Num.of inv solve lstsq) s) {n : Nat} {lab ix1 : Nat → Nat → Nat → Nat} (ok : VOkC s.sys.v lab ix1)
    (hk : s.sys.kpnt = some n) (hn : 2 ≤ n) (hb : s.sys.band.1 < s.sys.band.2) (hg : s.grid ≠ [])
    (hrow : s.opts.symq = true → ∃ r, pyIdx s.sys.v.ndm0 s.opts.normRow = .ok r ∧ r < s.sys.v.npauli)
    (hT : HermT s.sys.T) (hc : s.sys.v.ncharge = 2) (r0 : s.sys.v.row 0 = [a]) (r1 : s.sys.v.row 1 = [b])
    (hγ : ∃ l < s.sys.v.nleads, s.sys.T l b a ≠ 0) {N : Nat}
    (e : s.solve (Num.of inv solve lstsq) true (some (N + 1)) = (s', none)) :
    ∃ (r : Rec) (q : CMat × CVec) (x h : ℝ) (τ : Nat → ℝ), s'.iters.getLast? = some r ∧ s'.asked.getLast? = some q ∧
      x = s.sys.band.1 ∧ h = (s.sys.band.2 - s.sys.band.1) / ((n : ℝ) - 1) ∧
      (∀ k < n, PV (fun y => 1 / Real.pi * (broken x h (List.replicate n 1) y / (x + k * h - y))) (x - (s'.ext.left + 1) * h)
        (x + (n + s'.ext.right : ℕ) * h) (x + k * h) (τ k)) ∧
      (Solves q r.phi0.val → (∀ ψ, Solves q ψ → ∀ i, i < s.sys.v.ndm0 → ψ i = r.phi0.val i) → ∀ l < s.sys.v.nleads,
        current r.cur l = landauer x h n (s.sys.E b - s.sys.E a) s.sys.v.nleads (fun l => Complex.normSq (s.sys.T l b a))
          (fun l k => 1 / (Real.exp ((x + k * h - s.sys.mu l) / s.sys.temp l) + 1)) τ l) := by
  have hl : 0 < s.sys.v.nleads := by obtain ⟨l, h, _⟩ := hγ; omega
  obtain ⟨g, g1, g2, g3, hh, g4, d, i1, R, t, p, A, p1, p2, p3, d0, dn⟩ := run_solve hs ok hl hk hn hb hg e
  have h2 : 2 ≤ g.len := by omega
  obtain ⟨u, hu, u1, u2, u3, eu⟩ := before_last hs e
  obtain ⟨r, q, k1, k2, k3⟩ := c27_conserved hu (by rw [u1]; exact ok) (by rw [u1, u2, u3]; exact hrow) (by rw [u1]; exact hT) eu
  obtain ⟨ar, _, _, _, _, _, evs, q', f1, _, _, _, _, _, f2, f3, f4, _, _, f5, _⟩ := iteration_facts hu.inv eu
  rw [u1] at k3 f2 f4
  have hr : r = ⟨s'.niter, ar.phi0, ar.phi1, ar.cur⟩ := by
    rw [k1] at f5
    simpa using f5
  obtain ⟨ar', z1, z2⟩ := R.arrs
  obtain rfl : ar = ar' := Option.some.inj (f1.symm.trans z1)
  have ma : a ∈ s.sys.v.row 0 := by rw [r0]; simp
  have mb : b ∈ s.sys.v.row 1 := by rw [r1]; simp
  have hab : a ≠ b := fun hq => by
    have := ok.disj 0 1 b (hq ▸ ma) mb
    omega
  let D : Dot := ⟨{a, b}, fun m => if m = b then 1 else 0, s.sys.E, s.sys.v.nleads, s.sys.T⟩
  have lev : D.Level a b := ⟨hab, rfl, if_neg hab, if_pos rfl⟩
  have hrows : ∀ c m, m ∈ s.sys.v.row c → c = 0 ∧ m = a ∨ c = 1 ∧ m = b := by
    intro c m hm
    rcases Nat.lt_or_ge c 2 with h | h
    · obtain rfl | rfl : c = 0 ∨ c = 1 := by omega
      · rw [r0] at hm; exact Or.inl ⟨rfl, by simpa using hm⟩
      · rw [r1] at hm; exact Or.inr ⟨rfl, by simpa using hm⟩
    · rw [ok.last c (by omega)] at hm
      simp at hm
  have hD : IsDot D s.sys.v s.sys.E s.sys.T := by
    refine ⟨fun m => ?_, fun c m hm => ?_, rfl, rfl, rfl⟩
    · show m ∈ ({a, b} : Finset Nat) ↔ _
      rw [mem_insert, mem_singleton]
      constructor
      · rintro (rfl | rfl)
        exacts [⟨0, ma⟩, ⟨1, mb⟩]
      · rintro ⟨c, hm⟩
        rcases hrows c m hm with ⟨_, h⟩ | ⟨_, h⟩
        exacts [Or.inl h, Or.inr h]
    · rcases hrows c m hm with ⟨rfl, rfl⟩ | ⟨rfl, rfl⟩
      exacts [lev.empty, lev.full]
  refine ⟨r, q, g.x, g.h, fun k => (g.t (fun _ => 1) (g.x + k * g.h)).re, by rw [k1]; simp, by rw [k2]; simp, g1, g2, ?_, ?_⟩
  · intro k hk'
    rw [← g3] at hk'
    have := (g.t_point hh h2 (fun _ => 1) hk').1
    rw [R.ext, ← g3]
    have hm : ((List.range g.len).map fun _ => (1 : ℂ)).map Complex.re = List.replicate g.len 1 := by
      simp [List.map_const']
    rw [hm] at this
    exact this
  intro hsol huniq l hl'
  obtain ⟨c0, c1, -⟩ := k3 hsol huniq
  set φ : Nat → ℂ := r.phi0.val with hφ
  have hn1 : φ (lab 0 a a) + φ (lab 1 b b) = 1 := by
    rw [ok.sum_pop, hc, sum_range_succ, sum_range_one] at c1
    simpa [View.R, r0, r1] using c1
  -- the equation at each grid point
  have e1 : ∃ S : Nat → ℂ, ∀ k < g.len, ∀ l < s.sys.v.nleads,
      (((g.x + k * g.h - s.sys.E b + s.sys.E a : ℝ) : ℂ) - ∑ l ∈ range s.sys.v.nleads, s.sys.T l b a * s.sys.T l a b *
        ((s.sys.leads g k).F l (g.x + k * g.h) + (s.sys.leads g k).G l (g.x + k * g.h))) *
          firstMx D ix1 (sumX s.sys d φ N k l) b a = s.sys.T l b a * (s.sys.occ g l k - S k) := by
    exact level_sums lev A ok hh h2 p1 p2 p3 hi d0 dn hD hn1 ma mb
  obtain ⟨S, hS⟩ := e1
  set γ : Nat → ℝ := fun l => Complex.normSq (s.sys.T l b a) with hγd
  set Γ : ℝ := ∑ m ∈ range s.sys.v.nleads, γ m with hΓd
  have hΓ : 0 < Γ := by
    obtain ⟨m, hm, hm'⟩ := hγ
    exact sum_pos' (fun _ _ => Complex.normSq_nonneg _) ⟨m, mem_range.2 hm, Complex.normSq_pos.2 hm'⟩
  have hTT : ∀ m, s.sys.T m b a * s.sys.T m a b = (γ m : ℂ) := fun m => by
    rw [hT m b a, Complex.mul_conj]
  set τ : Nat → ℝ := fun k => (g.t (fun _ => 1) (g.x + k * g.h)).re with hτd
  let Q : Nat → ℂ := fun k => ⟨g.x + k * g.h - (s.sys.E b - s.sys.E a) - Real.pi * Γ * τ k, Real.pi * Γ⟩
  have hQ0 : ∀ k, Q k ≠ 0 := fun k hz => by
    have : Real.pi * Γ = 0 := congrArg Complex.im hz
    have := mul_pos Real.pi_pos hΓ
    linarith
  have hQ : ∀ k < g.len, (((g.x + k * g.h - s.sys.E b + s.sys.E a : ℝ) : ℂ) - ∑ l ∈ range s.sys.v.nleads, s.sys.T l b a * s.sys.T l a b *
        ((s.sys.leads g k).F l (g.x + k * g.h) + (s.sys.leads g k).G l (g.x + k * g.h))) = Q k := by
    intro k hk'
    have ht : g.t (fun _ => 1) (g.x + k * g.h) = (τ k : ℂ) :=
      Complex.ext rfl (by rw [Complex.ofReal_im]; exact g.t_real (fun _ => rfl) _)
    have : ∀ m ∈ range s.sys.v.nleads, s.sys.T m b a * s.sys.T m a b *
        ((s.sys.leads g k).F m (g.x + k * g.h) + (s.sys.leads g k).G m (g.x + k * g.h)) =
          (γ m : ℂ) * (Real.pi * (τ k - Complex.I)) := by
      intro m _
      rw [hTT]
      change _ * (g.F (s.sys.occ g m) _ + g.F (fun k => 1 - s.sys.occ g m k) _) = _
      rw [g.F_add, g.w_point hh h2 _ hk', ht, mul_one]
    rw [sum_congr rfl this, ← sum_mul, ← Complex.ofReal_sum]
    apply Complex.ext
    · simp [Q]; ring
    · simp [Q]; ring
  have hx : ∀ k < g.len, ∀ m < s.sys.v.nleads, firstMx D ix1 (sumX s.sys d φ N k m) b a * s.sys.T m a b =
      γ m * ((s.sys.occ g m k - S k) * (Q k)⁻¹) := by
    intro k hk' m hm
    have := hS k hk' m hm
    rw [hQ k hk'] at this
    have h3 : firstMx D ix1 (sumX s.sys d φ N k m) b a = (Q k)⁻¹ * (s.sys.T m b a * (s.sys.occ g m k - S k)) := by
      rw [← this, inv_mul_cancel_left₀ (hQ0 k)]
    rw [h3, ← hTT]
    ring
  -- the currents
  have hcur : ∀ m < s.sys.v.nleads, current r.cur m = -2 * γ m * (∑ k ∈ range g.len, trap g.h g.len k * (s.sys.occ g m k * (Q k)⁻¹.im) -
      ∑ k ∈ range g.len, trap g.h g.len k * (S k * (Q k)⁻¹).im) := by
    intro m hm
    obtain ⟨evs', w1, w2⟩ := VN2.genCurrent_ok ok s.sys.T (dotP s.sys.v ar.pp ar.phi0) (dotP s.sys.v ar.epp ar.phi0)
    obtain rfl : evs = evs' := Except.ok.inj (f4.symm.trans w1)
    have hcur' : r.cur = evs := by rw [hr, ← f3]
    rw [hcur', (w2 m hm).1, hc, sum_range_one]
    have hR1 : s.sys.v.R (0 + 1) = {b} := by simp [View.R, r1]
    have hR0 : s.sys.v.R 0 = {a} := by simp [View.R, r0]
    rw [hR1, hR0, sum_singleton, sum_singleton]
    have hφ' : ar.phi0.val = φ := by rw [hφ, hr]
    have hd : dotP s.sys.v ar.pp ar.phi0 m (ix1 0 b a) * s.sys.T m a b =
        ∑ k ∈ range g.len, (trap g.h g.len k : ℂ) * (γ m * ((s.sys.occ g m k - S k) * (Q k)⁻¹)) := by
      have hpp : ∀ j, ar.pp m (ix1 0 b a) j =
          ∑ k ∈ range g.len, (trap g.h g.len k : ℂ) * ∑ i ∈ range (N + 1), d i k m (ix1 0 b a) j := fun j => phi1Phi0_val h2 z2 m _ j
      have hv : ∀ k, firstMx D ix1 (sumX s.sys d φ N k m) b a =
          ∑ j ∈ range s.sys.v.ndm0, (∑ i ∈ range (N + 1), d i k m (ix1 0 b a) j) * φ j := by
        intro k
        rw [firstMx_val (A.dot hD) _ (q := 0) (by rw [A.v]; exact mb) (by rw [A.v]; exact ma)]
        unfold sumX
        rw [sum_product, sum_comm]
        exact sum_congr rfl fun j _ => by rw [sum_mul]
      unfold dotP
      rw [hφ']
      simp only [hpp]
      have hx' : ∀ k ∈ range g.len, (trap g.h g.len k : ℂ) * (γ m * ((s.sys.occ g m k - S k) * (Q k)⁻¹)) = (trap g.h g.len k : ℂ) *
          ((∑ j ∈ range s.sys.v.ndm0, (∑ i ∈ range (N + 1), d i k m (ix1 0 b a) j) * φ j) * s.sys.T m a b) := fun k hk' => by
        rw [← hx k (mem_range.1 hk') m hm, hv k]
      rw [sum_congr rfl hx']
      simp only [sum_mul, mul_sum]
      rw [sum_comm]
      refine sum_congr rfl fun k _ => sum_congr rfl fun j _ => sum_congr rfl fun i _ => ?_
      ring
    rw [hd, Complex.im_sum, ← sum_sub_distrib, mul_sum, mul_sum]
    refine sum_congr rfl fun k _ => ?_
    rw [Complex.im_ofReal_mul, Complex.im_ofReal_mul, sub_mul, Complex.sub_im, Complex.im_ofReal_mul]
    ring
  have fin := landauer_alg (w := trap g.h g.len) (c := fun k => (Q k)⁻¹.im) hΓ.ne' hcur c0 hl'
  rw [fin, ← g3]
  unfold landauer
  refine sum_congr rfl fun k _ => ?_
  congr 1
  refine sum_congr rfl fun m _ => ?_
  show _ = _ * (s.sys.occ g l k - s.sys.occ g m k)
  congr 1
  have hnq : Complex.normSq (Q k) = (g.x + k * g.h - (s.sys.E b - s.sys.E a) - Real.pi * Γ * τ k) ^ 2 + (Real.pi * Γ) ^ 2 := by
    rw [Complex.normSq_apply]
    ring
  have hpos : 0 < Complex.normSq (Q k) := Complex.normSq_pos.2 (hQ0 k)
  rw [Complex.inv_im, ← hΓd, ← hnq]
  change -2 * γ l * γ m * (-(Real.pi * Γ) / _) / Γ = _
  field_simp

/-! ### Success -/

/-- The routine finds the inverses that there are. -/
def Finds (inv : CMat → Option CMat) : Prop := ∀ m i : CMat, i.rows = m.cols → i.cols = m.rows →
  (∀ a < m.rows, ∀ b < m.rows, ∑ k ∈ range m.cols, m.val a k * i.val k b = if a = b then 1 else 0) → ∃ j, inv m = some j

theorem level_factor {y : Sys} {g : Grid} (hh : 0 < g.h) (h2 : 2 ≤ g.len) (hT : HermT y.T) {k : Nat} (hk : k < g.len) (e : ℝ) :
    ((e : ℂ) - ∑ l ∈ range y.v.nleads, y.T l b a * y.T l a b *
      ((y.leads g k).F l (g.x + k * g.h) + (y.leads g k).G l (g.x + k * g.h))) =
    ⟨e - Real.pi * (∑ l ∈ range y.v.nleads, Complex.normSq (y.T l b a)) * (g.t (fun _ => 1) (g.x + k * g.h)).re,
      Real.pi * ∑ l ∈ range y.v.nleads, Complex.normSq (y.T l b a)⟩ := by
  have ht : g.t (fun _ => 1) (g.x + k * g.h) = ((g.t (fun _ => 1) (g.x + k * g.h)).re : ℂ) :=
    Complex.ext rfl (by rw [Complex.ofReal_im]; exact g.t_real (fun _ => rfl) _)
  have : ∀ m ∈ range y.v.nleads, y.T m b a * y.T m a b *
      ((y.leads g k).F m (g.x + k * g.h) + (y.leads g k).G m (g.x + k * g.h)) =
        (Complex.normSq (y.T m b a) : ℂ) * (Real.pi * ((g.t (fun _ => 1) (g.x + k * g.h)).re - Complex.I)) := by
    intro m _
    rw [hT m b a, Complex.mul_conj]
    change _ * (g.F (y.occ g m) _ + g.F (fun k => 1 - y.occ g m k) _) = _
    rw [g.F_add, g.w_point hh h2 _ hk, ← ht, mul_one]
  rw [sum_congr rfl this, ← sum_mul, ← Complex.ofReal_sum]
  apply Complex.ext
  · simp; ring
  · simp; ring

/-- The states of a single level. -/
theorem level_dot {y : Sys} {lab ix1 : Nat → Nat → Nat → Nat} (ok : VOkC y.v lab ix1) (hc : y.v.ncharge = 2) (r0 : y.v.row 0 = [a])
    (r1 : y.v.row 1 = [b]) : ∃ D : Dot, D.Level a b ∧ IsDot D y.v y.E y.T := by
  have ma : a ∈ y.v.row 0 := by rw [r0]; simp
  have mb : b ∈ y.v.row 1 := by rw [r1]; simp
  have hab : a ≠ b := fun hq => by
    have := ok.disj 0 1 b (hq ▸ ma) mb
    omega
  have hrows : ∀ c m, m ∈ y.v.row c → c = 0 ∧ m = a ∨ c = 1 ∧ m = b := by
    intro c m hm
    rcases Nat.lt_or_ge c 2 with h | h
    · obtain rfl | rfl : c = 0 ∨ c = 1 := by omega
      · rw [r0] at hm; exact Or.inl ⟨rfl, by simpa using hm⟩
      · rw [r1] at hm; exact Or.inr ⟨rfl, by simpa using hm⟩
    · rw [ok.last c (by omega)] at hm
      simp at hm
  refine ⟨⟨{a, b}, fun m => if m = b then 1 else 0, y.E, y.v.nleads, y.T⟩, ⟨hab, rfl, if_neg hab, if_pos rfl⟩,
    fun m => ?_, fun c m hm => ?_, rfl, rfl, rfl⟩
  · show m ∈ ({a, b} : Finset Nat) ↔ _
    rw [mem_insert, mem_singleton]
    constructor
    · rintro (rfl | rfl)
      exacts [⟨0, ma⟩, ⟨1, mb⟩]
    · rintro ⟨c, hm⟩
      rcases hrows c m hm with ⟨_, h⟩ | ⟨_, h⟩
      exacts [Or.inl h, Or.inr h]
  · rcases hrows c m hm with ⟨rfl, rfl⟩ | ⟨rfl, rfl⟩
    exacts [if_neg hab, if_pos rfl]

theorem level_zeroth {inv : CMat → Option CMat} (hi : IsInverse inv) (hf : Finds inv) {y : Sys} {lab ix1 : Nat → Nat → Nat → Nat}
    (ok : VOkC y.v lab ix1) (hT : HermT y.T) (hc : y.v.ncharge = 2) (r0 : y.v.row 0 = [a]) (r1 : y.v.row 1 = [b]) (hm : y.v.ndm1 = 1)
    (hγ : ∃ l < y.v.nleads, y.T l b a ≠ 0) {g : Grid} (hh : 0 < g.h) (h2 : 2 ≤ g.len) {t : Terms} (A : TermsAt t y g) :
    ∃ r, t.zeroth inv g.len = .ok r := by
  obtain ⟨D, lev, hD⟩ := level_dot ok hc r0 r1
  have ma : a ∈ y.v.row 0 := by rw [r0]; simp
  have mb : b ∈ y.v.row (0 + 1) := by rw [r1]; simp
  have key : ∀ k < g.len, ∀ l < t.v.nleads, ∃ r, t.phi1kLocal inv k l = .ok r := by
    intro k hk l hl
    rw [A.v] at hl
    obtain ⟨m, m1, m2, m3, m4, m5, m6⟩ := localKern_ok A ok hk hl
    rw [hm] at m2 m3 m4 m6
    have i0 : ix1 0 b a = 0 := by
      have := ok.ix1_lt 0 b a mb ma
      omega
    have hv : m.1.val 0 0 ≠ 0 := by
      have := (m6 0 b a mb ma (fun _ => 1)).1
      rw [sum_range_one, i0, mul_one] at this
      rw [this]
      have hD' := A.dot hD
      have ma' : a ∈ t.v.row 0 := by rw [A.v]; exact ma
      have mb' : b ∈ t.v.row (0 + 1) := by rw [A.v]; exact mb
      rw [locSum_eq hD' (by rw [A.v]; exact ok) (y.leads g k) _ (firstMx_first (ix1 := ix1) fun _ => 1) (fun _ => 1)
        (fun q c b hc hb => firstMx_val hD' _ hc hb) mb' ma', level_local lev _ _ (firstMx_first _), firstMx_val hD' _ mb' ma', mul_one,
        mul_one, hD.T, hD.nleads, level_factor hh h2 hT hk]
      intro hz
      have h0 : Real.pi * ∑ l ∈ range y.v.nleads, Complex.normSq (y.T l b a) = 0 := congrArg Complex.im hz
      obtain ⟨n, hn, hn'⟩ := hγ
      have : 0 < ∑ l ∈ range y.v.nleads, Complex.normSq (y.T l b a) :=
        sum_pos' (fun _ _ => Complex.normSq_nonneg _) ⟨n, mem_range.2 hn, Complex.normSq_pos.2 hn'⟩
      have := mul_pos Real.pi_pos this
      linarith
    obtain ⟨i, hi'⟩ := hf m.1 ⟨1, 1, fun _ _ => (m.1.val 0 0)⁻¹⟩ m3.symm m2.symm (by
      intro p hp q hq
      rw [m2] at hp hq
      obtain rfl : p = 0 := by omega
      obtain rfl : q = 0 := by omega
      rw [m3, sum_range_one, if_pos rfl]
      exact mul_inv_cancel₀ hv)
    obtain ⟨s1, s2, _⟩ := hi _ _ hi'
    unfold Terms.phi1kLocal CMat.mul
    rw [m1, py_bind_ok, hi']
    dsimp only
    rw [if_pos (by rw [s2, m2, m4])]
    exact ⟨_, rfl⟩
  obtain ⟨r, hr⟩ := table_ok (z := (CMat.zeros t.v.ndm1 t.v.ndm0, CMat.zeros t.v.ndm1 t.v.ndm1)) key
  unfold Terms.zeroth
  dsimp only
  rw [hr]
  exact ⟨_, rfl⟩

theorem extended_eq {v : View} {lab ix1 : Nat → Nat → Nat → Nat} (h : VOkC v lab ix1) (E : Nat → ℝ) {lo hi : ℝ} (hd : lo < hi) {n : Nat}
    (hn : 2 ≤ n) (fct : ℝ) : ∃ g : Grid, 0 < g.h ∧ g.len = n ∧ linspace lo hi n = g.list ∧
      extended v E lo hi n fct = .ok (g.ext.grid, g.left, g.right) := by
  obtain ⟨L, hL⟩ : ∃ L, emList v E lo hi = .ok L := ⟨_, emList_ok h _ _ _⟩
  have hr := gridExt_eq (emin := lmin L) (emax := lmax L) (fct := fct) hn hd
  refine ⟨⟨lo, (hi - lo) / ((n : ℝ) - 1), n, npts (fct * (lo - lmin L)) ((hi - lo) / ((n : ℝ) - 1)),
    npts (fct * (lmax L - hi)) ((hi - lo) / ((n : ℝ) - 1))⟩, ?_, rfl, by rw [linspace_eq]; rfl, ?_⟩
  · have : (2 : ℝ) ≤ n := by exact_mod_cast hn
    exact div_pos (by linarith) (by linarith)
  · unfold extended
    rw [hL, py_bind_ok, hr]
    show _ = Except.ok (uniform _ _ (n + _ + _), _, _)
    rw [Nat.add_comm n]

/-- No exception is raised if the kernels can be inverted. -/
theorem solve_ok {inv : CMat → Option CMat} {solve lstsq : CMat → CVec → Option CVec} {s : St}
    (hs : Hist (Num.of inv solve lstsq) s) {n : Nat} {lab ix1 : Nat → Nat → Nat → Nat} (ok : VOkC s.sys.v lab ix1) (hl : 0 < s.sys.v.nleads)
    (hk : s.sys.kpnt = some n) (hn : 2 ≤ n) (hb : s.sys.band.1 < s.sys.band.2) (hg : s.grid ≠ []) (ho : OptOk s.opts s.sys.v)
    (hz : ∀ g : Grid, 0 < g.h → 2 ≤ g.len → ∀ t, TermsAt t s.sys g → ∃ r, t.zeroth inv g.len = .ok r) (N : Nat) :
    ∃ s', s.solve (Num.of inv solve lstsq) true (some (N + 1)) = (s', none) := by
  have c : CtxOn (Num.of inv solve lstsq) s.sys n lab ix1 fun l x => ∃ g : Grid, 0 < g.h ∧ 2 ≤ g.len ∧ l = g.list ∧ x = g.ext := by
    refine ⟨ok, hl, hk, hn, hb, ?_, ?_⟩
    · rintro _ _ ⟨g, hh, h2, rfl, rfl⟩
      obtain ⟨t, p, t1, t2, _⟩ := terms_ok s.sys hh h2
      obtain ⟨r, hr⟩ := hz g hh h2 t t2
      refine ⟨r, ?_⟩
      show (s.sys.terms g.list g.ext >>= fun x => x.1.zeroth inv g.list.length) = _
      rw [t1, py_bind_ok, show g.list.length = g.len by simp [Grid.list]]
      exact hr
    · rintro _ _ d i ⟨g, hh, h2, rfl, rfl⟩
      obtain ⟨t, p, t1, t2, t3, t4, t5⟩ := terms_ok s.sys hh h2
      obtain ⟨d', p', hd, _⟩ := next_eq t2 ok hh h2 t3 t4 t5 d i
      refine ⟨d', ?_⟩
      show (s.sys.terms g.list g.ext >>= fun x => x.1.next x.2 g.list.length d i >>= fun y => pure y.1) = _
      rw [t1, py_bind_ok, show g.list.length = g.len by simp [Grid.list]]
      dsimp only
      rw [hd]
      rfl
  obtain ⟨s', e, _⟩ := c39_success_on hs c ho hg (fun x hx => by
    obtain ⟨g, g1, g2, g3, g4⟩ := extended_eq ok s.sys.E hb hn s.sys.extFct
    refine ⟨g, g1, by omega, g3, ?_⟩
    rw [g4] at hx
    obtain ⟨h1, h2, h3⟩ : g.ext.grid = x.grid ∧ g.left = x.left ∧ g.right = x.right := by simpa using hx
    show x = ⟨g.ext.grid, g.left, g.right⟩
    rw [h1, h2, h3]) N
  exact ⟨s', e⟩

/-- C90: for a single level that is coupled to some lead no exception is raised, whatever the parameters are and the solver does,
provided that the inverses of the (one by one) matrices are found, which always exist. -/
theorem c90_success {inv : CMat → Option CMat} (hi : IsInverse inv) (hf : Finds inv) {solve lstsq : CMat → CVec → Option CVec} {s : St}
    (hs : Hist (Num.of inv solve lstsq) s) {n : Nat} {lab ix1 : Nat → Nat → Nat → Nat} (ok : VOkC s.sys.v lab ix1)
    (hk : s.sys.kpnt = some n) (hn : 2 ≤ n) (hb : s.sys.band.1 < s.sys.band.2) (hg : s.grid ≠ []) (ho : OptOk s.opts s.sys.v)
    (hT : HermT s.sys.T) (hc : s.sys.v.ncharge = 2) (r0 : s.sys.v.row 0 = [a]) (r1 : s.sys.v.row 1 = [b]) (hm : s.sys.v.ndm1 = 1)
    (hγ : ∃ l < s.sys.v.nleads, s.sys.T l b a ≠ 0) (N : Nat) :
    ∃ s', s.solve (Num.of inv solve lstsq) true (some (N + 1)) = (s', none) := by
  have hl : 0 < s.sys.v.nleads := by obtain ⟨l, h, _⟩ := hγ; omega
  exact solve_ok hs ok hl hk hn hb hg ho (fun g hh h2 t A => level_zeroth hi hf ok hT hc r0 r1 hm hγ hh h2 A) N

/-! ### A concrete system -/

open Classical in
/-- A routine that inverts matrices. -/
def exInv (m : CMat) : Option CMat :=
  if h : ∃ i : CMat, i.rows = m.cols ∧ i.cols = m.rows ∧
      ∀ a < m.rows, ∀ b < m.rows, ∑ k ∈ range m.cols, m.val a k * i.val k b = if a = b then 1 else 0
  then some h.choose else none

theorem exInv_inverse : IsInverse exInv := by
  intro m i e
  unfold exInv at e
  split at e
  · rename_i h
    obtain rfl := Option.some.inj e
    exact h.choose_spec
  · simp at e

theorem exInv_finds : Finds exInv := by
  intro m i h1 h2 h3
  unfold exInv
  rw [dif_pos ⟨i, h1, h2, h3⟩]
  exact ⟨_, rfl⟩

/-- A level at 1 between two leads with the amplitudes 1 and 2i, seven grid points. -/
def exLevel (v : View) : Sys :=
  ⟨v, fun b => b, fun l b c => if l = 0 then 1 else if b < c then -2 * Complex.I else if c < b then 2 * Complex.I else 0,
    fun l => l, fun _ => 1, [(-5, 5), (-5, 5)], some 7, 11 / 10⟩

/-- Three iterations for the level: the hypotheses of `c89_code`, `c89_successive_partial` and `c90_success`, `c90_landauer`. -/
theorem exLevel_run (solve lstsq : CMat → CVec → Option CVec) (N : Nat) : ∃ (s s' : St) (lab ix1 : Nat → Nat → Nat → Nat),
    Hist (Num.of exInv solve lstsq) s ∧ VOkC s.sys.v lab ix1 ∧ s.sys.kpnt = some 7 ∧ s.sys.band.1 < s.sys.band.2 ∧ s.grid ≠ [] ∧
    OptOk s.opts s.sys.v ∧ s.opts.symq = true ∧ (∃ r, pyIdx s.sys.v.ndm0 s.opts.normRow = .ok r ∧ r < s.sys.v.npauli) ∧
    HermT s.sys.T ∧ s.sys.v.ncharge = 2 ∧ s.sys.v.row 0 = [0] ∧ s.sys.v.row 1 = [1] ∧ s.sys.v.ndm1 = 1 ∧ s.sys.v.nleads = 2 ∧
    s.sys.T 0 1 0 ≠ 0 ∧ s.solve (Num.of exInv solve lstsq) true (some (N + 1)) = (s', none) := by
  obtain ⟨d, _, hv, h1, h2, h3, h4, h5⟩ := viewC_example1 2
  have hn : (d.view 2).ndm0 = 2 := h3
  have hp : (d.view 2).npauli = 2 := h2
  have hc : (d.view 2).ncharge = 2 := h4
  have hm : (d.view 2).ndm1 = 1 := h5
  have r0 : (d.view 2).row 0 = [0] := by
    show d.statesdm[0]?.getD [] = _
    rw [h1]; rfl
  have r1 : (d.view 2).row 1 = [1] := by
    show d.statesdm[1]?.getD [] = _
    rw [h1]; rfl
  have hb : (exLevel (d.view 2)).band = (-5, 5) := by
    simp [Sys.band, exLevel, lmin, lmax]
  have ho : OptOk (⟨true, false, 0, some "solve", none⟩ : Opts) (d.view 2) := ⟨rfl, fun _ => by
    change -((d.view 2).ndm0 : Int) ≤ 0 ∧ (0 : Int) < (d.view 2).ndm0
    omega⟩
  have hT : HermT (exLevel (d.view 2)).T := by
    intro l b c
    show (if _ then _ else _) = (starRingEnd ℂ) (if _ then _ else _)
    split
    · simp
    · rcases lt_trichotomy b c with h | h | h
      · rw [if_neg (by omega), if_pos h, if_pos h]
        simp
        exact (map_ofNat (starRingEnd ℂ) 2).symm
      · subst h
        simp
      · rw [if_pos h, if_neg (by omega), if_pos h]
        simp
        exact (map_ofNat (starRingEnd ℂ) 2).symm
  have ht : (exLevel (d.view 2)).T 0 1 0 ≠ 0 := by simp [exLevel]
  have hi : Hist (Num.of exInv solve lstsq) (.fresh ⟨true, false, 0, some "solve", none⟩ (exLevel (d.view 2))) := .new _ _
  obtain ⟨s', e⟩ := c90_success exInv_inverse exInv_finds hi hv rfl (by norm_num) (by show (exLevel _).band.1 < (exLevel _).band.2; rw [hb]; norm_num) (by simp [St.fresh]) ho
    hT hc r0 r1 hm ⟨0, by show 0 < (d.view 2).nleads; exact Nat.succ_pos 1, ht⟩ N
  refine ⟨_, s', _, _, hi, hv, rfl, ?_, by simp [St.fresh], ho, rfl, ⟨0, ?_, ?_⟩, hT, hc, r0, r1, hm, rfl, ht, e⟩
  · show (exLevel _).band.1 < (exLevel _).band.2
    rw [hb]; norm_num
  · show pyIdx (d.view 2).ndm0 0 = _
    rw [hn]; rfl
  · show 0 < (d.view 2).npauli
    omega

end VN2

end

end Verif
