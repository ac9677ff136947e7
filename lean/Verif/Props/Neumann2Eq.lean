import Verif.Lemmas.Neumann2Eq
import Verif.Props.Neumann2Run

/-!
C89: the iterations of the 2vN approach are the successive approximations to the solution of its integral equation.
-/

namespace Verif

open Finset

noncomputable section

namespace VN2

/-! ### Linearity of the sums -/

theorem add_lin {x y z x' y' z' α : ℂ} (h : x = y * α + z) (h' : x' = y' * α + z') : x + x' = (y + y') * α + (z + z') := by
  rw [h, h']; ring

theorem sum3_lin {A B C : Finset Nat} {f f1 f2 : Nat → Nat → Nat → ℂ} {α : ℂ} (h : ∀ a b c, f a b c = f1 a b c * α + f2 a b c) :
    ∑ a ∈ A, ∑ b ∈ B, ∑ c ∈ C, f a b c = (∑ a ∈ A, ∑ b ∈ B, ∑ c ∈ C, f1 a b c) * α + ∑ a ∈ A, ∑ b ∈ B, ∑ c ∈ C, f2 a b c := by
  simp only [h, sum_add_distrib, sum_mul]

theorem itrSum_lin (s : Terms) (ix1 : Nat → Nat → Nat → Nat) (U V U' V' : Nat → Nat → ℝ → ℂ) (α : ℂ) (Ek : ℝ) (l : Nat) (fp fm : ℂ)
    (q c b : Nat) : itrSum s ix1 (fun l cb E => U l cb E * α + U' l cb E) (fun l cb E => V l cb E * α + V' l cb E) Ek l fp fm q c b =
      itrSum s ix1 U V Ek l fp fm q c b * α + itrSum s ix1 U' V' Ek l fp fm q c b := by
  unfold itrSum
  refine add_lin (add_lin (add_lin (add_lin (add_lin (add_lin (sum3_lin ?_) (sum3_lin ?_)) (sum3_lin ?_)) (sum3_lin ?_))
    (sum3_lin ?_)) (sum3_lin ?_)) (sum3_lin ?_) <;> intros <;> ring

theorem itrSum_zero (s : Terms) (ix1 : Nat → Nat → Nat → Nat) (Ek : ℝ) (l : Nat) (fp fm : ℂ) (q c b : Nat) :
    itrSum s ix1 (fun _ _ _ => 0) (fun _ _ _ => 0) Ek l fp fm q c b = 0 := by
  simp [itrSum]

theorem itrSum_sum {ι : Type} (s : Terms) (ix1 : Nat → Nat → Nat → Nat) (P : Finset ι) (U V : ι → Nat → Nat → ℝ → ℂ) (α : ι → ℂ)
    (Ek : ℝ) (l : Nat) (fp fm : ℂ) (q c b : Nat) :
    itrSum s ix1 (fun l cb E => ∑ p ∈ P, U p l cb E * α p) (fun l cb E => ∑ p ∈ P, V p l cb E * α p) Ek l fp fm q c b =
      ∑ p ∈ P, itrSum s ix1 (U p) (V p) Ek l fp fm q c b * α p := by
  classical
  induction P using Finset.induction_on with
  | empty => simp only [sum_empty, itrSum_zero]
  | insert i P hi ih =>
    simp only [sum_insert hi]
    rw [itrSum_lin, ih]

/-! ### One grid point -/

theorem mul_inv {n n0 : Nat} {K I : Nat → Nat → ℂ} (h : ∀ a < n, ∀ b < n, ∑ k ∈ range n, K a k * I k b = if a = b then 1 else 0)
    (M : Nat → Nat → ℂ) (x : Nat → ℂ) {r : Nat} (hr : r < n) :
    ∑ a ∈ range n, K r a * ∑ j ∈ range n0, (∑ b ∈ range n, I a b * M b j) * x j = ∑ j ∈ range n0, M r j * x j := by
  calc ∑ a ∈ range n, K r a * ∑ j ∈ range n0, (∑ b ∈ range n, I a b * M b j) * x j
      = ∑ j ∈ range n0, (∑ b ∈ range n, (∑ a ∈ range n, K r a * I a b) * M b j) * x j := by
        simp only [mul_sum, sum_mul]
        rw [sum_comm]
        refine sum_congr rfl fun j _ => ?_
        rw [sum_comm]
        exact sum_congr rfl fun b _ => sum_congr rfl fun a _ => by ring
    _ = _ := by
        refine sum_congr rfl fun j _ => ?_
        rw [sum_congr rfl fun b hb => by rw [h r hr b (mem_range.1 hb)]]
        simp [hr]

section

variable {s : Terms} {y : Sys} {g : Grid} {lab ix1 : Nat → Nat → Nat → Nat} {D : Dot}

/-- The stored inverse belongs to the equations. -/
def InvAt (s : Terms) (y : Sys) (g : Grid) (ix1 : Nat → Nat → Nat → Nat) (i1 : C4) (k l : Nat) : Prop :=
  ∃ K : Nat → Nat → ℂ, (∀ a < y.v.ndm1, ∀ b < y.v.ndm1, ∑ m ∈ range y.v.ndm1, K a m * i1 k l m b = if a = b then 1 else 0) ∧
    ∀ q c b, c ∈ y.v.row (q + 1) → b ∈ y.v.row q → ∀ x : Nat → ℂ, ∑ j ∈ range y.v.ndm1, K (ix1 q c b) j * x j =
      locSum s ix1 (y.leads g k).F (y.leads g k).G (g.x + k * g.h) x q c b

theorem bind_split {α β : Type} {m : Py α} {f : α → Py β} {r : β} (h : (m >>= f) = .ok r) : ∃ x, m = .ok x ∧ f x = .ok r := by
  rcases m with e | x
  · exact absurd h (by simp [bind, Except.bind])
  · exact ⟨x, rfl, h⟩

theorem zeroth_eq (a : TermsAt s y g) (h : VOkC y.v lab ix1) {inv : CMat → Option CMat} (hi : IsInverse inv) {d i1 : C4}
    (hz : s.zeroth inv g.len = .ok (d, i1)) {k l : Nat} (hk : k < g.len) (hl : l < y.v.nleads) :
    InvAt s y g ix1 i1 k l ∧ ∀ q c b, c ∈ y.v.row (q + 1) → b ∈ y.v.row q → ∀ x : Nat → ℂ,
      locSum s ix1 (y.leads g k).F (y.leads g k).G (g.x + k * g.h) (fun cb => ∑ j ∈ range y.v.ndm0, d k l cb j * x j) q c b =
        srcSum s lab l (y.occ g l k) (1 - y.occ g l k) x q c b := by
  unfold Terms.zeroth at hz
  obtain ⟨t, ht, hz⟩ := bind_split hz
  obtain ⟨rfl, rfl⟩ := Prod.mk.inj (Except.ok.inj hz)
  have e := table_get ht hk (by rwa [a.v])
  obtain ⟨m, m1, m2, m3, m4, m5, m6⟩ := localKern_ok a h hk hl
  unfold Terms.phi1kLocal at e
  rw [m1, py_bind_ok] at e
  rcases hm : inv m.1 with _ | i
  · rw [hm] at e; exact absurd e (by simp)
  · rw [hm] at e
    obtain ⟨g1, g2, g3⟩ := hi _ _ hm
    rw [m2, m3] at g3
    dsimp only at e
    unfold CMat.mul at e
    rw [if_pos (by rw [g2, m2, m4])] at e
    have e := Except.ok.inj e
    refine ⟨⟨m.1.val, ?_, fun q c b hc hb x => (m6 q c b hc hb x).1⟩, ?_⟩
    · dsimp only
      rw [← e]; exact g3
    · intro q c b hc hb x
      rw [← (m6 q c b hc hb _).1, ← (m6 q c b hc hb x).2]
      dsimp only
      rw [← e]
      dsimp only
      rw [g2, m2]
      exact mul_inv g3 _ _ (h.ix1_lt q c b hc hb)

theorem next_eq (a : TermsAt s y g) (h : VOkC y.v lab ix1) (hh : 0 < g.h) (h2 : 2 ≤ g.len) {p : HtPars} (hp : p.Made)
    (p1 : p.left = g.left) (p2 : p.right = g.right) (d i1 : C4) :
    ∃ d' p', s.next p g.len d i1 = .ok (d', p') ∧ ∀ k < g.len, ∀ l < y.v.nleads, InvAt s y g ix1 i1 k l →
      ∀ q c b, c ∈ y.v.row (q + 1) → b ∈ y.v.row q → ∀ x : Nat → ℂ,
        locSum s ix1 (y.leads g k).F (y.leads g k).G (g.x + k * g.h) (fun cb => ∑ j ∈ range y.v.ndm0, d' k l cb j * x j) q c b =
          ∑ j ∈ range y.v.ndm0, itrSum s ix1 (advU (lineW g d) (lineT g d) j) (advV (lineW g d) (lineT g d) j) (g.x + k * g.h) l
            (y.occ g l k) (1 - y.occ g l k) q c b * x j := by
  obtain ⟨phi, hphi, p', e, ho⟩ := old_ok a hh h2 hp p1 p2 d
  have key : ∀ k < g.len, ∀ l < y.v.nleads, ∃ m, s.phi1kIterate ⟨s.v.ndm1, s.v.ndm1, i1 k l⟩ ⟨s.unflat phi, s.unflat hphi⟩ k l = .ok m ∧
      (InvAt s y g ix1 i1 k l → ∀ q c b, c ∈ y.v.row (q + 1) → b ∈ y.v.row q → ∀ x : Nat → ℂ,
        locSum s ix1 (y.leads g k).F (y.leads g k).G (g.x + k * g.h) (fun cb => ∑ j ∈ range y.v.ndm0, m.val cb j * x j) q c b =
          ∑ j ∈ range y.v.ndm0, itrSum s ix1 (advU (lineW g d) (lineT g d) j) (advV (lineW g d) (lineT g d) j) (g.x + k * g.h) l
            (y.occ g l k) (1 - y.occ g l k) q c b * x j) := by
    intro k hk l hl
    obtain ⟨m, m1, m2, m3, m4⟩ := iterKern_ok a h ho hk hl
    refine ⟨⟨s.v.ndm1, m.cols, fun i j => ∑ b ∈ range s.v.ndm1, i1 k l i b * m.val b j⟩, ?_, ?_⟩
    · unfold Terms.phi1kIterate
      rw [m1, py_bind_ok]
      unfold CMat.mul
      rw [if_pos (by rw [m2, a.v])]
      rfl
    · rintro ⟨K, k1, k2⟩ q c b hc hb x
      rw [← k2 q c b hc hb]
      dsimp only
      rw [a.v, mul_inv k1 _ _ (h.ix1_lt q c b hc hb)]
      exact sum_congr rfl fun j hj => by rw [m4 q c b hc hb j (mem_range.1 hj)]
  obtain ⟨t, ht⟩ := table_ok (s := s) (len := g.len) (z := CMat.zeros s.v.ndm1 s.v.ndm0) fun k hk l hl => by
    obtain ⟨m, hm, _⟩ := key k hk l (by rwa [← a.v])
    exact ⟨m, hm⟩
  refine ⟨fun k l => (t k l).val, p', ?_, ?_⟩
  · unfold Terms.next
    rw [e]
    simp only [py_bind_ok]
    rw [ht]
    rfl
  · intro k hk l hl hK
    obtain ⟨m, hm, hm'⟩ := key k hk l hl
    obtain rfl := Except.ok.inj (hm.symm.trans (table_get ht hk (by rwa [a.v])))
    exact hm' hK

/-! ### The equation in terms of matrices -/

/-- The matrix of first order elements. -/
def firstMx (D : Dot) (ix1 : Nat → Nat → Nat → Nat) (x : Nat → ℂ) : Mx := fun c b =>
  if D.charge c = D.charge b + 1 then x (ix1 (D.charge b) c b) else 0

/-- The density matrix. -/
def zerothMx (D : Dot) (lab : Nat → Nat → Nat → Nat) (φ : Nat → ℂ) : Mx := fun b bp =>
  if D.charge b = D.charge bp then φ (lab (D.charge b) b bp) else 0

theorem firstMx_first (x : Nat → ℂ) : First D (firstMx D ix1 x) := fun _ _ h => if_neg h

theorem firstMx_val (d : IsDot D s.v s.E s.T) (x : Nat → ℂ) {q c b : Nat} (hc : c ∈ s.v.row (q + 1)) (hb : b ∈ s.v.row q) :
    firstMx D ix1 x c b = x (ix1 q c b) := by
  unfold firstMx
  rw [d.charge _ _ hc, d.charge _ _ hb, if_pos rfl]

theorem srcSum_eq (d : IsDot D s.v s.E s.T) (h : VOkC s.v lab ix1) (A : Dot.Leads) (l : Nat) (φ : Nat → ℂ) {q c b : Nat}
    (hc : c ∈ s.v.row (q + 1)) (hb : b ∈ s.v.row q) :
    srcSum s lab l (A.f l) (1 - A.f l) φ q c b = D.source A l (zerothMx D lab φ) c b := by
  unfold srcSum Dot.source Dot.mix
  rw [d.T, sum_add_distrib, ← d.sum_charge h, ← d.sum_charge h]
  have cc := d.charge _ _ hc
  have cb := d.charge _ _ hb
  congr 1
  · refine sum_congr rfl fun u _ => ?_
    unfold zerothMx
    rw [cb]
    by_cases hu : D.charge u = q
    · rw [if_pos hu, if_pos hu, hu]; ring
    · rw [if_neg hu, if_neg hu]; ring
  · refine sum_congr rfl fun u _ => ?_
    unfold zerothMx
    rw [cc]
    by_cases hu : D.charge u = q + 1
    · rw [if_pos hu, if_pos hu.symm]; ring
    · rw [if_neg hu, if_neg (Ne.symm hu)]; ring

theorem TermsAt.dot (a : TermsAt s y g) (d : IsDot D y.v y.E y.T) : IsDot D s.v s.E s.T := by
  rw [a.v, a.E, a.T]; exact d

/-! ### All iterations -/

/-- The sum of the first `n + 1` arrays applied to the density matrix. -/
def sumX (y : Sys) (d : Nat → C4) (φ : Nat → ℂ) (n k l cb : Nat) : ℂ :=
  ∑ p ∈ range (n + 1) ×ˢ range y.v.ndm0, d p.1 k l cb p.2 * φ p.2

theorem sumX_zero (d : Nat → C4) (φ : Nat → ℂ) (k l cb : Nat) : sumX y d φ 0 k l cb = ∑ j ∈ range y.v.ndm0, d 0 k l cb j * φ j := by
  unfold sumX
  rw [sum_product]
  simp

theorem sumX_succ (d : Nat → C4) (φ : Nat → ℂ) (n k l cb : Nat) :
    sumX y d φ (n + 1) k l cb = sumX y d φ n k l cb + ∑ j ∈ range y.v.ndm0, d (n + 1) k l cb j * φ j := by
  unfold sumX
  rw [sum_product, sum_product, sum_range_succ]

/-- The transform of the sum. -/
def sumV (g : Grid) (y : Sys) (d : Nat → C4) (φ : Nat → ℂ) (n l cb : Nat) (E : ℝ) : ℂ :=
  Real.pi * (g.t (fun k => sumX y d φ n k l cb) E + Complex.I * g.w (fun k => sumX y d φ n k l cb) E)

theorem sumV_eq (d : Nat → C4) (φ : Nat → ℂ) (n l cb : Nat) (E : ℝ) : sumV g y d φ n l cb E =
    ∑ p ∈ range (n + 1) ×ˢ range y.v.ndm0, advV (lineW g (d p.1)) (lineT g (d p.1)) p.2 l cb E * φ p.2 := by
  unfold sumV sumX
  rw [g.w_sum (range (n + 1) ×ˢ range y.v.ndm0) (fun p k => d p.1 k l cb p.2) (fun p => φ p.2),
    g.t_sum (range (n + 1) ×ˢ range y.v.ndm0) (fun p k => d p.1 k l cb p.2) (fun p => φ p.2), mul_sum, ← sum_add_distrib, mul_sum]
  refine sum_congr rfl fun p _ => ?_
  unfold advV lineW lineT
  ring

theorem sumU_eq (d : Nat → C4) (φ : Nat → ℂ) (n l cb : Nat) (E : ℝ) :
    (starRingEnd ℂ) (sumV g y d (fun j => (starRingEnd ℂ) (φ j)) n l cb E) =
    ∑ p ∈ range (n + 1) ×ˢ range y.v.ndm0, advU (lineW g (d p.1)) (lineT g (d p.1)) p.2 l cb E * φ p.2 := by
  rw [sumV_eq, map_sum]
  refine sum_congr rfl fun p _ => ?_
  unfold advU advV
  simp only [map_mul, map_add, Complex.conj_I, Complex.conj_conj, Complex.conj_ofReal]
  ring

/-- The sums of the arrays obey the equations. -/
theorem sums_eq (a : TermsAt s y g) (h : VOkC y.v lab ix1) (hh : 0 < g.h) (h2 : 2 ≤ g.len) {p : HtPars} (hp : p.Made)
    (p1 : p.left = g.left) (p2 : p.right = g.right) {inv : CMat → Option CMat} (hi : IsInverse inv) {d : Nat → C4} {i1 : C4} {n : Nat}
    (d0 : s.zeroth inv g.len = .ok (d 0, i1)) (dn : ∀ i < n, ∃ p', s.next p g.len (d i) i1 = .ok (d (i + 1), p')) (φ : Nat → ℂ)
    {k l : Nat} (hk : k < g.len) (hl : l < y.v.nleads) {q c b : Nat} (hc : c ∈ y.v.row (q + 1)) (hb : b ∈ y.v.row q) :
    locSum s ix1 (y.leads g k).F (y.leads g k).G (g.x + k * g.h) (sumX y d φ 0 k l) q c b =
        srcSum s lab l (y.occ g l k) (1 - y.occ g l k) φ q c b ∧
    ∀ i < n, locSum s ix1 (y.leads g k).F (y.leads g k).G (g.x + k * g.h) (sumX y d φ (i + 1) k l) q c b =
      srcSum s lab l (y.occ g l k) (1 - y.occ g l k) φ q c b +
        itrSum s ix1 (fun l cb E => (starRingEnd ℂ) (sumV g y d (fun j => (starRingEnd ℂ) (φ j)) i l cb E)) (sumV g y d φ i)
          (g.x + k * g.h) l (y.occ g l k) (1 - y.occ g l k) q c b := by
  obtain ⟨hK, hz⟩ := zeroth_eq a h hi d0 hk hl
  obtain ⟨K, _, k2⟩ := id hK
  have e0 : locSum s ix1 (y.leads g k).F (y.leads g k).G (g.x + k * g.h) (sumX y d φ 0 k l) q c b =
        srcSum s lab l (y.occ g l k) (1 - y.occ g l k) φ q c b := by
    rw [← hz q c b hc hb φ]
    exact congrArg (fun x => locSum s ix1 (y.leads g k).F (y.leads g k).G (g.x + k * g.h) x q c b) (funext fun cb => sumX_zero d φ k l cb)
  refine ⟨e0, ?_⟩
  have step : ∀ i < n, locSum s ix1 (y.leads g k).F (y.leads g k).G (g.x + k * g.h) (fun cb => ∑ j ∈ range y.v.ndm0, d (i + 1) k l cb j * φ j) q c b =
      ∑ j ∈ range y.v.ndm0, itrSum s ix1 (advU (lineW g (d i)) (lineT g (d i)) j) (advV (lineW g (d i)) (lineT g (d i)) j) (g.x + k * g.h) l
            (y.occ g l k) (1 - y.occ g l k) q c b * φ j := by
    intro i hin
    obtain ⟨p', hp'⟩ := dn i hin
    obtain ⟨d', p'', e, hd'⟩ := next_eq a h hh h2 hp p1 p2 (d i) i1
    obtain ⟨rfl, rfl⟩ := Prod.mk.inj (Except.ok.inj (hp'.symm.trans e))
    exact hd' k hk l hl hK q c b hc hb φ
  have lin : ∀ x x' : Nat → ℂ, locSum s ix1 (y.leads g k).F (y.leads g k).G (g.x + k * g.h) (fun cb => x cb + x' cb) q c b =
      locSum s ix1 (y.leads g k).F (y.leads g k).G (g.x + k * g.h) x q c b + locSum s ix1 (y.leads g k).F (y.leads g k).G (g.x + k * g.h) x' q c b := by
    intro x x'
    rw [← k2 q c b hc hb, ← k2 q c b hc hb, ← k2 q c b hc hb, ← sum_add_distrib]
    exact sum_congr rfl fun j _ => by ring
  have expand : ∀ i, itrSum s ix1 (fun l cb E => (starRingEnd ℂ) (sumV g y d (fun j => (starRingEnd ℂ) (φ j)) i l cb E)) (sumV g y d φ i)
          (g.x + k * g.h) l (y.occ g l k) (1 - y.occ g l k) q c b =
      ∑ m ∈ range (i + 1), ∑ j ∈ range y.v.ndm0, itrSum s ix1 (advU (lineW g (d m)) (lineT g (d m)) j)
        (advV (lineW g (d m)) (lineT g (d m)) j) (g.x + k * g.h) l (y.occ g l k) (1 - y.occ g l k) q c b * φ j := by
    intro i
    rw [← sum_product']
    rw [← itrSum_sum s ix1 _ (fun p : Nat × Nat => advU (lineW g (d p.1)) (lineT g (d p.1)) p.2)
      (fun p : Nat × Nat => advV (lineW g (d p.1)) (lineT g (d p.1)) p.2) (fun p => φ p.2)]
    congr 1
    · funext l cb E
      exact sumU_eq d φ i l cb E
    · funext l cb E
      exact sumV_eq d φ i l cb E
  intro i
  induction i with
  | zero =>
    intro hin
    rw [show sumX y d φ (0 + 1) k l = fun cb => sumX y d φ 0 k l cb + ∑ j ∈ range y.v.ndm0, d (0 + 1) k l cb j * φ j from
      funext fun cb => sumX_succ d φ 0 k l cb, lin, e0, step 0 hin, expand 0]
    simp
  | succ i ih =>
    intro hin
    rw [show sumX y d φ (i + 1 + 1) k l = fun cb => sumX y d φ (i + 1) k l cb + ∑ j ∈ range y.v.ndm0, d (i + 1 + 1) k l cb j * φ j from
      funext fun cb => sumX_succ d φ (i + 1) k l cb, lin, ih (by omega), step (i + 1) hin, expand, expand, sum_range_succ _ (i + 1)]
    ring

theorem sums_moved (hh : 0 < g.h) (hl : 0 < g.len) (D : Dot) (ix1 : Nat → Nat → Nat → Nat) (d : Nat → C4) (φ : Nat → ℂ) (i : Nat) :
    IsMoved g D (fun k l => firstMx D ix1 (sumX y d φ i k l))
      (fun l e b c => (starRingEnd ℂ) (firstMx D ix1 (fun cb => sumV g y d φ i l cb e) c b))
      (fun l e => firstMx D ix1 fun cb => sumV g y d φ i l cb e) := by
  refine ⟨fun l _ c _ b _ hq => ⟨_, _, g.pair hh hl _, ?_, ?_⟩, fun _ _ c b hn => if_neg hn, fun _ _ c b hn => ?_⟩
  · intro e
    unfold firstMx
    simp only [if_pos hq]
    rfl
  · intro e
    unfold firstMx
    simp only [if_pos hq]
    rfl
  · unfold firstMx
    rw [if_neg hn, map_zero]

theorem row_of (d : IsDot D y.v y.E y.T) {c b : Nat} (hc : c ∈ D.states) (hb : b ∈ D.states) (hq : D.charge c = D.charge b + 1) :
    c ∈ y.v.row (D.charge b + 1) ∧ b ∈ y.v.row (D.charge b) := by
  obtain ⟨p, hp⟩ := (d.states c).1 hc
  obtain ⟨r, hr⟩ := (d.states b).1 hb
  have e1 := d.charge _ _ hp
  have e2 := d.charge _ _ hr
  rw [← hq, e1, e2]
  exact ⟨hp, hr⟩

theorem zerothMx_eq (d : IsDot D y.v y.E y.T) {ρ : Mx} (h0 : ∀ m n, D.charge m ≠ D.charge n → ρ m n = 0) {φ : Nat → ℂ}
    (h1 : ∀ c b bp, b ∈ y.v.row c → bp ∈ y.v.row c → ρ b bp = φ (lab c b bp)) {m n : Nat} (hm : m ∈ D.states) (hn : n ∈ D.states) :
    zerothMx D lab φ m n = ρ m n := by
  unfold zerothMx
  by_cases h : D.charge m = D.charge n
  · rw [if_pos h]
    obtain ⟨p, hp⟩ := (d.states m).1 hm
    obtain ⟨r, hr⟩ := (d.states n).1 hn
    have e1 := d.charge _ _ hp
    have e2 := d.charge _ _ hr
    obtain rfl : p = r := by omega
    rw [e1, h1 p m n hp hr]
  · rw [if_neg h, h0 m n h]

theorem source_congr (A : Dot.Leads) (l : Nat) {ρ ρ' : Mx} (h : ∀ m ∈ D.states, ∀ n ∈ D.states, ρ m n = ρ' m n) {c b : Nat}
    (hc : c ∈ D.states) (hb : b ∈ D.states) : D.source A l ρ c b = D.source A l ρ' c b := by
  unfold Dot.source Dot.mix
  exact sum_congr rfl fun r hr => by rw [h r hr b hb, h c hc r hr]

/-- The equations for the sums. -/
theorem sums_equation (a : TermsAt s y g) (h : VOkC y.v lab ix1) (hh : 0 < g.h) (h2 : 2 ≤ g.len) {p : HtPars} (hp : p.Made)
    (p1 : p.left = g.left) (p2 : p.right = g.right) {inv : CMat → Option CMat} (hi : IsInverse inv) {d : Nat → C4} {i1 : C4} {n : Nat}
    (d0 : s.zeroth inv g.len = .ok (d 0, i1)) (dn : ∀ i < n, ∃ p', s.next p g.len (d i) i1 = .ok (d (i + 1), p'))
    (hD : IsDot D y.v y.E y.T) {ρ : Mx} (h0 : ∀ m n, D.charge m ≠ D.charge n → ρ m n = 0) {φ : Nat → ℂ}
    (h1 : ∀ c b bp, b ∈ y.v.row c → bp ∈ y.v.row c → ρ b bp = φ (lab c b bp))
    {k l : Nat} (hk : k < g.len) (hl : l < D.nleads) {c b : Nat} (hc : c ∈ D.states) (hb : b ∈ D.states) (hq : D.charge c = D.charge b + 1) :
    D.Equation (y.leads g k) (g.x + k * g.h) l ρ (firstMx D ix1 (sumX y d φ 0 k l)) (fun _ _ _ _ => 0) (fun _ _ _ _ => 0) c b ∧
    ∀ i < n, D.Equation (y.leads g k) (g.x + k * g.h) l ρ (firstMx D ix1 (sumX y d φ (i + 1) k l))
      (fun l e b c => (starRingEnd ℂ) (firstMx D ix1 (fun cb => sumV g y d (fun j => (starRingEnd ℂ) (φ j)) i l cb e) c b))
      (fun l e => firstMx D ix1 fun cb => sumV g y d φ i l cb e) c b := by
  obtain ⟨hc', hb'⟩ := row_of hD hc hb hq
  have hD' := a.dot hD
  have h' : VOkC s.v lab ix1 := by rw [a.v]; exact h
  rw [hD.nleads] at hl
  obtain ⟨e0, en⟩ := sums_eq a h hh h2 hp p1 p2 hi d0 dn φ hk hl hc' hb'
  rw [← a.v] at hc' hb' hl
  have es : srcSum s lab l (y.occ g l k) (1 - y.occ g l k) φ (D.charge b) c b = D.source (y.leads g k) l ρ c b := by
    rw [← source_congr (y.leads g k) l (fun m hm n hn => zerothMx_eq hD h0 h1 hm hn) hc hb]
    exact srcSum_eq hD' h' (y.leads g k) l φ hc' hb'
  have ec : D.E = s.E := hD'.E
  have el : ∀ x : Nat → ℂ, locSum s ix1 (y.leads g k).F (y.leads g k).G (g.x + k * g.h) x (D.charge b) c b =
      ((g.x + k * g.h - D.E c + D.E b : ℝ) : ℂ) * firstMx D ix1 x c b - D.localTerm (y.leads g k) (g.x + k * g.h) (firstMx D ix1 x) c b := by
    intro x
    rw [ec]
    exact locSum_eq hD' h' (y.leads g k) _ (firstMx_first x) x (fun q c b hc hb => firstMx_val hD' x hc hb) hc' hb'
  refine ⟨?_, fun i hin => ?_⟩
  · unfold Dot.Equation
    have z : D.nonlocalTerm (y.leads g k) (g.x + k * g.h) l (fun _ _ _ _ => 0) (fun _ _ _ _ => 0) c b = 0 := by
      simp [Dot.nonlocalTerm, Dot.anti, Dot.two, Dot.mix]
    rw [z, ← es, ← e0, el]
    ring
  · unfold Dot.Equation
    have z := itrSum_eq hD' h' (y.leads g k) (g.x + k * g.h) l
      (U := fun l e b c => (starRingEnd ℂ) (firstMx D ix1 (fun cb => sumV g y d (fun j => (starRingEnd ℂ) (φ j)) i l cb e) c b))
      (V := fun l e => firstMx D ix1 fun cb => sumV g y d φ i l cb e)
      (fun l e m n hn => by dsimp only; unfold firstMx; rw [if_neg hn, map_zero]) (fun l e => firstMx_first _)
      (fun l cb e => (starRingEnd ℂ) (sumV g y d (fun j => (starRingEnd ℂ) (φ j)) i l cb e)) (sumV g y d φ i)
      (fun l _ q c b hc hb e => by rw [firstMx_val hD' _ hc hb]) (fun l _ q c b hc hb e => by rw [firstMx_val hD' _ hc hb]) hc' hb'
    have en := en i hin
    change itrSum s ix1 _ _ _ l (y.occ g l k : ℂ) (1 - (y.occ g l k : ℂ)) _ _ _ = _ at z
    rw [← z, ← es]
    rw [el] at en
    linear_combination en

/-! ### Iterations of the object -/

/-- After `n + 1` iterations. -/
structure Run (num : Num) (y : Sys) (g : Grid) (n : Nat) (s : St) (d : Nat → C4) (i1 : C4) : Prop where
  sys : s.sys = y
  grid : s.grid = g.list
  ext : s.ext = g.ext
  zeroth : s.zeroth = false
  prepared : s.prepared = true
  changed : s.changed = false
  loc : num.loc y g.list g.ext = .ok (d 0, i1)
  itr : ∀ i < n, num.itr y g.list g.ext (d i) i1 = .ok (d (i + 1))
  delta : s.delta = some (d n)
  inv : s.inv = some i1
  phi1k : s.phi1k = some fun k l cb j => ∑ i ∈ range (n + 1), d i k l cb j
  arrs : ∃ a, s.arrs = some a ∧ phi1Phi0 g.list (fun k l cb j => ∑ i ∈ range (n + 1), d i k l cb j)
    (fun _ _ _ => 0, fun _ _ _ => 0) = .ok (a.pp, a.epp)

theorem tail_facts {num : Num} {s4 s5 s6 s7 s8 s' : St} (e5 : s4.integrate = .ok s5) (e6 : s5.genKern = .ok s6)
    (e7 : s6.solveKern num = .ok s7) (e8 : s7.genCurrent = .ok s8) (e9 : s8.record = .ok s') {a3 : Arrs} (ha : s4.arrs = some a3)
    (pp0 : a3.pp = fun _ _ _ => 0) (epp0 : a3.epp = fun _ _ _ => 0) {p d : C4} (hp : s4.phi1k = some p) (hd : s4.delta = some d) :
    s'.sys = s4.sys ∧ s'.grid = s4.grid ∧ s'.ext = s4.ext ∧ s'.zeroth = s4.zeroth ∧ s'.prepared = s4.prepared ∧ s'.changed = s4.changed ∧
    s'.delta = some d ∧ s'.inv = s4.inv ∧ s'.phi1k = some (fun k l cb j => p k l cb j + d k l cb j) ∧
    ∃ a, s'.arrs = some a ∧ phi1Phi0 s4.grid (fun k l cb j => p k l cb j + d k l cb j) (fun _ _ _ => 0, fun _ _ _ => 0) = .ok (a.pp, a.epp) := by
  unfold St.integrate at e5
  have ap : attr s4.phi1k = .ok p := by rw [hp]; rfl
  have ad : attr s4.delta = .ok d := by rw [hd]; rfl
  have aa : attr s4.arrs = .ok a3 := by rw [ha]; rfl
  rw [ap, py_bind_ok, ad, py_bind_ok, aa, py_bind_ok] at e5
  obtain ⟨r, hr, e5⟩ := bind_inv e5
  obtain rfl := Except.ok.inj e5
  obtain ⟨k, m, hk, hm, rfl⟩ := genKern_inv (a := { a3 with pp := r.1, epp := r.2 }) rfl e6
  obtain ⟨m7, b7, x7, φ7, z7, q7, rfl, _⟩ :=
    solveKern_inv (a := { a3 with pp := r.1, epp := r.2, kern := some (m, k.2) }) rfl rfl e7
  obtain ⟨evs, hevs, rfl⟩ := genCurrent_inv (a := { a3 with pp := r.1, epp := r.2, kern := some (m7, b7, k.2.2), phi0 := φ7 }) rfl e8
  have h9 := record_inv rfl e9
  subst h9
  refine ⟨rfl, rfl, rfl, rfl, rfl, rfl, hd, rfl, rfl, _, rfl, ?_⟩
  rw [pp0, epp0] at hr
  exact hr

theorem run_first {num : Num} {y : Sys} {n : Nat} {lab ix1 : Nat → Nat → Nat → Nat} (h : VOkC y.v lab ix1) (hl : 0 < y.v.nleads)
    (hk : y.kpnt = some n) (hn : 2 ≤ n) (hb : y.band.1 < y.band.2) {s s' : St} (hs : Inv s) (hy : s.sys = y) (hz : s.zeroth = true)
    (hp : s.prepared = false) (hg : s.grid ≠ []) (e : St.iteration num (s, none) = (s', none)) :
    ∃ g : Grid, g.x = y.band.1 ∧ g.h = (y.band.2 - y.band.1) / ((n : ℝ) - 1) ∧ g.len = n ∧
      extended y.v y.E y.band.1 y.band.2 n y.extFct = .ok (g.ext.grid, g.left, g.right) ∧ ∃ d i1, Run num y g 0 s' d i1 := by
  subst hy
  obtain ⟨s1, s2, s3, s4, s5, s6, s7, s8, e1, e2, e3, e4, e5, e6, e7, e8, e9⟩ := iteration_inv e
  rw [if_pos hz] at e1
  obtain rfl := Except.ok.inj ((makeGrid_ok hs (hs.zeroth hz) hg hk hn hl).symm.trans e1)
  rw [if_pos (by exact hz)] at e2
  obtain ⟨L, hL⟩ : ∃ L, emList s.sys.v s.sys.E s.sys.band.1 s.sys.band.2 = .ok L := ⟨_, emList_ok h _ _ _⟩
  have hr := gridExt_eq (emin := lmin L) (emax := lmax L) (fct := s.sys.extFct) hn hb
  obtain ⟨g, hgd⟩ : ∃ g : Grid, g = ⟨s.sys.band.1, (s.sys.band.2 - s.sys.band.1) / ((n : ℝ) - 1), n,
      npts (s.sys.extFct * (s.sys.band.1 - lmin L)) ((s.sys.band.2 - s.sys.band.1) / ((n : ℝ) - 1)),
      npts (s.sys.extFct * (lmax L - s.sys.band.2)) ((s.sys.band.2 - s.sys.band.1) / ((n : ℝ) - 1))⟩ := ⟨_, rfl⟩
  have hr' : gridExt (linspace s.sys.band.1 s.sys.band.2 n) s.sys.band.1 s.sys.band.2 (lmin L) (lmax L) s.sys.extFct =
      .ok (g.ext.grid, g.left, g.right) := by
    rw [hr, hgd]
    show _ = Except.ok (uniform _ _ (n + _ + _), _, _)
    rw [Nat.add_comm n]
  have hgl : linspace s.sys.band.1 s.sys.band.2 n = g.list := by rw [hgd, linspace_eq]; rfl
  refine ⟨g, by rw [hgd], by rw [hgd], by rw [hgd], by unfold extended; rw [hL, py_bind_ok, hr'], ?_⟩
  unfold St.extend at e2
  dsimp only at e2
  rw [hL, py_bind_ok, hr', py_bind_ok] at e2
  obtain rfl := Except.ok.inj e2
  unfold St.prepareKern at e3
  rw [if_neg (by simp [hp])] at e3
  unfold St.prepareArrays at e3
  obtain ⟨t, ht, e3⟩ := bind_inv e3
  obtain ⟨kk, hkk, ht⟩ := bind_inv ht
  dsimp only at ht
  rw [if_pos hz] at ht
  obtain rfl := Except.ok.inj ht
  obtain rfl := Except.ok.inj e3
  unfold St.iterate at e4
  rw [if_pos (by exact hz)] at e4
  obtain ⟨r, hr, e4⟩ := bind_inv e4
  obtain rfl := Except.ok.inj e4
  obtain ⟨t1, t2, t3, t4, t5, t6, t7, t8, t9, a, t10, t11⟩ := tail_facts e5 e6 e7 e8 e9 rfl rfl rfl rfl rfl
  dsimp only at hr t1 t2 t3 t4 t5 t6 t8 t11
  rw [hgl] at hr t2 t11
  refine ⟨fun _ => r.1, r.2, ⟨t1, t2, t3, t4, t5, t6, hr, fun i hi => by omega, t7, t8, ?_, a, t10, ?_⟩⟩
  · rw [t9]
    congr 1
    funext k l cb j
    simp
  · rw [← t11]
    congr 1
    funext k l cb j
    simp

theorem run_next {num : Num} {y : Sys} {g : Grid} {n : Nat} {s s' : St} {d : Nat → C4} {i1 : C4} (r : Run num y g n s d i1)
    (hs : Inv s) (e : St.iteration num (s, none) = (s', none)) : ∃ d', Run num y g (n + 1) s' d' i1 := by
  obtain ⟨s1, s2, s3, s4, s5, s6, s7, s8, e1, e2, e3, e4, e5, e6, e7, e8, e9⟩ := iteration_inv e
  rw [if_neg (by simp [r.zeroth])] at e1
  obtain rfl := Except.ok.inj e1
  rw [if_neg (by simp [r.zeroth])] at e2
  obtain rfl := Except.ok.inj e2
  obtain ⟨a3, p⟩ := prepareKern_inv hs e3
  unfold St.prepareKern at e3
  rw [if_pos (by simp [r.prepared, r.changed])] at e3
  unfold St.cleanArrays at e3
  obtain ⟨a0, ha0, e3⟩ := bind_inv e3
  obtain ⟨k0, hk0, e3⟩ := bind_inv e3
  obtain rfl := Except.ok.inj e3
  unfold St.iterate at e4
  rw [if_neg (by simp [r.zeroth])] at e4
  have ad : attr s.delta = .ok (d n) := by rw [r.delta]; rfl
  have ai : attr s.inv = .ok i1 := by rw [r.inv]; rfl
  rw [ad, py_bind_ok, ai, py_bind_ok] at e4
  obtain ⟨dn, hdn, e4⟩ := bind_inv e4
  obtain rfl := Except.ok.inj e4
  obtain ⟨t1, t2, t3, t4, t5, t6, t7, t8, t9, a, t10, t11⟩ := tail_facts e5 e6 e7 e8 e9 p.arrs p.pp p.epp r.phi1k rfl
  dsimp only at hdn t1 t2 t3 t4 t5 t6 t8 t11
  rw [r.sys, r.grid, r.ext] at hdn
  have hsum : ∀ k l cb j, ∑ i ∈ range (n + 1 + 1), (fun i => if i ≤ n then d i else dn) i k l cb j =
      ∑ i ∈ range (n + 1), d i k l cb j + dn k l cb j := by
    intro k l cb j
    rw [sum_range_succ]
    congr 1
    · exact sum_congr rfl fun i hi => by
        dsimp only
        rw [if_pos (by have := mem_range.1 hi; omega)]
    · simp
  refine ⟨fun i => if i ≤ n then d i else dn, ⟨t1.trans r.sys, t2.trans r.grid, t3.trans r.ext, t4.trans r.zeroth, t5.trans r.prepared,
    t6.trans r.changed, ?_, ?_, ?_, t8.trans r.inv, ?_, a, t10, ?_⟩⟩
  · simpa using r.loc
  · intro i hi
    rw [if_pos (by omega)]
    by_cases h : i + 1 ≤ n
    · rw [if_pos h]; exact r.itr i (by omega)
    · rw [if_neg h, show i = n by omega]
      exact hdn
  · rw [t7]; simp
  · rw [t9]
    congr 1
    funext k l cb j
    exact (hsum k l cb j).symm
  · rw [← t11, r.grid]
    congr 1
    funext k l cb j
    exact hsum k l cb j

theorem run_all {num : Num} {y : Sys} {g : Grid} {n : Nat} {s s' : St} {d : Nat → C4} {i1 : C4} (r : Run num y g n s d i1)
    (hs : Inv s) (m : Nat) (e : (St.iteration num)^[m] (s, none) = (s', none)) : ∃ d', Run num y g (n + m) s' d' i1 := by
  induction m generalizing n s d with
  | zero =>
    obtain rfl := (Prod.mk.inj e).1
    exact ⟨d, r⟩
  | succ m ih =>
    rw [Function.iterate_succ_apply] at e
    rcases h1 : St.iteration num (s, none) with ⟨t, _ | x⟩
    · rw [h1] at e
      obtain ⟨d', r'⟩ := run_next r hs h1
      have hi := inv_iteration num (r := (s, none)) hs
      rw [h1] at hi
      obtain ⟨d'', r''⟩ := ih r' hi e
      exact ⟨d'', by rw [← Nat.add_assoc, Nat.add_right_comm]; exact r''⟩
    · rw [h1, iterate_err] at e
      simp at e

/-- A restarted calculation that raises nothing. -/
theorem run_solve {inv : CMat → Option CMat} {solve lstsq : CMat → CVec → Option CVec} {s s' : St} (hs : Hist (Num.of inv solve lstsq) s)
    {n : Nat} (ok : VOkC s.sys.v lab ix1) (hl : 0 < s.sys.v.nleads) (hk : s.sys.kpnt = some n) (hn : 2 ≤ n)
    (hb : s.sys.band.1 < s.sys.band.2) (hg : s.grid ≠ []) {N : Nat}
    (e : s.solve (Num.of inv solve lstsq) true (some (N + 1)) = (s', none)) :
    ∃ g : Grid, g.x = s.sys.band.1 ∧ g.h = (s.sys.band.2 - s.sys.band.1) / ((n : ℝ) - 1) ∧ g.len = n ∧ 0 < g.h ∧
      extended s.sys.v s.sys.E s.sys.band.1 s.sys.band.2 n s.sys.extFct = .ok (g.ext.grid, g.left, g.right) ∧
      ∃ d i1, Run (Num.of inv solve lstsq) s.sys g N s' d i1 ∧ ∃ t p, TermsAt t s.sys g ∧ p.Made ∧ p.left = g.left ∧ p.right = g.right ∧
        t.zeroth inv g.len = .ok (d 0, i1) ∧ ∀ i < N, ∃ p', t.next p g.len (d i) i1 = .ok (d (i + 1), p') := by
  change (St.iteration (Num.of inv solve lstsq))^[N + 1] (s.restart, none) = _ at e
  rw [Function.iterate_succ_apply] at e
  rcases h1 : St.iteration (Num.of inv solve lstsq) (s.restart, none) with ⟨u, _ | x⟩
  · rw [h1] at e
    obtain ⟨g, g1, g2, g3, g4, d0, i1, r0⟩ := run_first (y := s.sys) ok hl hk hn hb hs.inv.restart rfl rfl rfl hg h1
    have hi := inv_iteration (Num.of inv solve lstsq) (r := (s.restart, none)) hs.inv.restart
    rw [h1] at hi
    obtain ⟨d, r⟩ := run_all r0 hi N e
    rw [Nat.zero_add] at r
    have hh : 0 < g.h := by
      rw [g2]
      have : (2 : ℝ) ≤ n := by exact_mod_cast hn
      exact div_pos (by linarith) (by linarith)
    refine ⟨g, g1, g2, g3, hh, g4, d, i1, r, ?_⟩
    obtain ⟨t, p, t1, t2, t3, t4, t5⟩ := terms_ok s.sys hh (by omega : 2 ≤ g.len)
    have len : g.list.length = g.len := by simp [Grid.list]
    refine ⟨t, p, t2, t3, t4, t5, ?_, fun i hi => ?_⟩
    · have := r.loc
      change (do
        let (s, _) ← s.sys.terms g.list g.ext
        s.zeroth inv g.list.length) = _ at this
      rw [t1, len] at this
      exact this
    · have := r.itr i hi
      change (do
        let (s, p) ← s.sys.terms g.list g.ext
        let (d, _) ← s.next p g.list.length (d i) i1
        pure d) = _ at this
      rw [t1, len] at this
      obtain ⟨⟨d', p'⟩, h, h'⟩ := bind_inv (show (t.next p g.len (d i) i1 >>= fun x => pure x.1) = .ok (d (i + 1)) from this)
      exact ⟨p', by rw [h, ← Except.ok.inj h']⟩
  · rw [h1, iterate_err] at e
    simp at e

/-- C89: what a restarted calculation with `N + 1` iterations computes, for every density matrix `ρ` (with the elements `φ`): the
matrices `X i` are built up from the transforms `V` of the previous ones and the adjoint transforms `U'` of the matrices `Y i` that
belong to the complex conjugate density matrix. -/
theorem c89_code {inv : CMat → Option CMat} (hi : IsInverse inv) {solve lstsq : CMat → CVec → Option CVec} {s s' : St}
    (hs : Hist (Num.of inv solve lstsq) s) {n : Nat} (ok : VOkC s.sys.v lab ix1) (hl : 0 < s.sys.v.nleads) (hk : s.sys.kpnt = some n)
    (hn : 2 ≤ n) (hb : s.sys.band.1 < s.sys.band.2) (hg : s.grid ≠ []) {N : Nat}
    (e : s.solve (Num.of inv solve lstsq) true (some (N + 1)) = (s', none)) (hD : IsDot D s.sys.v s.sys.E s.sys.T) :
    ∃ (g : Grid) (A : Nat → Dot.Leads) (p : C4), g.x = s.sys.band.1 ∧ g.h = (s.sys.band.2 - s.sys.band.1) / ((n : ℝ) - 1) ∧ g.len = n ∧
      s'.grid = (List.range n).map (fun k : Nat => g.x + k * g.h) ∧ s'.ext.left = g.left ∧ s'.ext.right = g.right ∧ s'.phi1k = some p ∧
      IsLeads g s.sys.v.nleads (fun l k => 1 / (Real.exp ((g.x + k * g.h - s.sys.mu l) / s.sys.temp l) + 1)) A ∧
      ∀ (ρ : Mx) (φ : Nat → ℂ), (∀ m n, D.charge m ≠ D.charge n → ρ m n = 0) →
        (∀ c b bp, b ∈ s.sys.v.row c → bp ∈ s.sys.v.row c → ρ b bp = φ (lab c b bp)) →
        ∃ X Y : Nat → Nat → Nat → Mx,
          (∀ i k l m n, D.charge m ≠ D.charge n + 1 → X i k l m n = 0 ∧ Y i k l m n = 0) ∧
          (∀ k < n, ∀ l < D.nleads, ∀ c ∈ D.states, ∀ b ∈ D.states, D.charge c = D.charge b + 1 →
            D.Equation (A k) (g.x + k * g.h) l ρ (X 0 k l) (fun _ _ _ _ => 0) (fun _ _ _ _ => 0) c b ∧
            D.Equation (A k) (g.x + k * g.h) l (fun b bp => (starRingEnd ℂ) (ρ b bp)) (Y 0 k l) (fun _ _ _ _ => 0) (fun _ _ _ _ => 0) c b) ∧
          (∀ i < N, ∃ U V U' V', IsMoved g D (X i) U V ∧ IsMoved g D (Y i) U' V' ∧ ∀ k < n, ∀ l < D.nleads, ∀ c ∈ D.states,
            ∀ b ∈ D.states, D.charge c = D.charge b + 1 → D.Equation (A k) (g.x + k * g.h) l ρ (X (i + 1) k l) U' V c b ∧
            D.Equation (A k) (g.x + k * g.h) l (fun b bp => (starRingEnd ℂ) (ρ b bp)) (Y (i + 1) k l) U V' c b) ∧
          ∀ k l q c b, c ∈ s.sys.v.row (q + 1) → b ∈ s.sys.v.row q →
            X N k l c b = ∑ j ∈ range s.sys.v.ndm0, p k l (ix1 q c b) j * φ j ∧
            Y N k l c b = ∑ j ∈ range s.sys.v.ndm0, p k l (ix1 q c b) j * (starRingEnd ℂ) (φ j) := by
  obtain ⟨g, g1, g2, g3, hh, g4, d, i1, r, t, p, a, p1, p2, p3, d0, dn⟩ := run_solve hs ok hl hk hn hb hg e
  have h2 : 2 ≤ g.len := by omega
  have val : ∀ (φ : Nat → ℂ) (k l q c b : Nat), c ∈ s.sys.v.row (q + 1) → b ∈ s.sys.v.row q →
      firstMx D ix1 (sumX s.sys d φ N k l) c b = ∑ j ∈ range s.sys.v.ndm0, (∑ i ∈ range (N + 1), d i k l (ix1 q c b) j) * φ j := by
    intro φ k l q c b hc hb
    rw [← a.v] at hc hb
    rw [firstMx_val (a.dot hD) _ hc hb]
    unfold sumX
    rw [sum_product, sum_comm]
    exact sum_congr rfl fun j _ => by rw [sum_mul]
  refine ⟨g, s.sys.leads g, _, g1, g2, g3, ?_, by rw [r.ext]; rfl, by rw [r.ext]; rfl, r.phi1k, s.sys.isLeads hh (by omega) _, ?_⟩
  · rw [r.grid, ← g3]; rfl
  intro ρ φ h0 h1
  have h0' : ∀ m n, D.charge m ≠ D.charge n → (starRingEnd ℂ) (ρ m n) = 0 := fun m n h => by rw [h0 m n h, map_zero]
  have h1' : ∀ c b bp, b ∈ s.sys.v.row c → bp ∈ s.sys.v.row c → (starRingEnd ℂ) (ρ b bp) = (starRingEnd ℂ) (φ (lab c b bp)) :=
    fun c b bp hb hbp => by rw [h1 c b bp hb hbp]
  refine ⟨fun i k l => firstMx D ix1 (sumX s.sys d φ i k l),
    fun i k l => firstMx D ix1 (sumX s.sys d (fun j => (starRingEnd ℂ) (φ j)) i k l),
    fun i k l m n h => ⟨firstMx_first _ _ _ h, firstMx_first _ _ _ h⟩, ?_, ?_, fun k l q c b hc hb =>
      ⟨val φ k l q c b hc hb, val _ k l q c b hc hb⟩⟩
  · intro k hk' l hl' c hc b hb' hq
    rw [← g3] at hk'
    exact ⟨(sums_equation a ok hh h2 p1 p2 p3 hi d0 dn hD h0 h1 hk' hl' hc hb' hq).1,
      (sums_equation a ok hh h2 p1 p2 p3 hi d0 dn hD h0' (φ := fun j => (starRingEnd ℂ) (φ j)) h1' hk' hl' hc hb' hq).1⟩
  · intro i hin
    refine ⟨_, _, _, _, sums_moved hh (by omega) D ix1 d φ i, sums_moved hh (by omega) D ix1 d _ i, ?_⟩
    intro k hk' l hl' c hc b hb' hq
    rw [← g3] at hk'
    have k1 := (sums_equation a ok hh h2 p1 p2 p3 hi d0 dn hD h0 h1 hk' hl' hc hb' hq).2 i hin
    have k2 := (sums_equation a ok hh h2 p1 p2 p3 hi d0 dn hD h0' (φ := fun j => (starRingEnd ℂ) (φ j)) h1' hk' hl' hc hb' hq).2 i hin
    simp only [Complex.conj_conj] at k2
    exact ⟨k1, k2⟩

/-- C89, for real density matrices: a restarted calculation with `N + 1` iterations gives the `N`-th successive approximation to the
solution of the integral equation. For others the adjoint is built up from the wrong matrices, see `c89_code` and `c89_false`. -/
theorem c89_successive_partial {inv : CMat → Option CMat} (hi : IsInverse inv) {solve lstsq : CMat → CVec → Option CVec} {s s' : St}
    (hs : Hist (Num.of inv solve lstsq) s) {n : Nat} (ok : VOkC s.sys.v lab ix1) (hl : 0 < s.sys.v.nleads) (hk : s.sys.kpnt = some n)
    (hn : 2 ≤ n) (hb : s.sys.band.1 < s.sys.band.2) (hg : s.grid ≠ []) {N : Nat}
    (e : s.solve (Num.of inv solve lstsq) true (some (N + 1)) = (s', none)) (hD : IsDot D s.sys.v s.sys.E s.sys.T) :
    ∃ (g : Grid) (A : Nat → Dot.Leads) (p : C4), g.x = s.sys.band.1 ∧ g.h = (s.sys.band.2 - s.sys.band.1) / ((n : ℝ) - 1) ∧ g.len = n ∧
      s'.grid = (List.range n).map (fun k : Nat => g.x + k * g.h) ∧ s'.ext.left = g.left ∧ s'.ext.right = g.right ∧ s'.phi1k = some p ∧
      IsLeads g s.sys.v.nleads (fun l k => 1 / (Real.exp ((g.x + k * g.h - s.sys.mu l) / s.sys.temp l) + 1)) A ∧
      ∀ (ρ : Mx) (φ : Nat → ℂ), (∀ m n, D.charge m ≠ D.charge n → ρ m n = 0) →
        (∀ c b bp, b ∈ s.sys.v.row c → bp ∈ s.sys.v.row c → ρ b bp = φ (lab c b bp)) → (∀ b bp, (starRingEnd ℂ) (ρ b bp) = ρ b bp) →
        ∃ X, D.Successive g A ρ N X ∧ ∀ k l q c b, c ∈ s.sys.v.row (q + 1) → b ∈ s.sys.v.row q →
          X N k l c b = ∑ j ∈ range s.sys.v.ndm0, p k l (ix1 q c b) j * φ j := by
  obtain ⟨g, g1, g2, g3, hh, g4, d, i1, r, t, p, a, p1, p2, p3, d0, dn⟩ := run_solve hs ok hl hk hn hb hg e
  have h2 : 2 ≤ g.len := by omega
  refine ⟨g, s.sys.leads g, _, g1, g2, g3, ?_, by rw [r.ext]; rfl, by rw [r.ext]; rfl, r.phi1k, s.sys.isLeads hh (by omega) _, ?_⟩
  · rw [r.grid, ← g3]; rfl
  intro ρ φ h0 h1 hr
  have hφ : ∀ j < s.sys.v.ndm0, (starRingEnd ℂ) (φ j) = φ j := by
    intro j hj
    obtain ⟨c, b, bp, hb, hbp, rfl⟩ := ok.lab_surj j hj
    rw [← h1 c b bp hb hbp, hr]
  have hX : ∀ i, (fun (l cb : Nat) (e : ℝ) => sumV g s.sys d (fun j => (starRingEnd ℂ) (φ j)) i l cb e) = fun l cb e => sumV g s.sys d φ i l cb e := by
    intro i
    funext l cb e
    rw [sumV_eq, sumV_eq]
    exact sum_congr rfl fun q hq => by rw [hφ _ (mem_range.1 (mem_product.1 hq).2)]
  refine ⟨fun i k l => firstMx D ix1 (sumX s.sys d φ i k l), ⟨fun i k l => firstMx_first _, ?_, ?_⟩, ?_⟩
  · intro k hk' l hl' c hc b hb' hq
    exact (sums_equation a ok hh h2 p1 p2 p3 hi d0 dn hD h0 h1 hk' hl' hc hb' hq).1
  · intro i hin
    refine ⟨_, _, sums_moved hh (by omega) D ix1 d φ i, ?_⟩
    intro k hk' l hl' c hc b hb' hq
    have k1 := (sums_equation a ok hh h2 p1 p2 p3 hi d0 dn hD h0 h1 hk' hl' hc hb' hq).2 i hin
    have := hX i
    simp only [funext_iff] at this
    simp only [this] at k1
    exact k1
  · intro k l q c b hc hb
    rw [← a.v] at hc hb
    dsimp only
    rw [firstMx_val (a.dot hD) _ hc hb]
    unfold sumX
    rw [sum_product, sum_comm]
    exact sum_congr rfl fun j _ => by rw [sum_mul]

end

end VN2

end

end Verif
