import Verif.Lemmas.CompiledTab
import Verif.Lemmas.Neumann2Eq
import Verif.Model.CompiledNeumann2

/-! The compiled equations of the 2vN approach are those of the Python version. -/

namespace Verif

open Finset

noncomputable section

namespace CVN2

open VN2

/-! ### Interpolation -/

theorem window_eq (grid : List ℝ) (Ek : ℝ) : window grid Ek = interpIdx grid Ek := by
  unfold window interpIdx
  rw [cGet_eq _ (by omega)]
  rcases grid with _ | ⟨x, l⟩
  · rfl
  · have e : cGet (x :: l) (((x :: l).length : Int) - 1) = pyGet (x :: l) (-1) := by
      rw [cGet_eq _ (by simp)]
      unfold pyGet
      have h1 := pyIdx_neg (len := (x :: l).length) (k := 1) (by omega) (by simp)
      rw [show (-((1 : Nat) : Int)) = -1 by rfl] at h1
      have h2 := pyIdx_ok (n := (x :: l).length) (i := ((x :: l).length : Int) - 1) (by simp) (by simp)
      rw [h1, h2]
      simp
    rw [e, cGet_eq _ (by omega)]

theorem line_eq (a b : ℝ) (fa fb : ℂ) (Ek : ℝ) : line a b fa fb Ek = lin a b fa fb Ek := by
  unfold line lin
  rw [div_eq_mul_inv, div_eq_mul_inv, div_eq_mul_inv, div_eq_mul_inv]
  ring

/-- The positions are two neighbouring ones. -/
def Win (grid : List ℝ) : Prop := ∀ Ek, interpIdx grid Ek = .ok none ∨
  ∃ i : Nat, i + 1 < grid.length ∧ interpIdx grid Ek = .ok (some ((i : Int), ((i + 1 : Nat) : Int)))

theorem win_uniform {x h : ℝ} {n : Nat} (hn : 2 ≤ n) (hh : 0 < h) : Win (uniform x h n) := by
  intro Ek
  by_cases h1 : Ek < x ∨ x + ((n : ℝ) - 1) * h < Ek
  · exact Or.inl (interpIdx_out hn h1)
  · push Not at h1
    obtain ⟨i, hi, e, _⟩ := interpIdx_in hn hh h1.1 h1.2
    exact Or.inr ⟨i, by simpa using hi, by rw [e]; rfl⟩

variable {s : Terms}

theorem fn_eq (nn : Win s.ext.grid) {hfk : List (List ℂ)} {E : ℝ} {l : Nat} {plus : Bool} {z : ℂ}
    (e : s.fn hfk E l plus = .ok z) : fn s hfk E l plus = .ok z := by
  unfold Terms.fn at e
  obtain ⟨h, hh, e⟩ := bind_inv e
  unfold func2vN interp at e
  unfold fn
  rw [window_eq]
  rcases nn E with hi | ⟨i, _, hi⟩
  · rw [hi] at e ⊢
    exact e
  · rw [hi] at e ⊢
    simp only [py_bind_ok] at e ⊢
    obtain ⟨w, e1, e⟩ := bind_inv e
    obtain ⟨b, hb, e1⟩ := bind_inv e1
    obtain ⟨a, ha, e1⟩ := bind_inv e1
    obtain ⟨fb, hfb, e1⟩ := bind_inv e1
    obtain ⟨fa, hfa, e1⟩ := bind_inv e1
    obtain rfl := Except.ok.inj e1
    rw [cGet_eq _ (by omega), cGet_eq _ (by omega), hb, ha, cGet_eq _ (by omega), hh]
    simp only [py_bind_ok]
    rw [cGet_eq _ (by omega), cGet_eq _ (by omega), hfb, hfa]
    simp only [py_bind_ok, line_eq]
    exact e

theorem mapM_map {α β γ : Type} {f : α → Py β} {g : α → Py γ} (φ : β → γ) : ∀ {l : List α} {r : List β}, l.mapM f = .ok r →
    (∀ x ∈ l, ∀ y, f x = .ok y → g x = .ok (φ y)) → l.mapM g = .ok (r.map φ) := by
  intro l
  induction l with
  | nil =>
    intro r h _
    rw [List.mapM_nil] at h
    obtain rfl := Except.ok.inj h
    rfl
  | cons a l ih =>
    intro r h hg
    rw [List.mapM_cons] at h ⊢
    obtain ⟨y, hy, h⟩ := bind_inv h
    obtain ⟨t, ht, h⟩ := bind_inv h
    obtain rfl := Except.ok.inj h
    rw [hg a (by simp) y hy, ih ht fun x hx => hg x (by simp [hx])]
    rfl

theorem mapM_len {α β : Type} {f : α → Py β} : ∀ {l : List α} {r : List β}, l.mapM f = .ok r → r.length = l.length := by
  intro l
  induction l with
  | nil =>
    intro r h
    rw [List.mapM_nil] at h
    obtain rfl := Except.ok.inj h
    rfl
  | cons a l ih =>
    intro r h
    rw [List.mapM_cons] at h
    obtain ⟨y, hy, h⟩ := bind_inv h
    obtain ⟨t, ht, h⟩ := bind_inv h
    obtain rfl := Except.ok.inj h
    simp [ih ht]

/-- The factor with which the values of `get_at_k1` enter. -/
def comb (fct : ℂ) (plus : Bool) (p : ℂ × ℂ) : ℂ := fct * (p.1 + (if plus then 1 else -1) * Complex.I * p.2)

theorem comb_zero (fct : ℂ) (plus : Bool) : comb fct plus (0, 0) = 0 := by simp [comb]

theorem getD_map_comb (fct : ℂ) (plus : Bool) (L : List (ℂ × ℂ)) (j : Nat) :
    (L.map (comb fct plus)).getD j 0 = comb fct plus (L.getD j (0, 0)) := by
  simp only [List.getD_eq_getElem?_getD, List.getElem?_map]
  rcases L[j]? with _ | x
  · simp [comb_zero]
  · simp

theorem at1_eq (nn : Win s.ext.grid) {kh : CKH} (hr : ∀ (f : Nat → Nat → Nat → List ℂ) (l k : Nat), kh.rd f l k = s.v.rd f l k)
    (h0 : kh.ndm0 = s.v.ndm0) {o : Old} {E : ℝ} {l cb : Nat} {cj : Bool} {r : Nat → ℂ × ℂ} (e : s.at1 o E l cb cj = .ok r)
    (fct : ℂ) (plus : Bool) : at1 kh s o E l cb cj fct plus = .ok fun j => comb fct plus (r j) := by
  unfold Terms.at1 at e
  obtain ⟨p, hp, e⟩ := bind_inv e
  obtain ⟨L, hL, e⟩ := bind_inv e
  obtain rfl := Except.ok.inj e
  have hcb : cb < s.v.ndm1 := by
    unfold View.rd at hp
    split at hp
    · assumption
    · simp at hp
  have hph : s.v.rd o.phi l cb = .ok (o.phi l cb) := by unfold View.rd; rw [if_pos hcb]; rfl
  have hph' : s.v.rd o.hphi l cb = .ok (o.hphi l cb) := by unfold View.rd; rw [if_pos hcb]; rfl
  unfold at1
  rw [window_eq]
  simp only [← getD_map_comb]
  rcases nn E with hi | ⟨i, hlt, hi⟩
  · rw [hi]
    simp only [py_bind_ok, py_pure, Except.ok.injEq]
    have := mapM_map (g := fun _ : Nat => (Except.ok (0 : ℂ) : Py ℂ)) (comb fct plus) hL fun x _ y hy => by
      unfold getAtK1 interp at hy
      rw [hi] at hy
      have hy : (0, 0) = y := Except.ok.inj hy
      rw [← hy, comb_zero]
    funext j
    by_cases hj : j < s.v.ndm0
    · exact Except.ok.inj (mapM_range 0 this j hj)
    · have hlen : L.length = s.v.ndm0 := by
        have := mapM_len hL
        simpa using this
      rw [List.getD_eq_getElem?_getD, List.getElem?_eq_none (by simp; omega)]
      rfl
  · rw [hi, h0]
    simp only [py_bind_ok]
    rw [cGet_nat _ hlt, cGet_nat _ (k := i) (by omega)]
    simp only [py_bind_ok, hr, hph, hph']
    have gb := pyGet_nat s.ext.grid hlt
    have ga := pyGet_nat s.ext.grid (k := i) (by omega)
    rw [mapM_map (comb fct plus) hL fun j _ y hy => ?_]
    · rfl
    · unfold getAtK1 interp at hy
      rw [hi] at hy
      simp only [py_bind_ok, ga, gb] at hy
      obtain ⟨w, e1, hy⟩ := bind_inv hy
      obtain ⟨fb, hfb, e1⟩ := bind_inv e1
      obtain ⟨fa, hfa, e1⟩ := bind_inv e1
      obtain rfl := Except.ok.inj e1
      dsimp only at hy
      obtain ⟨w, e1, hy⟩ := bind_inv hy
      obtain ⟨fb', hfb', e1⟩ := bind_inv e1
      obtain ⟨fa', hfa', e1⟩ := bind_inv e1
      obtain rfl := Except.ok.inj e1
      obtain rfl := Except.ok.inj hy
      simp only [cGet_eq _ (show (0 : Int) ≤ (i : Int) by omega), cGet_eq _ (show (0 : Int) ≤ ((i + 1 : Nat) : Int) by omega),
        hfb, hfa, hfb', hfa', py_bind_ok, line_eq, py_pure, Except.ok.injEq]
      unfold comb
      ring

theorem bind_congr2 {α β : Type} {x y : Py α} {f g : α → Py β} (h : x = y) (h' : ∀ a, f a = g a) : (x >>= f) = (y >>= g) := by
  subst h
  congr 1
  funext a
  exact h' a

/-! ### The handler -/

/-- The handler of the indexing object to which the attributes belong. -/
structure Ready (kh : CKH) (s : Terms) (d : DM) (nl : Nat) (lab ix1 : Nat → Nat → Nat → Nat) : Prop where
  of : kh.Of d nl
  v : s.v = d.view nl
  ok : VOkC s.v lab ix1
  allBa : kh.allBa = pairs1 s.v
  len : (pairs1 s.v).length = kh.ndm1
  win : Win s.ext.grid

namespace Ready

variable {kh : CKH} {d : DM} {nl : Nat} {lab ix1 : Nat → Nat → Nat → Nat} (r : Ready kh s d nl lab ix1)
include r

theorem nleads : kh.nleads = s.v.nleads := by rw [r.of.nleads, r.v]; rfl
theorem ndm0 : kh.ndm0 = s.v.ndm0 := by rw [r.of.ndm0, r.v]; rfl
theorem ndm1 : kh.ndm1 = s.v.ndm1 := by rw [r.of.ndm1, r.v]; rfl

theorem ind0 (b bp c : Nat) : kh.ind0 b bp (c : Int) = s.v.ind0 b bp (c : Int) := by rw [r.of.ind0_eq, r.v]
theorem ind0' (b bp c : Nat) : kh.ind0 b bp ((c : Int) + 1) = s.v.ind0 b bp ((c : Int) + 1) := r.ind0 b bp (c + 1)
theorem ind1 (b a c : Nat) : kh.ind1 b a (c : Int) = s.v.ind1 b a (c : Int) := by rw [r.of.ind1_eq, r.v]
theorem ind1' (b a c : Nat) : kh.ind1 b a ((c : Int) + 1) = s.v.ind1 b a ((c : Int) + 1) := r.ind1 b a (c + 1)

theorem rd (f : Nat → Nat → Nat → List ℂ) (l k : Nat) : kh.rd f l k = s.v.rd f l k := by rw [r.of.rd_eq, r.v]

theorem same {q : Nat} (hq : q ≤ s.v.ncharge) : kh.same (q : Int) = .ok (s.v.row q) := by
  have hl := r.ok.len
  rw [r.v] at hq hl ⊢
  have hl' : d.si.ncharge + 1 ≤ d.statesdm.length := hl
  have hq' : q ≤ d.si.ncharge := hq
  unfold CKH.same
  rw [r.of.count_get (by omega)]
  simp only [py_bind_ok]
  exact r.of.read_ok q

theorem upper (q : Nat) : kh.upper (q : Int) = .ok (s.v.row q) := by
  have hn : kh.ncharge = s.v.ncharge := by rw [r.of.ncharge, r.v]; rfl
  unfold CKH.upper
  split
  · exact r.same (by omega)
  · rw [r.ok.last q (by omega)]; rfl

theorem upper1 (q : Nat) : kh.upper ((q : Int) + 1) = .ok (s.v.row (q + 1)) := r.upper (q + 1)
theorem upper2 (q : Nat) : kh.upper ((q : Int) + 2) = .ok (s.v.row (q + 2)) := r.upper (q + 2)

theorem lower {q : Nat} (hq : q ≤ s.v.ncharge) : kh.lower ((q : Int) - 1) = .ok (s.v.low q) := by
  unfold CKH.lower View.low
  rcases q with _ | q
  · simp
  · have e : (((q + 1 : Nat) : Int) - 1) = (q : Int) := by omega
    rw [e, if_pos (by omega)]
    have := r.same (q := q) (by omega)
    unfold CKH.same at this
    rw [this]
    simp

theorem ind1_low {q a : Nat} (ha : a ∈ s.v.low q) (b : Nat) : kh.ind1 b a ((q : Int) - 1) = s.v.ind1 b a ((q : Int) - 1) := by
  unfold View.low at ha
  rcases q with _ | q
  · simp at ha
  · have e : (((q + 1 : Nat) : Int) - 1) = (q : Int) := by omega
    rw [e, r.ind1]

/-- The increments of `kern0`. -/
theorem src (l : Nat) (fp fm : ℂ) {q c b : Nat} (hc : c ∈ s.v.row (q + 1)) (hb : b ∈ s.v.row q) :
    CVN2.src kh s l fp fm q c b = s.src l fp fm q c b := by
  have hq := r.ok.row_lt hc
  unfold CVN2.src Terms.src
  rw [r.same (by omega), r.upper1, r.ind1, r.ok.ind1 q c b hc hb, r.ok.states (by omega), r.ok.states_succ (by omega)]
  simp only [py_bind_ok]
  simp only [r.ind0, r.ind0', mul_comm fp, ← neg_mul, mul_comm fm]

/-- The increments of `kern1`. -/
theorem loc {F G : Nat → ℝ → ℂ} (ht : TermsOk s lab ix1 F G) (Ek : ℝ) {q c b : Nat} (hc : c ∈ s.v.row (q + 1)) (hb : b ∈ s.v.row q) :
    CVN2.loc kh s Ek q c b = s.loc Ek q c b := by
  have hq := r.ok.row_lt hc
  have fp : ∀ l1 < s.v.nleads, ∀ E plus, CVN2.fn s s.hfkp E l1 plus = s.fn s.hfkp E l1 plus := fun l1 h E plus => by
    rw [ht.fnp l1 h E plus, fn_eq r.win (ht.fnp l1 h E plus)]
  have fm : ∀ l1 < s.v.nleads, ∀ E plus, CVN2.fn s s.hfkm E l1 plus = s.fn s.hfkm E l1 plus := fun l1 h E plus => by
    rw [ht.fnm l1 h E plus, fn_eq r.win (ht.fnm l1 h E plus)]
  unfold CVN2.loc Terms.loc
  rw [r.same (by omega), r.upper1, r.upper2, r.lower (by omega), r.ind1, r.ok.ind1 q c b hc hb, r.ok.states (by omega),
    r.ok.states_succ (by omega), r.ok.states_pred (by omega), states_two r.ok hc]
  simp only [py_bind_ok, collect_prod2, r.nleads]
  refine bind_congr2 (Verif.collect_congr fun b1 _ => Verif.collect_congr fun a1 ha1 => ?_) fun t27 => ?_
  · rw [r.ind1_low ha1]
    refine bind_congr2 rfl fun i => Verif.collect_congr fun l1 hl1 => ?_
    rw [fp l1 (List.mem_range.1 hl1), fp l1 (List.mem_range.1 hl1)]
  refine bind_congr2 (Verif.collect_congr fun b1 _ => ?_) fun t68 => ?_
  · rw [r.ind1]
    refine bind_congr2 rfl fun i => Verif.collect_congr fun l1 hl1 => ?_
    simp only [fp l1 (List.mem_range.1 hl1), fm l1 (List.mem_range.1 hl1), neg_mul, neg_neg]
  refine bind_congr2 (Verif.collect_congr fun c1 _ => ?_) fun t13 => ?_
  · rw [r.ind1]
    refine bind_congr2 rfl fun i => Verif.collect_congr fun l1 hl1 => ?_
    simp only [fp l1 (List.mem_range.1 hl1), fm l1 (List.mem_range.1 hl1), neg_mul, neg_neg]
  refine bind_congr2 (Verif.collect_congr fun d1 _ => Verif.collect_congr fun c1 _ => ?_) fun t45 => rfl
  rw [r.ind1']
  refine bind_congr2 rfl fun i => Verif.collect_congr fun l1 hl1 => ?_
  rw [fm l1 (List.mem_range.1 hl1), fm l1 (List.mem_range.1 hl1)]

/-- One call of `get_at_k1`. -/
theorem at1_ok {o : Old} {W H : Nat → Nat → Nat → ℝ → ℂ} (ho : OldOk s o W H) {l cb : Nat} (hl : l < s.v.nleads)
    (hcb : cb < s.v.ndm1) (E : ℝ) (cj : Bool) : ∃ w, s.at1 o E l cb cj = .ok w ∧
      ∀ fct plus, CVN2.at1 kh s o E l cb cj fct plus = .ok fun j => comb fct plus (w j) := by
  obtain ⟨w, e, _⟩ := ho l hl cb hcb E cj
  exact ⟨w, e, fun fct plus => at1_eq r.win r.rd r.ndm0 e fct plus⟩

theorem low_ok {q a b : Nat} (ha : a ∈ s.v.low q) (hb : b ∈ s.v.row q) :
    kh.ind1 b a ((q : Int) - 1) = .ok (ix1 (q - 1) b a) ∧ s.v.ind1 b a ((q : Int) - 1) = .ok (ix1 (q - 1) b a) ∧
      ix1 (q - 1) b a < s.v.ndm1 := by
  rw [r.ind1_low ha]
  unfold View.low at ha
  rcases q with _ | q
  · simp at ha
  · have e : (((q + 1 : Nat) : Int) - 1) = (q : Int) := by omega
    simp only [Nat.add_one_sub_one] at ha ⊢
    rw [e]
    have ha' : a ∈ s.v.row q := by simpa using ha
    exact ⟨r.ok.ind1 q b a hb ha', r.ok.ind1 q b a hb ha', r.ok.ix1_lt q b a hb ha'⟩

theorem here_ok {q c b : Nat} (hc : c ∈ s.v.row (q + 1)) (hb : b ∈ s.v.row q) :
    kh.ind1 c b (q : Int) = .ok (ix1 q c b) ∧ s.v.ind1 c b (q : Int) = .ok (ix1 q c b) ∧ ix1 q c b < s.v.ndm1 := by
  rw [r.ind1]
  exact ⟨r.ok.ind1 q c b hc hb, r.ok.ind1 q c b hc hb, r.ok.ix1_lt q c b hc hb⟩

theorem up_ok {q d1 c : Nat} (hd : d1 ∈ s.v.row (q + 2)) (hc : c ∈ s.v.row (q + 1)) :
    kh.ind1 d1 c ((q : Int) + 1) = .ok (ix1 (q + 1) d1 c) ∧ s.v.ind1 d1 c ((q : Int) + 1) = .ok (ix1 (q + 1) d1 c) ∧
      ix1 (q + 1) d1 c < s.v.ndm1 := r.here_ok (q := q + 1) hd hc

/-- The increments of `term`. -/
theorem itr {o : Old} {W H : Nat → Nat → Nat → ℝ → ℂ} (ho : OldOk s o W H) (Ek : ℝ) (l : Nat) (fp fm : ℂ) {q c b : Nat}
    (hc : c ∈ s.v.row (q + 1)) (hb : b ∈ s.v.row q) :
    CVN2.itr kh s o Ek l fp fm q c b = s.itr o Ek l fp fm q c b := by
  have hq := r.ok.row_lt hc
  unfold CVN2.itr Terms.itr
  rw [r.same (by omega), r.upper1, r.upper2, r.lower (by omega), r.ok.states (by omega),
    r.ok.states_succ (by omega), r.ok.states_pred (by omega), states_two r.ok hc]
  simp only [py_bind_ok, collect_prod2, r.nleads]
  refine bind_congr2 (Verif.collect_congr fun a1 ha => ?_) fun t1 => ?_
  · obtain ⟨i1, i2, i3⟩ := r.low_ok ha hb
    rw [i1, i2]
    simp only [py_bind_ok]
    refine Verif.collect_congr fun b1 _ => Verif.collect_congr fun l1 hl1 => ?_
    obtain ⟨w, e1, e2⟩ := r.at1_ok ho (List.mem_range.1 hl1) i3 (Ek - s.E b1 + s.E b) true
    rw [e1, e2]
    simp only [py_bind_ok, comb, py_pure, Except.ok.injEq, List.cons.injEq, and_true]
    funext j
    simp only [Bool.false_eq_true, if_false]
    ring
  refine bind_congr2 (Verif.collect_congr fun b1 hb1 => Verif.collect_congr fun c1 hc1 => ?_) fun t25 => ?_
  · obtain ⟨i1, i2, i3⟩ := r.here_ok hc1 hb1
    rw [i1, i2]
    simp only [py_bind_ok]
    refine Verif.collect_congr fun l1 hl1 => ?_
    obtain ⟨w, e1, e2⟩ := r.at1_ok ho (List.mem_range.1 hl1) i3 (Ek - s.E b1 + s.E b) true
    obtain ⟨w', e3, e4⟩ := r.at1_ok ho (List.mem_range.1 hl1) i3 (Ek - s.E c + s.E c1) true
    rw [e1, e2, e3, e4]
    simp only [py_bind_ok, comb, py_pure, Except.ok.injEq, List.cons.injEq, and_true]
    constructor <;>
    · funext j
      simp only [Bool.false_eq_true, if_false]
      ring
  refine bind_congr2 (Verif.collect_congr fun c1 hc1 => ?_) fun t3 => ?_
  · obtain ⟨i1, i2, i3⟩ := r.here_ok hc1 hb
    rw [i1, i2]
    simp only [py_bind_ok]
    refine Verif.collect_congr fun d1 _ => Verif.collect_congr fun l1 hl1 => ?_
    obtain ⟨w, e1, e2⟩ := r.at1_ok ho (List.mem_range.1 hl1) i3 (-(Ek - s.E d1 + s.E b)) false
    rw [e1, e2]
    simp only [py_bind_ok, comb, py_pure, Except.ok.injEq, List.cons.injEq, and_true]
    funext j
    simp only [if_true]
    ring
  refine bind_congr2 (Verif.collect_congr fun d1 hd1 => Verif.collect_congr fun c1 hc1 => ?_) fun t4 => ?_
  · obtain ⟨i1, i2, i3⟩ := r.up_ok hd1 hc1
    rw [i1, i2]
    simp only [py_bind_ok]
    refine Verif.collect_congr fun l1 hl1 => ?_
    obtain ⟨w, e1, e2⟩ := r.at1_ok ho (List.mem_range.1 hl1) i3 (-(Ek - s.E d1 + s.E b)) false
    rw [e1, e2]
    simp only [py_bind_ok, comb, py_pure, Except.ok.injEq, List.cons.injEq, and_true]
    funext j
    simp only [if_true]
    ring
  refine bind_congr2 (Verif.collect_congr fun d1 hd1 => ?_) fun t6 => ?_
  · obtain ⟨i1, i2, i3⟩ := r.up_ok hd1 hc
    rw [i1, i2]
    simp only [py_bind_ok]
    refine Verif.collect_congr fun c1 _ => Verif.collect_congr fun l1 hl1 => ?_
    obtain ⟨w, e1, e2⟩ := r.at1_ok ho (List.mem_range.1 hl1) i3 (Ek - s.E c + s.E c1) true
    rw [e1, e2]
    simp only [py_bind_ok, comb, py_pure, Except.ok.injEq, List.cons.injEq, and_true]
    funext j
    simp only [Bool.false_eq_true, if_false]
    ring
  refine bind_congr2 (Verif.collect_congr fun b1 hb1 => Verif.collect_congr fun a1 ha1 => ?_) fun t7 => ?_
  · obtain ⟨i1, i2, i3⟩ := r.low_ok ha1 hb1
    rw [i1, i2]
    simp only [py_bind_ok]
    refine Verif.collect_congr fun l1 hl1 => ?_
    obtain ⟨w, e1, e2⟩ := r.at1_ok ho (List.mem_range.1 hl1) i3 (-(Ek - s.E c + s.E a1)) false
    rw [e1, e2]
    simp only [py_bind_ok, comb, py_pure, Except.ok.injEq, List.cons.injEq, and_true]
    funext j
    simp only [if_true]
    ring
  refine bind_congr2 (Verif.collect_congr fun b1 hb1 => ?_) fun t8 => rfl
  obtain ⟨i1, i2, i3⟩ := r.here_ok hc hb1
  rw [i1, i2]
  simp only [py_bind_ok]
  refine Verif.collect_congr fun a1 _ => Verif.collect_congr fun l1 hl1 => ?_
  obtain ⟨w, e1, e2⟩ := r.at1_ok ho (List.mem_range.1 hl1) i3 (-(Ek - s.E c + s.E a1)) false
  rw [e1, e2]
  simp only [py_bind_ok, comb, py_pure, Except.ok.injEq, List.cons.injEq, and_true]
  funext j
  simp only [if_true]
  ring

end Ready

/-! ### The matrices -/

theorem addEnts_eq : ∀ {L : List Ent} (m : CMat), (∀ e ∈ L, 0 ≤ e.i ∧ 0 ≤ e.j) → addEnts m L = VN2.addEnts m L := by
  intro L
  induction L with
  | nil => intro m _; rfl
  | cons e L ih =>
    intro m h
    obtain ⟨h1, h2⟩ := h e (by simp)
    have e1 : cadd m e.i e.j e.x = m.add e.i e.j e.x := by
      unfold cadd CMat.add
      rw [cIdx_eq h1, cIdx_eq h2]
    show (e :: L).foldlM _ m = (e :: L).foldlM _ m
    rw [List.foldlM_cons, List.foldlM_cons, e1]
    exact bind_congr2 rfl fun m' => ih m' fun x hx => h x (by simp [hx])

theorem addEnts_append (m : CMat) (L L' : List Ent) :
    VN2.addEnts m (L ++ L') = VN2.addEnts m L >>= fun m => VN2.addEnts m L' := by
  unfold VN2.addEnts
  rw [List.foldlM_append]

theorem collect_cons_inv {α β : Type} {a : α} {l : List α} {f : α → Py (List β)} {r : List β} (h : collect (a :: l) f = .ok r) :
    ∃ x y, f a = .ok x ∧ collect l f = .ok y ∧ r = x ++ y := by
  rw [collect_cons] at h
  obtain ⟨x, hx, h⟩ := bind_inv h
  obtain ⟨y, hy, h⟩ := bind_inv h
  exact ⟨x, y, hx, hy, (Except.ok.inj h).symm⟩

/-- Two matrices filled in one loop. -/
theorem fold_pair {f1 f0 : Trip → Py (List Ent)} : ∀ {P : List Trip} {L1 L0 : List Ent} {z1 z0 m1 m0 : CMat},
    collect P f1 = .ok L1 → collect P f0 = .ok L0 → VN2.addEnts z1 L1 = .ok m1 → VN2.addEnts z0 L0 = .ok m0 →
    (∀ t ∈ P, ∀ L, f1 t = .ok L ∨ f0 t = .ok L → ∀ e ∈ L, 0 ≤ e.i ∧ 0 ≤ e.j) →
    P.foldlM (fun (m : CMat × CMat) t => do
      let e1 ← f1 t
      let e0 ← f0 t
      let k1 ← addEnts m.1 e1
      let k0 ← addEnts m.2 e0
      pure (k1, k0)) (z1, z0) = .ok (m1, m0) := by
  intro P
  induction P with
  | nil =>
    intro L1 L0 z1 z0 m1 m0 h1 h0 e1 e0 _
    obtain rfl := Except.ok.inj h1
    obtain rfl := Except.ok.inj h0
    obtain rfl := Except.ok.inj e1
    obtain rfl := Except.ok.inj e0
    rfl
  | cons t P ih =>
    intro L1 L0 z1 z0 m1 m0 h1 h0 e1 e0 hn
    obtain ⟨x1, y1, a1, b1, rfl⟩ := collect_cons_inv h1
    obtain ⟨x0, y0, a0, b0, rfl⟩ := collect_cons_inv h0
    rw [addEnts_append] at e1 e0
    obtain ⟨k1, c1, e1⟩ := bind_inv e1
    obtain ⟨k0, c0, e0⟩ := bind_inv e0
    rw [List.foldlM_cons, a1, a0]
    simp only [py_bind_ok]
    rw [addEnts_eq z1 (hn t (by simp) x1 (Or.inl a1)), addEnts_eq z0 (hn t (by simp) x0 (Or.inr a0)), c1, c0]
    exact ih b1 b0 e1 e0 fun t ht => hn t (by simp [ht])

theorem csetRow_eq (m : CMat) (i : Nat) (x : Nat → ℂ) : csetRow m (i : Int) x = m.setRow (i : Int) x := by
  unfold csetRow CMat.setRow
  rw [cIdx_eq (by omega)]

/-- Rows set in a loop with an accumulator that is cleared after each row. -/
theorem fold_rows {A : Trip → Py Nat} {B : Trip → Py (List (Nat → ℂ))} : ∀ {P : List Trip} {rows : List (Nat × (Nat → ℂ))} {z m : CMat},
    collect P (fun t => do
      let cb ← A t
      let u ← B t
      pure [(cb, fun j => (u.map fun f : Nat → ℂ => f j).sum)]) = .ok rows →
    rows.foldlM (fun (m : CMat) r => m.setRow r.1 r.2) z = .ok m →
    P.foldlM (fun (x : CMat × (Nat → ℂ)) t => do
      let cb ← A t
      let u ← B t
      let m ← csetRow x.1 (cb : Nat) (fun j => x.2 j + (u.map fun f : Nat → ℂ => f j).sum)
      pure (m, fun _ => (0 : ℂ))) (z, fun _ => (0 : ℂ)) = .ok (m, fun _ => (0 : ℂ)) := by
  intro P
  induction P with
  | nil =>
    intro rows z m h e
    obtain rfl := Except.ok.inj h
    obtain rfl := Except.ok.inj e
    rfl
  | cons t P ih =>
    intro rows z m h e
    obtain ⟨x, y, a, b, rfl⟩ := collect_cons_inv h
    obtain ⟨cb, hA, a⟩ := bind_inv a
    obtain ⟨u, hB, a⟩ := bind_inv a
    obtain rfl := Except.ok.inj a
    rw [List.singleton_append, List.foldlM_cons] at e
    obtain ⟨k, hk, e⟩ := bind_inv e
    rw [List.foldlM_cons, hA, hB]
    simp only [py_bind_ok, zero_add]
    rw [csetRow_eq, show z.setRow (cb : Int) (fun j => (u.map fun f => f j).sum) = .ok k from hk]
    exact ih b e

theorem mapM_congr {α β : Type} {l : List α} {f g : α → Py β} (h : ∀ x ∈ l, f x = g x) : l.mapM f = l.mapM g := by
  induction l with
  | nil => rfl
  | cons a l ih =>
    rw [List.mapM_cons, List.mapM_cons, h a (by simp), ih fun x hx => h x (by simp [hx])]

theorem elems_pairs1 {β : Type} {s : Terms} {lab ix1 : Nat → Nat → Nat → Nat} (h : VOkC s.v lab ix1)
    (f : Int → Nat → Nat → Py (List β)) : s.elems f = collect (pairs1 s.v) fun t => f (t.2.2 : Nat) t.1 t.2.1 := by
  unfold Terms.elems pairs1
  rw [collect_flatMap]
  refine Verif.collect_congr fun q hq => ?_
  have := List.mem_range.1 hq
  rw [h.states_succ (by omega), h.states (by omega), collect_onmap]
  rfl

theorem pairs1_mem {v : View} {t : Trip} (h : t ∈ pairs1 v) : t.1 ∈ v.row (t.2.2 + 1) ∧ t.2.1 ∈ v.row t.2.2 := by
  unfold pairs1 at h
  simp only [List.mem_flatMap, List.mem_map] at h
  obtain ⟨q, _, p, hp, rfl⟩ := h
  exact prod2_mem hp

namespace Ready

variable {kh : CKH} {d : DM} {nl : Nat} {lab ix1 : Nat → Nat → Nat → Nat} {y : Sys} {g : Grid}

theorem localKern (r : Ready kh s d nl lab ix1) (a : TermsAt s y g) {k l : Nat} (hk : k < g.len) (hl : l < y.v.nleads) :
    CVN2.localKern kh s k l = s.localKern k l := by
  have hv : VOkC y.v lab ix1 := by rw [← a.v]; exact r.ok
  have ht := a.termsOk hv k
  obtain ⟨m, e, _⟩ := localKern_ok a hv hk hl
  rw [e]
  unfold Terms.localKern at e
  unfold CVN2.localKern
  dsimp only
  obtain ⟨Ek, h1, e⟩ := bind_inv e
  obtain ⟨fp, h2, e⟩ := bind_inv e
  obtain ⟨L1, h3, e⟩ := bind_inv e
  obtain ⟨L0, h4, e⟩ := bind_inv e
  obtain ⟨k1, h5, e⟩ := bind_inv e
  obtain ⟨k0, h6, e⟩ := bind_inv e
  obtain rfl := Except.ok.inj e
  have hf : CVN2.fermi s l ((k : Int) + s.ext.left) = .ok fp := by
    unfold Terms.fermi at h2
    unfold CVN2.fermi
    rw [cGet_eq _ (by omega)]
    obtain ⟨f, hf, h2⟩ := bind_inv h2
    rw [hf]
    simp only [py_bind_ok]
    rw [cGet_eq _ (by omega)]
    exact h2
  rw [cGet_eq _ (by omega), h1]
  simp only [py_bind_ok]
  rw [hf]
  simp only [py_bind_ok]
  rw [r.allBa, foldlM_range_get (pairs1 s.v) (fun (m : CMat × CMat) (t : Trip) => do
    let e1 ← CVN2.loc kh s Ek (t.2.2 : Nat) t.1 t.2.1
    let e0 ← CVN2.src kh s l fp (1 - fp) (t.2.2 : Nat) t.1 t.2.1
    let kern1 ← addEnts m.1 e1
    let kern0 ← addEnts m.2 e0
    pure (kern1, kern0)) r.len.symm]
  rw [elems_pairs1 r.ok] at h3 h4
  have c1 := Verif.collect_congr (f := fun t : Trip => CVN2.loc kh s Ek (t.2.2 : Nat) t.1 t.2.1)
    (g := fun t : Trip => s.loc Ek (t.2.2 : Nat) t.1 t.2.1) (l := pairs1 s.v)
    fun t h => r.loc ht Ek (pairs1_mem h).1 (pairs1_mem h).2
  have c0 := Verif.collect_congr (f := fun t : Trip => CVN2.src kh s l fp (1 - fp) (t.2.2 : Nat) t.1 t.2.1)
    (g := fun t : Trip => s.src l fp (1 - fp) (t.2.2 : Nat) t.1 t.2.1) (l := pairs1 s.v)
    fun t h => r.src l fp (1 - fp) (pairs1_mem h).1 (pairs1_mem h).2
  refine fold_pair (c1.trans h3) (c0.trans h4) (by rw [r.ndm1]; exact h5) (by rw [r.ndm1, r.ndm0]; exact h6) ?_
  intro t h L hL e he
  obtain ⟨m1, m2⟩ := pairs1_mem h
  rcases hL with hL | hL
  · rw [r.loc ht Ek m1 m2] at hL
    obtain ⟨L', q1, q2, _⟩ := loc_ok ht Ek m1 m2
    obtain rfl := Except.ok.inj (q1.symm.trans hL)
    obtain ⟨w1, w2, _⟩ := q2 e he
    exact ⟨by omega, w2⟩
  · rw [r.src l fp (1 - fp) m1 m2] at hL
    obtain ⟨L', q1, q2, _⟩ := src_ok r.ok l fp (1 - fp) m1 m2
    obtain rfl := Except.ok.inj (q1.symm.trans hL)
    obtain ⟨w1, w2, _⟩ := q2 e he
    exact ⟨by omega, w2⟩

theorem iterKern (r : Ready kh s d nl lab ix1) (a : TermsAt s y g) {o : Old} {W H : Nat → Nat → Nat → ℝ → ℂ} (ho : OldOk s o W H)
    {k l : Nat} (hk : k < g.len) (hl : l < y.v.nleads) : CVN2.iterKern kh s o k l = s.iterKern o k l := by
  have hv : VOkC y.v lab ix1 := by rw [← a.v]; exact r.ok
  obtain ⟨m, e, _⟩ := iterKern_ok a hv ho hk hl
  rw [e]
  unfold Terms.iterKern at e
  unfold CVN2.iterKern
  dsimp only
  obtain ⟨Ek, h1, e⟩ := bind_inv e
  obtain ⟨fp, h2, e⟩ := bind_inv e
  obtain ⟨rows, h3, e⟩ := bind_inv e
  have hf : CVN2.fermi s l ((k : Int) + s.ext.left) = .ok fp := by
    unfold Terms.fermi at h2
    unfold CVN2.fermi
    rw [cGet_eq _ (by omega)]
    obtain ⟨f, hf, h2⟩ := bind_inv h2
    rw [hf]
    simp only [py_bind_ok]
    rw [cGet_eq _ (by omega)]
    exact h2
  rw [cGet_eq _ (by omega), h1]
  simp only [py_bind_ok]
  rw [hf]
  simp only [py_bind_ok]
  rw [r.allBa, foldlM_range_get (pairs1 s.v) (fun (x : CMat × (Nat → ℂ)) (t : Trip) => do
    let cb ← kh.ind1 t.1 t.2.1 (t.2.2 : Nat)
    let u ← CVN2.itr kh s o Ek l fp (1 - fp) (t.2.2 : Nat) t.1 t.2.1
    let m ← csetRow x.1 (cb : Nat) (fun j => x.2 j + (u.map fun f => f j).sum)
    pure (m, fun _ => (0 : ℂ))) r.len.symm]
  rw [elems_pairs1 r.ok] at h3
  have c := Verif.collect_congr (f := fun t : Trip => (do
      let cb ← kh.ind1 t.1 t.2.1 (t.2.2 : Nat)
      let u ← CVN2.itr kh s o Ek l fp (1 - fp) (t.2.2 : Nat) t.1 t.2.1
      pure [(cb, fun j => (u.map fun f => f j).sum)] : Py (List (Nat × (Nat → ℂ)))))
    (g := fun t : Trip => do
      let cb ← s.v.ind1 t.1 t.2.1 (t.2.2 : Nat)
      let u ← s.itr o Ek l fp (1 - fp) (t.2.2 : Nat) t.1 t.2.1
      pure [(cb, fun j => (u.map fun f => f j).sum)]) (l := pairs1 s.v)
    fun t h => by rw [r.ind1, r.itr ho Ek l fp (1 - fp) (pairs1_mem h).1 (pairs1_mem h).2]
  rw [fold_rows (c.trans h3) (by rw [r.ndm1, r.ndm0]; exact e)]
  rfl

theorem table {β : Type} (r : Ready kh s d nl lab ix1) {len : Nat} {f f' : Nat → Nat → Py β} {z z' : β} (hz : z = z')
    (h : ∀ k < len, ∀ l < s.v.nleads, f k l = f' k l) : CVN2.table kh len f z = s.table len f' z' := by
  subst hz
  unfold CVN2.table Terms.table
  rw [r.nleads]
  exact bind_congr2 (mapM_congr fun k hk => mapM_congr fun l hl => h k (List.mem_range.1 hk) l (List.mem_range.1 hl)) fun _ => rfl

/-- The zeroth iteration. -/
theorem zeroth (r : Ready kh s d nl lab ix1) (a : TermsAt s y g) (inv : CMat → Option CMat) :
    CVN2.zeroth kh s inv g.len = s.zeroth inv g.len := by
  unfold CVN2.zeroth Terms.zeroth
  dsimp only
  rw [r.table (by rw [r.ndm1, r.ndm0]) fun k hk l hl => ?_]
  unfold CVN2.phi1kLocal Terms.phi1kLocal
  rw [r.localKern a hk (by rw [← a.v]; exact hl)]
  refine bind_congr2 rfl fun m => ?_
  cases inv m.1 <;> rfl

/-- The other iterations. -/
theorem next (r : Ready kh s d nl lab ix1) (a : TermsAt s y g) (hh : 0 < g.h) (hl : 2 ≤ g.len) {p : HtPars} (hp : p.Made)
    (p1 : p.left = g.left) (p2 : p.right = g.right) (delta i1 : C4) :
    CVN2.next kh s p g.len delta i1 = s.next p g.len delta i1 := by
  unfold CVN2.next Terms.next
  obtain ⟨phi, hphi, p', e, ho⟩ := old_ok a hh hl hp p1 p2 delta
  rw [e]
  simp only [py_bind_ok]
  rw [r.table (by rw [r.ndm1, r.ndm0]) fun k hk l hl' => ?_]
  unfold CVN2.phi1kIterate Terms.phi1kIterate
  rw [r.iterKern a ho hk (by rw [← a.v]; exact hl'), r.ndm1]

end Ready

/-! ### Numerical routines -/

/-- A handler of the indexing object. -/
structure Made (kh : CKH) (v : View) (d : DM) (nl : Nat) (lab ix1 : Nat → Nat → Nat → Nat) : Prop where
  of : kh.Of d nl
  ok : VOkC v lab ix1
  allBa : kh.allBa = pairs1 v
  len : (pairs1 v).length = kh.ndm1
  v : v = d.view nl

section
variable {kh : CKH} {y : Sys} {d : DM} {nl : Nat} {lab ix1 : Nat → Nat → Nat → Nat} (m : Made kh y.v d nl lab ix1) {g : Grid}
  (hh : 0 < g.h) (hl : 2 ≤ g.len)
include m hh hl

theorem Made.ready (a : TermsAt s y g) : Ready kh s d nl lab ix1 :=
  ⟨m.of, by rw [a.v, m.v], by rw [a.v]; exact m.ok, by rw [a.v]; exact m.allBa, by rw [a.v]; exact m.len,
    by rw [a.ext]; exact win_uniform (by omega) hh⟩

variable (inv : CMat → Option CMat) (solve lstsq : CMat → VN2.CVec → Option VN2.CVec)

theorem num_loc : (num kh inv solve lstsq).loc y g.list g.ext = (Num.of inv solve lstsq).loc y g.list g.ext := by
  obtain ⟨s, p, e, a, _⟩ := terms_ok y hh hl
  have len : g.list.length = g.len := by simp [Grid.list]
  show (y.terms g.list g.ext >>= fun r => zeroth kh r.1 inv g.list.length) = y.terms g.list g.ext >>= fun r => r.1.zeroth inv g.list.length
  rw [e]
  simp only [py_bind_ok, len]
  exact (m.ready hh hl a).zeroth a inv

theorem num_itr (delta i1 : C4) :
    (num kh inv solve lstsq).itr y g.list g.ext delta i1 = (Num.of inv solve lstsq).itr y g.list g.ext delta i1 := by
  obtain ⟨s, p, e, a, p1, p2, p3⟩ := terms_ok y hh hl
  have len : g.list.length = g.len := by simp [Grid.list]
  show (y.terms g.list g.ext >>= fun r => next kh r.1 r.2 g.list.length delta i1 >>= fun d => pure d.1) =
    y.terms g.list g.ext >>= fun r => r.1.next r.2 g.list.length delta i1 >>= fun d => pure d.1
  rw [e]
  simp only [py_bind_ok, len]
  rw [(m.ready hh hl a).next a hh hl p1 p2 p3]

end

/-! ### Integration -/

theorem dx_eq (grid : List ℝ) (i : Nat) : dx grid i = VN2.dx grid i := by
  unfold dx VN2.dx
  by_cases h : i = 0
  · rw [if_pos h, if_pos h, cGet_eq _ (by omega), cGet_eq _ (by omega)]
  · rw [if_neg h, if_neg h, cGet_eq _ (by omega), cGet_eq _ (by omega), cGet_eq _ (by omega)]

theorem phi1Phi0_eq (grid : List ℝ) (phi1k : C4) (PQ : C3 × C3) : phi1Phi0 grid phi1k PQ = VN2.phi1Phi0 grid phi1k PQ := by
  unfold phi1Phi0 VN2.phi1Phi0
  refine foldlM_congr_c (fun PQ i _ => ?_) PQ
  rw [dx_eq, cGet_eq _ (by omega), show (0.5 : ℂ) = 1 / 2 by norm_num]

theorem integrate_eq (s : St) : integrate s = s.integrate := by
  unfold integrate St.integrate
  simp only [phi1Phi0_eq]

theorem prepareKern_eq {s : St} (h : s.opts.mfreeq = false) : prepareKern s = s.prepareKern := by
  unfold prepareKern St.prepareKern
  simp [h]

theorem solveKern_eq (kh : CKH) (inv : CMat → Option CMat) (solve lstsq : CMat → VN2.CVec → Option VN2.CVec) (s : St) :
    s.solveKern (num kh inv solve lstsq) = s.solveKern (Num.of inv solve lstsq) := rfl

theorem iterate_eq {kh : CKH} {d : DM} {nl : Nat} {lab ix1 : Nat → Nat → Nat → Nat} {s : St} (m : Made kh s.sys.v d nl lab ix1) {g : Grid}
    (hh : 0 < g.h) (hl : 2 ≤ g.len) (h1 : s.grid = g.list) (h2 : s.ext = g.ext) (inv : CMat → Option CMat)
    (solve lstsq : CMat → VN2.CVec → Option VN2.CVec) : s.iterate (num kh inv solve lstsq) = s.iterate (Num.of inv solve lstsq) := by
  unfold St.iterate
  rw [h1, h2, num_loc m hh hl inv solve lstsq]
  simp only [num_itr m hh hl inv solve lstsq]

end CVN2

end

end Verif
