import Verif.Lemmas.Neumann2Lin

/-! The iterations for `Phi[1](k)`. -/

namespace Verif

open Finset

noncomputable section

namespace VN2

/-- The routine returns inverse matrices. -/
def IsInverse (inv : CMat → Option CMat) : Prop := ∀ m i, inv m = some i → i.rows = m.cols ∧ i.cols = m.rows ∧
  ∀ a < m.rows, ∀ b < m.rows, ∑ k ∈ range m.cols, m.val a k * i.val k b = if a = b then 1 else 0

/-- Fermi functions at the grid points. -/
def Sys.occ (y : Sys) (g : Grid) (l k : Nat) : ℝ := 1 / (Real.exp ((g.x + k * g.h - y.mu l) / y.temp l) + 1)

/-- The grid of the code. -/
def Grid.list (g : Grid) : List ℝ := uniform g.x g.h g.len

/-- The extended grid of the code. -/
def Grid.ext (g : Grid) : Ext := ⟨uniform (g.x - g.left * g.h) g.h (g.len + g.left + g.right), g.left, g.right⟩

/-- The shifted transforms of a distribution. -/
def Grid.F (g : Grid) (f : Nat → ℝ) (E : ℝ) : ℂ := Real.pi * (g.t (fun k => f k) E - Complex.I * g.w (fun k => f k) E)

/-- The distributions at a grid point. -/
def Sys.leads (y : Sys) (g : Grid) (k : Nat) : Dot.Leads :=
  ⟨fun l => y.occ g l k, fun l => g.F (y.occ g l), fun l => g.F fun k => 1 - y.occ g l k⟩

theorem Sys.isLeads (y : Sys) {g : Grid} (hh : 0 < g.h) (hl : 0 < g.len) (n : Nat) : IsLeads g n (y.occ g) (y.leads g) := by
  refine ⟨fun _ _ _ => rfl, fun l _ => ⟨_, _, g.pair hh hl _, fun _ => rfl⟩, fun l _ => ⟨_, _, g.pair hh hl _, fun _ => ?_⟩⟩
  funext E
  show g.F _ E = _
  unfold Grid.F
  push_cast
  rfl

theorem get_map_range {α : Type} (f : Nat → α) {n i : Nat} (h : i < n) : pyGet ((List.range n).map f) (i : Int) = .ok (f i) := by
  rw [pyGet_nat _ (by simpa using h)]
  simp

/-- What is known about the attributes. -/
structure TermsAt (s : Terms) (y : Sys) (g : Grid) : Prop where
  v : s.v = y.v
  E : s.E = y.E
  T : s.T = y.T
  ext : s.ext = g.ext
  fermi : ∀ l < y.v.nleads, ∀ k < g.len, s.fermi l ((k : Int) + g.left) = .ok (y.occ g l k : ℂ)
  fnp : ∀ l < y.v.nleads, ∀ E plus, s.fn s.hfkp E l plus = .ok (cjIf (!plus) (g.F (y.occ g l) E))
  fnm : ∀ l < y.v.nleads, ∀ E plus, s.fn s.hfkm E l plus = .ok (cjIf (!plus) (g.F (fun k => 1 - y.occ g l k) E))

theorem cjIf_pi (c : Bool) (z : ℂ) : (Real.pi : ℂ) * cjIf c z = cjIf c (Real.pi * z) := by
  cases c <;> simp [cjIf]

theorem fn_list {g : Grid} (hh : 0 < g.h) (hl : 2 ≤ g.len) {s : Terms} (hs : s.ext = g.ext) (n : Nat) (f : Nat → Nat → ℝ) {l : Nat}
    (h : l < n) (E : ℝ) (plus : Bool) :
    s.fn ((List.range n).map fun i => (List.range (g.len + g.left + g.right)).map fun m =>
      ht (g.len + g.left + g.right) (padf g.len g.left fun k => (f i k : ℂ)) m - Complex.I * padf g.len g.left (fun k => (f i k : ℂ)) m)
      E l plus = .ok (cjIf (!plus) (g.F (f l) E)) := by
  unfold Terms.fn
  rw [get_map_range _ h, py_bind_ok, hs]
  show func2vN (uniform _ _ _) _ _ _ = _
  rw [func2vN_sample (by omega) hh (by simp), cjIf_pi]
  congr 2
  unfold Grid.F
  congr 1
  have := samp_add (g.x - g.left * g.h) g.h (g.len + g.left + g.right)
    (ht (g.len + g.left + g.right) (padf g.len g.left fun k => (f l k : ℂ))) (padf g.len g.left fun k => (f l k : ℂ)) 1 (-Complex.I) E
  unfold Grid.t Grid.w
  rw [mul_one] at this
  rw [show ∀ a b : ℂ, a - Complex.I * b = a + b * -Complex.I by intros; ring, ← this]
  refine samp_congr (fun i _ => ?_) _
  ring

theorem terms_ok (y : Sys) {g : Grid} (hh : 0 < g.h) (hl : 2 ≤ g.len) : ∃ s p, y.terms g.list g.ext = .ok (s, p) ∧
    TermsAt s y g ∧ p.Made ∧ p.left = g.left ∧ p.right = g.right := by
  have m0 : (⟨g.left, g.right, none⟩ : HtPars).Made := fun k hk => by simp at hk
  obtain ⟨p1, q1, l1, r1, e1⟩ := htFk_ok (len := g.len) m0 (by simp; omega) y.v.nleads (y.occ g)
  obtain ⟨p2, q2, l2, r2, e2⟩ := htFk_ok (len := g.len) q1 (by simp; omega) y.v.nleads fun l k => 1 - y.occ g l k
  rw [l1, r1] at e2
  have len : g.list.length = g.len := by simp [Grid.list]
  have f1 : (((List.range y.v.nleads).map fun l => (y.mu l, y.temp l)).map fun l => g.list.map fun E => 1 / (Real.exp ((E - l.1) / l.2) + 1)) =
      (List.range y.v.nleads).map fun i => (List.range g.len).map (y.occ g i) := by
    rw [List.map_map]
    refine List.map_congr_left fun l _ => ?_
    show (uniform _ _ _).map _ = _
    unfold uniform
    rw [List.map_map]
    rfl
  have f2 : (((List.range y.v.nleads).map fun i => (List.range g.len).map (y.occ g i)).map fun f : List ℝ => f.map fun x => 1 - x) =
      (List.range y.v.nleads).map fun i => (List.range g.len).map fun k => 1 - y.occ g i k := by
    rw [List.map_map]
    refine List.map_congr_left fun l _ => ?_
    show List.map _ (List.map _ _) = _
    rw [List.map_map]
    rfl
  have e : y.terms g.list g.ext = .ok (⟨y.v, y.E, y.T, g.ext,
      (List.range y.v.nleads).map fun i => (List.range (g.len + g.left + g.right)).map (padf g.len g.left fun k => (y.occ g i k : ℂ)),
      (List.range y.v.nleads).map fun i => (List.range (g.len + g.left + g.right)).map fun m =>
          ht (g.len + g.left + g.right) (padf g.len g.left fun k => (y.occ g i k : ℂ)) m - Complex.I * padf g.len g.left (fun k => (y.occ g i k : ℂ)) m,
      (List.range y.v.nleads).map fun i => (List.range (g.len + g.left + g.right)).map fun m =>
          ht (g.len + g.left + g.right) (padf g.len g.left fun k => ((1 - y.occ g i k : ℝ) : ℂ)) m -
            Complex.I * padf g.len g.left (fun k => ((1 - y.occ g i k : ℝ) : ℂ)) m⟩, p2) := by
    unfold Sys.terms prepareDistribution
    dsimp only
    rw [f1, f2, len]
    dsimp only [Grid.ext]
    rw [e1]
    simp only [py_bind_ok]
    rw [e2]
    rfl
  refine ⟨_, p2, e, ⟨rfl, rfl, rfl, rfl, ?_, ?_, ?_⟩, q2, by rw [l2, l1], by rw [r2, r1]⟩
  · intro l hl k hk
    unfold Terms.fermi
    dsimp only
    rw [get_map_range _ hl, py_bind_ok]
    have := get_map_range (padf g.len g.left fun k => (y.occ g l k : ℂ)) (n := g.len + g.left + g.right) (i := k + g.left) (by omega)
    push_cast at this
    rw [this]
    unfold padf
    rw [if_pos (by omega), Nat.add_sub_cancel]
  · intro l h E plus
    exact fn_list hh hl rfl _ (y.occ g) h E plus
  · intro l h E plus
    exact fn_list hh hl rfl _ (fun l k => 1 - y.occ g l k) h E plus

section

variable {s : Terms} {y : Sys} {g : Grid} {lab ix1 : Nat → Nat → Nat → Nat}

theorem TermsAt.termsOk (a : TermsAt s y g) (h : VOkC y.v lab ix1) (k : Nat) : TermsOk s lab ix1 (y.leads g k).F (y.leads g k).G :=
  ⟨by rw [a.v]; exact h, fun l hl => a.fnp l (by rwa [← a.v]), fun l hl => a.fnm l (by rwa [← a.v])⟩

theorem TermsAt.energy (a : TermsAt s y g) {k : Nat} (hk : k < g.len) :
    pyGet s.ext.grid ((k : Int) + s.ext.left) = .ok (g.x + k * g.h) := by
  rw [a.ext]
  show pyGet (uniform _ _ _) ((k : Int) + (g.left : Int)) = _
  have := uniform_get (x := g.x - g.left * g.h) (h := g.h) (n := g.len + g.left + g.right) (i := k + g.left) (by omega)
  push_cast at this
  rw [this]
  congr 1
  ring

/-- What `kern0` does to the elements of the density matrix. -/
def srcSum (s : Terms) (lab : Nat → Nat → Nat → Nat) (l : Nat) (fp fm : ℂ) (x : Nat → ℂ) (q c b : Nat) : ℂ :=
  ∑ b1 ∈ s.v.R q, s.T l c b1 * fp * x (lab q b1 b) + ∑ c1 ∈ s.v.R (q + 1), -s.T l c1 b * fm * x (lab (q + 1) c c1)

theorem localKern_ok (a : TermsAt s y g) (h : VOkC y.v lab ix1) {k l : Nat} (hk : k < g.len) (hl : l < y.v.nleads) :
    ∃ m, s.localKern k l = .ok m ∧ m.1.rows = y.v.ndm1 ∧ m.1.cols = y.v.ndm1 ∧ m.2.rows = y.v.ndm1 ∧ m.2.cols = y.v.ndm0 ∧
      ∀ q c b, c ∈ y.v.row (q + 1) → b ∈ y.v.row q → ∀ x : Nat → ℂ,
        ∑ j ∈ range y.v.ndm1, m.1.val (ix1 q c b) j * x j =
          locSum s ix1 (y.leads g k).F (y.leads g k).G (g.x + k * g.h) x q c b ∧
        ∑ j ∈ range y.v.ndm0, m.2.val (ix1 q c b) j * x j = srcSum s lab l (y.occ g l k) (1 - y.occ g l k) x q c b := by
  have ht := a.termsOk h k
  have hv := ht.ok
  obtain ⟨L1, m1, a1, b1, r1, c1, v1⟩ := elems_mat hv (n := s.v.ndm1) (f := fun q c b => s.loc (g.x + k * g.h) q c b)
    (fun x q c b => locSum s ix1 (y.leads g k).F (y.leads g k).G (g.x + k * g.h) x q c b)
    fun q c b hc hb => loc_ok ht _ hc hb
  obtain ⟨L0, m0, a0, b0, r0, c0, v0⟩ := elems_mat hv (n := s.v.ndm0) (f := fun q c b => s.src l (y.occ g l k) (1 - y.occ g l k) q c b)
    (fun x q c b => srcSum s lab l (y.occ g l k) (1 - y.occ g l k) x q c b)
    fun q c b hc hb => src_ok hv _ _ _ hc hb
  refine ⟨(m1, m0), ?_, by rw [← a.v]; exact r1, by rw [← a.v]; exact c1, by rw [← a.v]; exact r0, by rw [← a.v]; exact c0, ?_⟩
  · unfold Terms.localKern
    have ef := a.fermi l hl k hk
    rw [show (g.left : Int) = (s.ext.left : Int) by rw [a.ext]; rfl] at ef
    simp only [a.energy hk, ef, py_bind_ok]
    rw [a1, a0]
    simp only [py_bind_ok]
    rw [b1, b0]
    rfl
  · intro q c b hc hb x
    rw [← a.v] at hc hb ⊢
    exact ⟨v1 q c b hc hb x, v0 q c b hc hb x⟩

theorem setRows_ok {rows : List (Nat × (Nat → ℂ))} {m : CMat} (h : ∀ r ∈ rows, r.1 < m.rows) :
    ∃ m', rows.foldlM (fun (m : CMat) r => m.setRow r.1 r.2) m = .ok m' ∧ m'.rows = m.rows ∧ m'.cols = m.cols ∧
      ∀ i : Nat, (m'.val i = m.val i ∧ ∀ r ∈ rows, r.1 ≠ i) ∨ ∃ r ∈ rows, r.1 = i ∧ m'.val i = r.2 := by
  induction rows generalizing m with
  | nil => exact ⟨m, rfl, rfl, rfl, fun i => Or.inl ⟨rfl, by simp⟩⟩
  | cons r rows ih =>
    have r1 := h r (by simp)
    have e : m.setRow r.1 r.2 = .ok ⟨m.rows, m.cols, fun r' c' => if r' = r.1 then r.2 c' else m.val r' c'⟩ := by
      unfold CMat.setRow
      rw [pyIdx_ok (by simp) (by exact_mod_cast r1)]
      rfl
    obtain ⟨m', h1, h2, h3, h4⟩ := ih (m := ⟨m.rows, m.cols, fun r' c' => if r' = r.1 then r.2 c' else m.val r' c'⟩)
      (fun o ho => h o (by simp [ho]))
    refine ⟨m', ?_, h2, h3, fun i => ?_⟩
    · rw [List.foldlM_cons, e]
      exact h1
    · rcases h4 i with ⟨g1, g2⟩ | ⟨o, ho, g1, g2⟩
      · by_cases hi : r.1 = i
        · refine Or.inr ⟨r, by simp, hi, ?_⟩
          rw [g1]
          simp [hi]
        · refine Or.inl ⟨?_, ?_⟩
          · rw [g1]
            simp [Ne.symm hi]
          · intro o ho
            rcases List.mem_cons.1 ho with rfl | ho
            · exact hi
            · exact g2 o ho
      · exact Or.inr ⟨o, by simp [ho], g1, g2⟩

theorem iterKern_ok (a : TermsAt s y g) (h : VOkC y.v lab ix1) {o : Old} {W H : Nat → Nat → Nat → ℝ → ℂ} (ho : OldOk s o W H)
    {k l : Nat} (hk : k < g.len) (hl : l < y.v.nleads) :
    ∃ m, s.iterKern o k l = .ok m ∧ m.rows = y.v.ndm1 ∧ m.cols = y.v.ndm0 ∧
      ∀ q c b, c ∈ y.v.row (q + 1) → b ∈ y.v.row q → ∀ j < y.v.ndm0, m.val (ix1 q c b) j =
        itrSum s ix1 (advU W H j) (advV W H j) (g.x + k * g.h) l (y.occ g l k) (1 - y.occ g l k) q c b := by
  have hv : VOkC s.v lab ix1 := by rw [a.v]; exact h
  obtain ⟨L, e, p, su⟩ := elems_ok hv (f := fun q c b => do
      let cb ← s.v.ind1 c b q
      let t ← s.itr o (g.x + k * g.h) l (y.occ g l k) (1 - y.occ g l k) q c b
      pure [(cb, fun j => (t.map fun f => f j).sum)])
    (fun (i : Nat) (r : Nat × (Nat → ℂ)) => if r.1 = i then (1 : ℂ) else 0)
    (fun r => ∃ q c b, c ∈ s.v.row (q + 1) ∧ b ∈ s.v.row q ∧ r.1 = ix1 q c b ∧ ∀ j < s.v.ndm0, r.2 j =
      itrSum s ix1 (advU W H j) (advV W H j) (g.x + k * g.h) l (y.occ g l k) (1 - y.occ g l k) q c b)
    (fun i q c b => if ix1 q c b = i then 1 else 0) fun q c b hc hb => by
      obtain ⟨T, t1, t2⟩ := itr_ok hv ho (g.x + k * g.h) l (y.occ g l k) (1 - y.occ g l k) hc hb
      refine ⟨[(ix1 q c b, fun j => (T.map fun f => f j).sum)], ?_, ?_, ?_⟩
      · simp only [hv.ind1 q c b hc hb, t1, py_bind_ok]
        rfl
      · intro r hr
        obtain rfl := List.mem_singleton.1 hr
        exact ⟨q, c, b, hc, hb, rfl, t2⟩
      · intro i
        simp
  obtain ⟨m, m1, m2, m3, m4⟩ := setRows_ok (rows := L) (m := CMat.zeros s.v.ndm1 s.v.ndm0) fun r hr => by
    obtain ⟨q, c, b, hc, hb, e, _⟩ := p r hr
    rw [e]
    exact hv.ix1_lt q c b hc hb
  refine ⟨m, ?_, by rw [← a.v]; exact m2, by rw [← a.v]; exact m3, ?_⟩
  · unfold Terms.iterKern
    have ef := a.fermi l hl k hk
    rw [show (g.left : Int) = (s.ext.left : Int) by rw [a.ext]; rfl] at ef
    simp only [a.energy hk, ef, py_bind_ok]
    rw [e]
    exact m1
  · intro q c b hc hb j hj
    rw [← a.v] at hc hb hj
    rcases m4 (ix1 q c b) with ⟨_, g2⟩ | ⟨r, hr, g1, g2⟩
    · have := su (ix1 q c b)
      rw [sum_label hv hc hb] at this
      rw [List.sum_eq_zero] at this
      · exact absurd this (by norm_num)
      · intro z hz
        obtain ⟨r, hr, rfl⟩ := List.mem_map.1 hz
        rw [if_neg (g2 r hr)]
    · obtain ⟨q', c', b', hc', hb', e', v'⟩ := p r hr
      have : ix1 q' c' b' = ix1 q c b := e'.symm.trans g1
      obtain ⟨rfl, rfl, rfl⟩ := hv.ix1_inj _ _ _ _ _ _ hc' hb' hc hb this
      rw [g2]
      exact v' j hj

/-! ### The arrays of the previous iteration -/

theorem flat_index {nl n1 n0 l cb j : Nat} (hl : l < nl) (hc : cb < n1) (hj : j < n0) :
    l * (n1 * n0) + cb * n0 + j < nl * (n1 * n0) ∧ (l * (n1 * n0) + cb * n0 + j) / (n1 * n0) = l ∧
      (l * (n1 * n0) + cb * n0 + j) / n0 % n1 = cb ∧ (l * (n1 * n0) + cb * n0 + j) % n0 = j := by
  have h1 : cb * n0 + j < n1 * n0 := by
    have : (cb + 1) * n0 ≤ n1 * n0 := Nat.mul_le_mul_right _ hc
    rw [Nat.add_mul] at this
    omega
  have hp : 0 < n1 * n0 := by omega
  refine ⟨?_, ?_, ?_, ?_⟩
  · have : (l + 1) * (n1 * n0) ≤ nl * (n1 * n0) := Nat.mul_le_mul_right _ hl
    rw [Nat.add_mul] at this
    omega
  · rw [add_assoc, mul_comm l, Nat.mul_add_div hp, Nat.div_eq_of_lt h1, add_zero]
  · have e : (l * (n1 * n0) + cb * n0 + j) = n0 * (n1 * l + cb) + j := by ring
    rw [e, Nat.mul_add_div (by omega), Nat.div_eq_of_lt hj, add_zero, Nat.mul_add_mod, Nat.mod_eq_of_lt hc]
  · have e : (l * (n1 * n0) + cb * n0 + j) = n0 * (n1 * l + cb) + j := by ring
    rw [e, Nat.mul_add_mod, Nat.mod_eq_of_lt hj]

theorem unflat_map {β : Type} (s : Terms) (f : Nat → Nat → Nat → β → ℂ) (L : List β) {l cb j : Nat} (hl : l < s.v.nleads) (hc : cb < s.v.ndm1)
    (hj : j < s.v.ndm0) : s.unflat ((List.range (s.v.nleads * (s.v.ndm1 * s.v.ndm0))).map fun i =>
      L.map (f (i / (s.v.ndm1 * s.v.ndm0)) (i / s.v.ndm0 % s.v.ndm1) (i % s.v.ndm0))) l cb j = L.map (f l cb j) := by
  obtain ⟨h1, h2, h3, h4⟩ := flat_index hl hc hj
  unfold Terms.unflat
  rw [getD_map_range _ _ h1, h2, h3, h4]

/-- The lines of an array. -/
def lineW (g : Grid) (d : C4) (l cb j : Nat) : ℝ → ℂ := g.w fun k => d k l cb j

/-- The lines of the transforms of an array. -/
def lineT (g : Grid) (d : C4) (l cb j : Nat) : ℝ → ℂ := g.t fun k => d k l cb j

theorem old_ok (a : TermsAt s y g) (hh : 0 < g.h) (hl : 2 ≤ g.len) {p : HtPars} (hp : p.Made) (p1 : p.left = g.left)
    (p2 : p.right = g.right) (d : C4) : ∃ phi hphi p', getHtransfPhi1k g.len (s.flat g.len d) p = .ok ((phi, hphi), p') ∧
      OldOk s ⟨s.unflat phi, s.unflat hphi⟩ (lineW g d) (lineT g d) := by
  obtain ⟨p', e⟩ := htPhi_ok (len := g.len) hp (by omega) (s.v.nleads * (s.v.ndm1 * s.v.ndm0)) fun i k =>
    d k (i / (s.v.ndm1 * s.v.ndm0)) (i / s.v.ndm0 % s.v.ndm1) (i % s.v.ndm0)
  rw [p1, p2] at e
  refine ⟨_, _, p', e, ?_⟩
  intro l hl' cb hcb E cj
  have key : ∀ j < s.v.ndm0, getAtK1 s.ext.grid
      (s.unflat ((List.range (s.v.nleads * (s.v.ndm1 * s.v.ndm0))).map fun i => (List.range (g.len + g.left + g.right)).map
        (padf g.len g.left fun k => d k (i / (s.v.ndm1 * s.v.ndm0)) (i / s.v.ndm0 % s.v.ndm1) (i % s.v.ndm0))) l cb j)
      (s.unflat ((List.range (s.v.nleads * (s.v.ndm1 * s.v.ndm0))).map fun i => (List.range (g.len + g.left + g.right)).map
        (ht (g.len + g.left + g.right)
          (padf g.len g.left fun k => d k (i / (s.v.ndm1 * s.v.ndm0)) (i / s.v.ndm0 % s.v.ndm1) (i % s.v.ndm0)))) l cb j) E cj =
      .ok (Real.pi * cjIf cj (lineT g d l cb j E), Real.pi * cjIf cj (lineW g d l cb j E)) := by
    intro j hj
    rw [unflat_map s (fun l cb j => padf g.len g.left fun k => d k l cb j) _ hl' hcb hj,
      unflat_map s (fun l cb j => ht (g.len + g.left + g.right) (padf g.len g.left fun k => d k l cb j)) _ hl' hcb hj, a.ext]
    exact getAtK1_sample (by omega) hh (by simp) (by simp) E cj
  unfold Terms.at1
  dsimp only
  rw [View.rd, if_pos hcb]
  show ∃ r, (do
    let r ← (List.range s.v.ndm0).mapM _
    pure fun j => r.getD j (0, 0) : Py (Nat → ℂ × ℂ)) = .ok r ∧ _
  rw [mapM_map_ok _ (fun j => ((Real.pi : ℂ) * cjIf cj (lineT g d l cb j E), (Real.pi : ℂ) * cjIf cj (lineW g d l cb j E))) _
    fun j hj => key j (List.mem_range.1 hj)]
  exact ⟨_, rfl, fun j hj => getD_map_range _ _ hj⟩

/-! ### Loops over grid points and leads -/

theorem mapM_range {β : Type} {f : Nat → Py β} (z : β) : ∀ {n : Nat} {r : List β}, (List.range n).mapM f = .ok r →
    ∀ i < n, f i = .ok (r.getD i z) := by
  have key : ∀ (l : List Nat) (r : List β), l.mapM f = .ok r → ∀ i (h : i < l.length), f l[i] = .ok (r.getD i z) := by
    intro l
    induction l with
    | nil => intro r _ i h; simp at h
    | cons a l ih =>
      intro r hr i hi
      rw [List.mapM_cons] at hr
      rcases ha : f a with e | b
      · rw [ha] at hr; exact absurd hr (by simp [bind, Except.bind])
      · rw [ha, py_bind_ok] at hr
        rcases hl : l.mapM f with e | t
        · rw [hl] at hr; exact absurd hr (by simp [bind, Except.bind])
        · rw [hl, py_bind_ok] at hr
          obtain rfl := Except.ok.inj hr
          rcases i with _ | i
          · exact ha
          · exact ih t hl i (by simpa using hi)
  intro n r hr i hi
  have := key _ r hr i (by simpa using hi)
  rwa [List.getElem_range] at this

theorem mapM_exists {α β : Type} {f : α → Py β} : ∀ {l : List α}, (∀ a ∈ l, ∃ b, f a = .ok b) → ∃ r, l.mapM f = .ok r := by
  intro l h
  induction l with
  | nil => exact ⟨[], rfl⟩
  | cons a l ih =>
    obtain ⟨b, hb⟩ := h a (by simp)
    obtain ⟨r, hr⟩ := ih fun x hx => h x (by simp [hx])
    exact ⟨b :: r, by rw [List.mapM_cons, hb, py_bind_ok, hr]; rfl⟩

theorem table_get {β : Type} {s : Terms} {len : Nat} {f : Nat → Nat → Py β} {z : β} {t : Nat → Nat → β} (h : s.table len f z = .ok t)
    {k l : Nat} (hk : k < len) (hl : l < s.v.nleads) : f k l = .ok (t k l) := by
  unfold Terms.table at h
  rcases hr : (List.range len).mapM fun k => (List.range s.v.nleads).mapM fun l => f k l with e | r
  · rw [hr] at h; exact absurd h (by simp [bind, Except.bind])
  · rw [hr, py_bind_ok] at h
    obtain rfl := Except.ok.inj h
    exact mapM_range z (mapM_range [] hr k hk) l hl

theorem table_ok {β : Type} {s : Terms} {len : Nat} {f : Nat → Nat → Py β} {z : β}
    (h : ∀ k < len, ∀ l < s.v.nleads, ∃ b, f k l = .ok b) : ∃ t, s.table len f z = .ok t := by
  unfold Terms.table
  obtain ⟨r, hr⟩ := mapM_exists (l := List.range len) (f := fun k => (List.range s.v.nleads).mapM fun l => f k l) fun k hk =>
    mapM_exists fun l hl => h k (List.mem_range.1 hk) l (List.mem_range.1 hl)
  rw [hr]
  exact ⟨_, rfl⟩

end

end VN2

end

end Verif
