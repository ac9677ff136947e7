import Verif.Lemmas.Neumann2Grid
import Verif.Props.ViewC

/-!
C40: reading by interpolation on the grid of the 2vN approach.
C59: the extended grid covers the energies that are read.
-/

namespace Verif

noncomputable section

namespace VN2

/-- Complex conjugation on request. -/
def cjIf (c : Bool) (z : ℂ) : ℂ := if c then (starRingEnd ℂ) z else z

theorem getD_lt {f : List ℂ} {i : Nat} (hi : i < f.length) : f.getD i 0 = f[i] := by simp [hi]

theorem list_get {f : List ℂ} {i : Nat} (hi : i < f.length) : pyGet f (i : Int) = .ok f[i] := by
  rw [pyGet_nat _ hi]

/-- `interp` inside of the window. -/
theorem interp_in {x h : ℝ} {n : Nat} (hn : 2 ≤ n) (hh : 0 < h) {Ek : ℝ} (h1 : x ≤ Ek) (h2 : Ek ≤ x + ((n : ℝ) - 1) * h) :
    ∃ (i : Nat) (t : ℝ), i + 1 < n ∧ 0 ≤ t ∧ t ≤ 1 ∧ Ek = x + (i + t) * h ∧
      (i + 2 < n → t < 1) ∧
      ∀ f : List ℂ, f.length = n → interp (uniform x h n) f Ek = .ok (some ((1 - t) * f.getD i 0 + t * f.getD (i + 1) 0)) := by
  obtain ⟨i, hi, e, b1, b2, b3⟩ := interpIdx_in hn hh h1 h2
  refine ⟨i, (Ek - (x + i * h)) / h, hi, div_nonneg (by linarith) hh.le, ?_, ?_, ?_, ?_⟩
  · rw [div_le_one hh]; linarith
  · field_simp; ring
  · intro hlt
    rw [div_lt_one hh]
    have := b3 hlt
    linarith
  · intro f hf
    unfold interp
    rw [e]
    simp only [py_bind_ok]
    have ge : pyGet (uniform x h n) ((i : Int) + 1) = .ok (x + ((i : ℝ) + 1) * h) := by
      have := uniform_get (x := x) (h := h) (n := n) (i := i + 1) hi
      push_cast at this
      exact this
    have fe : pyGet f ((i : Int) + 1) = .ok f[i + 1] := by
      have := list_get (f := f) (i := i + 1) (by omega)
      push_cast at this
      exact this
    rw [ge, uniform_get (by omega), fe, list_get (f := f) (i := i) (by omega)]
    simp only [py_bind_ok]
    rw [lin_eq hh, getD_lt (by omega), getD_lt (by omega)]
    rfl

/-- `interp` outside of the window. -/
theorem interp_out {x h : ℝ} {n : Nat} (hn : 2 ≤ n) {Ek : ℝ} (he : Ek < x ∨ x + ((n : ℝ) - 1) * h < Ek) (f : List ℂ) :
    interp (uniform x h n) f Ek = .ok none := by
  unfold interp
  rw [interpIdx_out hn he]
  rfl

/-- C40: outside of the window zero is returned. -/
theorem c40_outside {x h : ℝ} {n : Nat} (hn : 2 ≤ n) {Ek : ℝ} (he : Ek < x ∨ x + ((n : ℝ) - 1) * h < Ek)
    (phi hphi : List ℂ) (c : Bool) :
    getAtK1 (uniform x h n) phi hphi Ek c = .ok (0, 0) ∧ func2vN (uniform x h n) hphi Ek c = .ok 0 := by
  unfold getAtK1 func2vN
  rw [interp_out hn he, interp_out hn he]
  exact ⟨rfl, rfl⟩

example : getAtK1 (uniform (-1) 1 3) [1, 2, 3] [4, 5, 6] 2 true = .ok (0, 0) :=
  (c40_outside (by norm_num) (Or.inr (by norm_num)) _ _ _).1

/-- C40: inside of the window nothing is raised, the values of both arrays are the weighted means (multiplied by `π` and
conjugated on request) of those at the two grid points next to the energy. -/
theorem c40_inside {x h : ℝ} {n : Nat} (hn : 2 ≤ n) (hh : 0 < h) {Ek : ℝ} (h1 : x ≤ Ek)
    (h2 : Ek ≤ x + ((n : ℝ) - 1) * h) :
    ∃ (i : Nat) (t : ℝ), i + 1 < n ∧ 0 ≤ t ∧ t ≤ 1 ∧ Ek = x + (i + t) * h ∧
      ∀ phi hphi : List ℂ, phi.length = n → hphi.length = n →
      (∀ c : Bool, getAtK1 (uniform x h n) phi hphi Ek c
        = .ok (Real.pi * cjIf c ((1 - t) * hphi.getD i 0 + t * hphi.getD (i + 1) 0),
            Real.pi * cjIf c ((1 - t) * phi.getD i 0 + t * phi.getD (i + 1) 0))) ∧
      (∀ plus : Bool, func2vN (uniform x h n) hphi Ek plus
        = .ok (Real.pi * cjIf (!plus) ((1 - t) * hphi.getD i 0 + t * hphi.getD (i + 1) 0))) := by
  obtain ⟨i, t, a1, a2, a3, a4, _, a5⟩ := interp_in hn hh h1 h2
  refine ⟨i, t, a1, a2, a3, a4, ?_⟩
  intro phi hphi hp hq
  constructor
  · intro c
    unfold getAtK1
    rw [a5 phi hp, a5 hphi hq]
    rfl
  · intro c
    unfold func2vN
    rw [a5 hphi hq]
    simp only [py_bind_ok]
    cases c <;> rfl

example : ∃ (i : Nat) (t : ℝ), i + 1 < 3 ∧ 0 ≤ t ∧ t ≤ 1 ∧ (1 / 2 : ℝ) = -1 + (i + t) * 1 := by
  obtain ⟨i, t, h1, h2, h3, h4, _⟩ := c40_inside (x := -1) (h := 1) (n := 3) (Ek := 1 / 2) (by norm_num) (by norm_num)
    (by norm_num) (by norm_num)
  exact ⟨i, t, h1, h2, h3, h4⟩

/-- C40: at a grid point, also at the first and the last one, the stored values are returned. -/
theorem c40_gridpoint {x h : ℝ} {n : Nat} (hn : 2 ≤ n) (hh : 0 < h) {k : Nat} (hk : k < n) {phi hphi : List ℂ}
    (hp : phi.length = n) (hq : hphi.length = n) (c : Bool) :
    getAtK1 (uniform x h n) phi hphi (x + k * h) c
      = .ok (Real.pi * cjIf c (hphi[k]'(by omega)), Real.pi * cjIf c (phi[k]'(by omega))) ∧
    func2vN (uniform x h n) hphi (x + k * h) c = .ok (Real.pi * cjIf (!c) (hphi[k]'(by omega))) := by
  have hkn : (k : ℝ) ≤ (n : ℝ) - 1 := by
    have : ((k + 1 : Nat) : ℝ) ≤ n := by exact_mod_cast hk
    push_cast at this
    linarith
  obtain ⟨i, t, a1, a2, a3, a4, a5⟩ := c40_inside (x := x) (h := h) (Ek := x + k * h) hn hh
    (by nlinarith [Nat.cast_nonneg (α := ℝ) k]) (by nlinarith)
  have hk' : (k : ℝ) = i + t := by
    have : (k : ℝ) * h = (i + t) * h := by linarith
    exact mul_right_cancel₀ hh.ne' this
  obtain ⟨b1, b2⟩ := a5 phi hphi hp hq
  rw [b1 c, b2 c]
  have key : ∀ f : List ℂ, (hf : f.length = n) →
      (1 - (t : ℂ)) * f.getD i 0 + t * f.getD (i + 1) 0 = f[k]'(by omega) := by
    intro f hf
    rcases Nat.lt_trichotomy k (i + 1) with hlt | heq | hgt
    · have hki : k = i := by
        have : (i : ℝ) ≤ k := by linarith
        have : i ≤ k := by exact_mod_cast this
        omega
      have ht : t = 0 := by rw [hki] at hk'; linarith
      subst hki
      rw [ht, getD_lt (by omega)]
      simp
    · have ht : t = 1 := by rw [heq] at hk'; push_cast at hk'; linarith
      subst heq
      rw [ht, getD_lt (by omega), getD_lt (by omega)]
      simp
    · have : ((i + 1 : Nat) : ℝ) < k := by exact_mod_cast hgt
      push_cast at this
      linarith
  rw [key phi hp, key hphi hq]
  exact ⟨rfl, rfl⟩

example : getAtK1 (uniform (-1) 1 3) [1, 2, Complex.I] [4, 5, 6] 1 true
    = .ok (Real.pi * (starRingEnd ℂ) 6, Real.pi * (starRingEnd ℂ) Complex.I) := by
  have := (c40_gridpoint (x := -1) (h := 1) (n := 3) (by norm_num) (by norm_num) (k := 2) (by norm_num)
    (phi := [1, 2, Complex.I]) (hphi := [4, 5, 6]) rfl rfl true).1
  norm_num at this
  simpa [cjIf] using this

/-- C40: for real data the value (without the factor `π`) lies between those at the neighbouring grid points. -/
theorem c40_between {x h : ℝ} {n : Nat} (hn : 2 ≤ n) (hh : 0 < h) {Ek : ℝ} (h1 : x ≤ Ek)
    (h2 : Ek ≤ x + ((n : ℝ) - 1) * h) {f : List ℝ} (hf : f.length = n) (plus : Bool) :
    ∃ (i : Nat) (y : ℝ), i + 1 < n ∧ x + i * h ≤ Ek ∧ Ek ≤ x + (i + 1) * h ∧
      func2vN (uniform x h n) (f.map fun a : ℝ => (a : ℂ)) Ek plus = .ok (Real.pi * (y : ℂ)) ∧
      min (f.getD i 0) (f.getD (i + 1) 0) ≤ y ∧ y ≤ max (f.getD i 0) (f.getD (i + 1) 0) := by
  obtain ⟨i, t, a1, a2, a3, a4, a5⟩ := c40_inside hn hh h1 h2
  obtain ⟨_, b2⟩ := a5 (f.map fun a : ℝ => (a : ℂ)) (f.map fun a : ℝ => (a : ℂ)) (by simpa using hf) (by simpa using hf)
  refine ⟨i, (1 - t) * f.getD i 0 + t * f.getD (i + 1) 0, a1, by rw [a4]; nlinarith, by rw [a4]; nlinarith, ?_, ?_, ?_⟩
  · rw [b2 plus]
    have e : ∀ j, (f.map fun a : ℝ => (a : ℂ)).getD j 0 = ((f.getD j 0 : ℝ) : ℂ) := by
      intro j
      rw [List.getD_eq_getElem?_getD, List.getD_eq_getElem?_getD, List.getElem?_map]
      cases f[j]? <;> simp
    rw [e, e]
    congr 2
    cases plus <;> simp [cjIf]
  · have m1 := min_le_left (f.getD i 0) (f.getD (i + 1) 0)
    have m2 := min_le_right (f.getD i 0) (f.getD (i + 1) 0)
    nlinarith
  · have m1 := le_max_left (f.getD i 0) (f.getD (i + 1) 0)
    have m2 := le_max_right (f.getD i 0) (f.getD (i + 1) 0)
    nlinarith

example : ∃ (i : Nat) (y : ℝ), i + 1 < 2 ∧ (0 : ℝ) + i * 2 ≤ 1 ∧ (1 : ℝ) ≤ 0 + (i + 1) * 2 ∧
    func2vN (uniform 0 2 2) ([3, 7].map fun a : ℝ => (a : ℂ)) 1 true = .ok (Real.pi * (y : ℂ)) ∧
      min (([3, 7] : List ℝ).getD i 0) (([3, 7] : List ℝ).getD (i + 1) 0) ≤ y ∧
      y ≤ max (([3, 7] : List ℝ).getD i 0) (([3, 7] : List ℝ).getD (i + 1) 0) :=
  c40_between (n := 2) (x := 0) (h := 2) (Ek := 1) (f := [3, 7]) (by norm_num) (by norm_num) (by norm_num) (by norm_num) rfl true

/-! ### C59 -/

theorem lmin_le {l : List ℝ} {y : ℝ} (hy : y ∈ l) : lmin l ≤ y := by
  have key : ∀ (l : List ℝ) (a : ℝ), l.foldl min a ≤ a ∧ ∀ y ∈ l, l.foldl min a ≤ y := by
    intro l
    induction l with
    | nil => intro a; simp
    | cons b l ih =>
      intro a
      obtain ⟨h1, h2⟩ := ih (min a b)
      refine ⟨h1.trans (min_le_left _ _), ?_⟩
      intro y hy
      rcases List.mem_cons.1 hy with rfl | hy
      · exact h1.trans (min_le_right _ _)
      · exact h2 y hy
  exact (key l _).2 y hy

theorem le_lmax {l : List ℝ} {y : ℝ} (hy : y ∈ l) : y ≤ lmax l := by
  have key : ∀ (l : List ℝ) (a : ℝ), a ≤ l.foldl max a ∧ ∀ y ∈ l, y ≤ l.foldl max a := by
    intro l
    induction l with
    | nil => intro a; simp
    | cons b l ih =>
      intro a
      obtain ⟨h1, h2⟩ := ih (max a b)
      refine ⟨(le_max_left _ _).trans h1, ?_⟩
      intro y hy
      rcases List.mem_cons.1 hy with rfl | hy
      · exact (le_max_right _ _).trans h1
      · exact h2 y hy
  exact (key l _).2 y hy

theorem foldl_min_mem (l : List ℝ) (a : ℝ) : l.foldl min a = a ∨ l.foldl min a ∈ l := by
  induction l generalizing a with
  | nil => simp
  | cons b l ih =>
    rw [List.foldl_cons]
    rcases ih (min a b) with h | h
    · rw [h]
      rcases min_choice a b with h | h <;> simp [h]
    · exact Or.inr (List.mem_cons_of_mem _ h)

theorem foldl_max_mem (l : List ℝ) (a : ℝ) : l.foldl max a = a ∨ l.foldl max a ∈ l := by
  induction l generalizing a with
  | nil => simp
  | cons b l ih =>
    rw [List.foldl_cons]
    rcases ih (max a b) with h | h
    · rw [h]
      rcases max_choice a b with h | h <;> simp [h]
    · exact Or.inr (List.mem_cons_of_mem _ h)

theorem mem_prod2 {l l' : List Nat} {p : Nat × Nat} : p ∈ prod2 l l' ↔ p.1 ∈ l ∧ p.2 ∈ l' := by
  refine ⟨prod2_mem, fun h => ?_⟩
  simp only [prod2, List.mem_flatMap, List.mem_map]
  exact ⟨p.1, h.1, p.2, h.2, rfl⟩

variable {v : View} {lab ix1 : Nat → Nat → Nat → Nat}

/-- `emList` in closed form. -/
theorem emList_ok (h : VOkC v lab ix1) (E : Nat → ℝ) (dmin dmax : ℝ) :
    emList v E dmin dmax = .ok ([dmin, dmax]
      ++ ((List.range v.ncharge).flatMap fun c => (prod2 (v.row c) (v.row c)).flatMap fun p =>
          [dmax - E p.1 + E p.2, dmin - E p.1 + E p.2])
      ++ ((List.range (v.ncharge - 2)).flatMap fun c => (prod2 (v.row (c + 2)) (v.row c)).flatMap fun p =>
          [dmin + E p.1 - E p.2, dmax + E p.1 - E p.2])) := by
  unfold emList
  rw [collect_ok (g := fun c => (prod2 (v.row c) (v.row c)).flatMap fun p =>
          [dmax - E p.1 + E p.2, dmin - E p.1 + E p.2]), py_bind_ok,
    collect_ok (g := fun c => (prod2 (v.row (c + 2)) (v.row c)).flatMap fun p =>
          [dmin + E p.1 - E p.2, dmax + E p.1 - E p.2])]
  · rfl
  · intro c hc
    have := List.mem_range.1 hc
    have e2 := h.states (c := c + 2) (by omega)
    push_cast at e2
    rw [e2, h.states (by omega)]
    rfl
  · intro c hc
    have := List.mem_range.1 hc
    rw [h.states (by omega)]
    rfl

/-- `e` lies in the window of a grid. -/
def Covers (grid : List ℝ) (e : ℝ) : Prop :=
  ∃ a b, pyGet grid 0 = .ok a ∧ pyGet grid (-1) = .ok b ∧ a ≤ e ∧ e ≤ b

/-- The extension of a grid as in `prepare_energy_grid`, for a band from `dmin` to `dmax`. -/
def extended (v : View) (E : Nat → ℝ) (dmin dmax : ℝ) (n : Nat) (fct : ℝ) : Py (List ℝ × Nat × Nat) := do
  let l ← emList v E dmin dmax
  gridExt (linspace dmin dmax n) dmin dmax (lmin l) (lmax l) fct

theorem extended_covers (h : VOkC v lab ix1) (E : Nat → ℝ) {dmin dmax : ℝ} (hd : dmin < dmax) {n : Nat} (hn : 2 ≤ n)
    {fct : ℝ} (hf : 1 ≤ fct) :
    ∃ l r, emList v E dmin dmax = .ok l ∧ extended v E dmin dmax n fct = .ok r ∧ r.1.length = r.2.1 + n + r.2.2 ∧
      (∀ i, i < n → r.1[r.2.1 + i]? = (linspace dmin dmax n)[i]?) ∧
      ∀ e, lmin l ≤ e → e ≤ lmax l → Covers r.1 e := by
  obtain ⟨L, hL⟩ : ∃ L, emList v E dmin dmax = .ok L := ⟨_, emList_ok h E dmin dmax⟩
  have e := gridExt_eq (emin := lmin L) (emax := lmax L) (fct := fct) hn hd
  refine ⟨L, _, hL, by unfold extended; rw [hL, py_bind_ok]; exact e, ?_, ?_, ?_⟩
  · simp
  · intro i hi
    simp only [linspace_eq, uniform]
    rw [List.getElem?_eq_getElem (by simp; omega), List.getElem?_eq_getElem (by simp; omega)]
    simp only [List.getElem_map, List.getElem_range]
    push_cast
    congr 1
    ring
  · have hL' := hL
    rw [emList_ok h E dmin dmax, Except.ok.injEq] at hL'
    intro e he1 he2
    have hn1 : (0 : ℝ) < (n : ℝ) - 1 := by
      have : (2 : ℝ) ≤ n := by exact_mod_cast hn
      linarith
    obtain ⟨st, hst⟩ : ∃ h, h = (dmax - dmin) / ((n : ℝ) - 1) := ⟨_, rfl⟩
    have hpos : 0 < st := by rw [hst]; exact div_pos (by linarith) hn1
    have hmax : dmax = dmin + ((n : ℝ) - 1) * st := by rw [hst]; field_simp; ring
    rw [← hst]
    have m1 : lmin L ≤ dmin := lmin_le (by rw [← hL']; simp)
    have m2 : dmax ≤ lmax L := le_lmax (by rw [← hL']; simp)
    have c1 := npts_cover (d := fct * (dmin - lmin L)) hpos
    have c2 := npts_cover (d := fct * (lmax L - dmax)) hpos
    have d1 : dmin - lmin L ≤ fct * (dmin - lmin L) := by nlinarith
    have d2 : lmax L - dmax ≤ fct * (lmax L - dmax) := by nlinarith
    have g0 := uniform_get (x := dmin - npts (fct * (dmin - lmin L)) st * st) (h := st)
      (n := npts (fct * (dmin - lmin L)) st + n + npts (fct * (lmax L - dmax)) st) (i := 0) (by omega)
    rw [show ((0 : Nat) : Int) = 0 by rfl] at g0
    refine ⟨_, _, g0, uniform_last (by omega), ?_, ?_⟩
    · push_cast
      linarith
    · push_cast
      nlinarith

/-- C59: the energies `Ek - E[b1] + E[b]` (`b1`, `b` of one charge) read at a point of the grid lie in the window of the
extended grid, which is longer by the reported numbers of points and contains the grid between them. -/
theorem c59_same (h : VOkC v lab ix1) (E : Nat → ℝ) {dmin dmax : ℝ} (hd : dmin < dmax) {n : Nat} (hn : 2 ≤ n)
    {fct : ℝ} (hf : 1 ≤ fct) :
    ∃ r, extended v E dmin dmax n fct = .ok r ∧ r.1.length = r.2.1 + n + r.2.2 ∧
      (∀ i, i < n → r.1[r.2.1 + i]? = (linspace dmin dmax n)[i]?) ∧
      ∀ (c b1 b : Nat), b1 ∈ v.row c → b ∈ v.row c → ∀ Ek : ℝ, dmin ≤ Ek → Ek ≤ dmax → Covers r.1 (Ek - E b1 + E b) := by
  obtain ⟨l, r, hl, hr, h1, h2, h3⟩ := extended_covers h E hd hn hf
  refine ⟨r, hr, h1, h2, ?_⟩
  intro c b1 b hb1 hb Ek e1 e2
  rw [emList_ok h E dmin dmax, Except.ok.injEq] at hl
  have key : ∀ y, y = dmax - E b1 + E b ∨ y = dmin - E b1 + E b → y ∈ l := by
    intro y hy
    rw [← hl]
    refine List.mem_append_left _ (List.mem_append_right _ ?_)
    rw [List.mem_flatMap]
    refine ⟨c, List.mem_range.2 (h.row_lt hb), ?_⟩
    rw [List.mem_flatMap]
    exact ⟨(b1, b), mem_prod2.2 ⟨hb1, hb⟩, by simpa using hy⟩
  refine h3 _ ?_ ?_
  · have := lmin_le (key _ (Or.inr rfl)); linarith
  · have := le_lmax (key _ (Or.inl rfl)); linarith

/-- C59, for a band that is symmetric: the energies `-(Ek - E[d] + E[b])` (`d` with two particles more than `b`) are in the
window too. Missing: other bands, see `c59_not_covered`. -/
theorem c59_pair_partial (h : VOkC v lab ix1) (E : Nat → ℝ) {D : ℝ} (hd : 0 < D) {n : Nat} (hn : 2 ≤ n)
    {fct : ℝ} (hf : 1 ≤ fct) :
    ∃ r, extended v E (-D) D n fct = .ok r ∧
      ∀ (c d b : Nat), d ∈ v.row (c + 2) → b ∈ v.row c → ∀ Ek : ℝ, -D ≤ Ek → Ek ≤ D →
        Covers r.1 (-(Ek - E d + E b)) := by
  obtain ⟨l, r, hl, hr, h1, h2, h3⟩ := extended_covers h E (dmin := -D) (dmax := D) (by linarith) hn hf
  refine ⟨r, hr, ?_⟩
  intro c d b hdm hb Ek e1 e2
  rw [emList_ok h E (-D) D, Except.ok.injEq] at hl
  have key : ∀ y, y = -D + E d - E b ∨ y = D + E d - E b → y ∈ l := by
    intro y hy
    rw [← hl]
    refine List.mem_append_right _ ?_
    rw [List.mem_flatMap]
    have := h.row_lt hdm
    refine ⟨c, List.mem_range.2 (by omega), ?_⟩
    rw [List.mem_flatMap]
    exact ⟨(d, b), mem_prod2.2 ⟨hdm, hb⟩, by simpa using hy⟩
  refine h3 _ ?_ ?_
  · have := lmin_le (key _ (Or.inl rfl)); linarith
  · have := le_lmax (key _ (Or.inr rfl)); linarith

example : ∃ (v : View) (r : List ℝ × Nat × Nat), 3 ∈ v.row 2 ∧ 0 ∈ v.row 0 ∧
    extended v (fun b => b) (-5) 5 10 (11 / 10) = .ok r ∧ Covers r.1 (-(4 - 3 + 0)) := by
  obtain ⟨d, _, hv, hs, _⟩ := viewC_example 2
  have h3 : 3 ∈ (d.view 2).row 2 := by
    have : (d.view 2).row 2 = [3] := by simp [View.row, DM.view, hs]
    simp [this]
  have h0 : 0 ∈ (d.view 2).row 0 := by
    have : (d.view 2).row 0 = [0] := by simp [View.row, DM.view, hs]
    simp [this]
  obtain ⟨r, hr, hc⟩ := c59_pair_partial hv (fun b => (b : ℝ)) (D := 5) (by norm_num) (n := 10) (by norm_num)
    (fct := 11 / 10) (by norm_num)
  refine ⟨d.view 2, r, h3, h0, hr, ?_⟩
  have := hc 0 3 0 h3 h0 4 (by norm_num) (by norm_num)
  simpa using this

/-- C59 fails for other bands: for a band from 10 to 20 and states without energy nothing is added to the grid, for any factor,
and at every grid point the energy `-(Ek - E[d] + E[b])` is outside of the window. Then both interpolations return zero
whatever the data are. -/
theorem c59_not_covered (h : VOkC v lab ix1) {n : Nat} (hn : 2 ≤ n) (fct : ℝ) :
    ∃ r, extended v (fun _ => 0) 10 20 n fct = .ok r ∧ ∀ Ek : ℝ, 10 ≤ Ek → Ek ≤ 20 → ¬ Covers r.1 (-(Ek - 0 + 0)) ∧
      ∀ (phi hphi : List ℂ) (c : Bool), getAtK1 r.1 phi hphi (-(Ek - 0 + 0)) c = .ok (0, 0) ∧
        func2vN r.1 hphi (-(Ek - 0 + 0)) c = .ok 0 := by
  obtain ⟨L, hL⟩ : ∃ L, emList v (fun _ => 0) 10 20 = .ok L := ⟨_, emList_ok h _ 10 20⟩
  have hL' := hL
  rw [emList_ok h _ 10 20, Except.ok.injEq] at hL'
  have hall : ∀ y ∈ L, y = 10 ∨ y = 20 := by
    intro y hy
    rw [← hL'] at hy
    simp only [List.mem_append, List.mem_flatMap, List.mem_cons, List.not_mem_nil, or_false] at hy
    rcases hy with (hy | ⟨_, _, _, _, hy⟩) | ⟨_, _, _, _, hy⟩
    · exact hy
    · rcases hy with hy | hy <;> norm_num at hy <;> simp [hy]
    · rcases hy with hy | hy <;> norm_num at hy <;> simp [hy]
  have hhd : L.headD 0 = 10 := by rw [← hL']; simp
  have hmin : lmin L = 10 := by
    apply le_antisymm (lmin_le (by rw [← hL']; simp))
    unfold lmin
    rw [hhd]
    rcases foldl_min_mem L 10 with h' | h'
    · rw [h']
    · rcases hall _ h' with h' | h' <;> rw [h']
      norm_num
  have hmax : lmax L = 20 := by
    refine le_antisymm ?_ (le_lmax (by rw [← hL']; simp))
    unfold lmax
    rw [hhd]
    rcases foldl_max_mem L 10 with h' | h'
    · rw [h']; norm_num
    · rcases hall _ h' with h' | h' <;> rw [h']
      norm_num
  have e := gridExt_eq (dmin := 10) (dmax := 20) (emin := lmin L) (emax := lmax L) (fct := fct) hn (by norm_num)
  rw [hmin, hmax] at e
  simp only [sub_self, mul_zero, npts, zero_div, Int.ceil_zero, Int.toNat_zero, Nat.cast_zero, zero_mul, sub_zero, zero_add,
    add_zero] at e
  have hx : extended v (fun _ => 0) 10 20 n fct = .ok (uniform 10 ((20 - 10) / ((n : ℝ) - 1)) n, 0, 0) := by
    unfold extended
    rw [hL, py_bind_ok, hmin, hmax]
    exact e
  refine ⟨_, hx, ?_⟩
  intro Ek h1 h2
  constructor
  · rintro ⟨a, b, ha, hb, hab, _⟩
    have g0 := uniform_get (x := 10) (h := (20 - 10) / ((n : ℝ) - 1)) (n := n) (i := 0) (by omega)
    rw [show ((0 : Nat) : Int) = 0 by rfl] at g0
    simp only at ha
    rw [g0, Except.ok.injEq] at ha
    push_cast at ha
    linarith
  · intro phi hphi c
    exact c40_outside hn (Or.inl (by linarith)) phi hphi c

example : ∃ (v : View) (lab ix1 : Nat → Nat → Nat → Nat), VOkC v lab ix1 ∧ 3 ∈ v.row 2 ∧ 0 ∈ v.row 0 := by
  obtain ⟨d, _, hv, hs, _⟩ := viewC_example 2
  exact ⟨_, _, _, hv, by simp [View.row, DM.view, hs], by simp [View.row, DM.view, hs]⟩

end VN2

end

end Verif
