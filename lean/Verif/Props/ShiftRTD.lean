import Verif.Model.RTDInt
import Verif.Props.Shift
import Verif.Props.RTDCur

/-! C68 for the RTD approach: moving the zero of energy changes no kernel. -/

namespace Verif

open Finset

noncomputable section

namespace RTD

/-- The integrals only depend on energies measured from the chemical potentials: adding `d` to the energy of an electron in
the first lead and `e` to that of one in the second changes nothing. (The energies are passed with the opposite sign.) -/
structure Lib.Shift (lib : Lib) : Prop where
  d : ∀ b p z1 z2 z3 T1 T2 m1 m2 D d e,
    lib.dOz b p (z1 - d) (z2 - d - e) (z3 - d) T1 T2 (m1 + d) (m2 + e) D = lib.dOz b p z1 z2 z3 T1 T2 m1 m2 D
  x : ∀ b p z1 z2 z3 T1 T2 m1 m2 D d e,
    lib.xOz b p (z1 - d) (z2 - d - e) (z3 - e) T1 T2 (m1 + d) (m2 + e) D = lib.xOz b p z1 z2 z3 T1 T2 m1 m2 D

theorem Fun.dOzaki_sh (F : Fun) (b : List (ℝ × ℝ)) (p : Int) (z1 z2 z3 T1 T2 m1 m2 D d e : ℝ) :
    F.dOzaki b p (z1 - d) (z2 - d - e) (z3 - d) T1 T2 (m1 + d) (m2 + e) D = F.dOzaki b p z1 z2 z3 T1 T2 m1 m2 D := by
  unfold Fun.dOzaki
  dsimp only
  have h1 : F.dPole (z1 - d) (z2 - d - e) (z3 - d) T1 T2 (m1 + d) (m2 + e) ((|D| + |D|) * 0.5)
      = F.dPole z1 z2 z3 T1 T2 m1 m2 ((|D| + |D|) * 0.5) := by
    funext n
    unfold Fun.dPole
    rw [show z2 - d - e + (m1 + d) + (m2 + e) = z2 + m1 + m2 by ring,
      show z3 - d + (m1 + d) = z3 + m1 by ring, show z1 - d + (m1 + d) = z1 + m1 by ring]
  rw [h1, show z3 - d + (m1 + d) = z3 + m1 by ring, show z1 - d + (m1 + d) = z1 + m1 by ring,
    show (z3 - d) / T1 - (z1 - d) / T1 = z3 / T1 - z1 / T1 by ring]

theorem Fun.xOzaki_sh (F : Fun) (b : List (ℝ × ℝ)) (p : Int) (z1 z2 z3 T1 T2 m1 m2 D d e : ℝ) :
    F.xOzaki b p (z1 - d) (z2 - d - e) (z3 - e) T1 T2 (m1 + d) (m2 + e) D = F.xOzaki b p z1 z2 z3 T1 T2 m1 m2 D := by
  unfold Fun.xOzaki
  dsimp only
  have h1 : F.xPole (z1 - d) (z2 - d - e) (z3 - e) T1 T2 (m1 + d) (m2 + e) ((|D| + |D|) * 0.5)
      = F.xPole z1 z2 z3 T1 T2 m1 m2 ((|D| + |D|) * 0.5) := by
    funext n
    unfold Fun.xPole
    rw [show z2 - d - e + (m1 + d) + (m2 + e) = z2 + m1 + m2 by ring,
      show z3 - e + (m2 + e) = z3 + m2 by ring, show z1 - d + (m1 + d) = z1 + m1 by ring,
      show -(z2 - d - e) + (z3 - e) - (m1 + d) = -z2 + z3 - m1 by ring]
  rw [h1]

/-- The integrals of specfunc.py have this property. -/
theorem Fun.shift (F : Fun) : F.lib.Shift :=
  ⟨fun b p z1 z2 z3 T1 T2 m1 m2 D d e => F.dOzaki_sh b p z1 z2 z3 T1 T2 m1 m2 D d e,
    fun b p z1 z2 z3 T1 T2 m1 m2 D d e => F.xOzaki_sh b p z1 z2 z3 T1 T2 m1 m2 D d e⟩

theorem integralD_sh {lib : Lib} (hl : lib.Shift) (poles : Option lib.Poles) (p1 eta1 : Int)
    (E1 E2 E3 T1 T2 mu1 mu2 D δ : ℝ) (im : Bool) :
    integralD lib poles p1 eta1 (E1 + δ) (E2 + (1 + eta1) * δ) (E3 + δ) T1 T2 (mu1 + δ) (mu2 + δ) D im
      = integralD lib poles p1 eta1 E1 E2 E3 T1 T2 mu1 mu2 D im := by
  unfold integralD
  rw [show E3 + δ - (mu1 + δ) = E3 - mu1 by ring, show E1 + δ - (mu1 + δ) = E1 - mu1 by ring,
    show E2 + (1 + (eta1 : ℝ)) * δ - (mu1 + δ) - eta1 * (mu2 + δ) = E2 - mu1 - eta1 * mu2 by ring]
  split
  · rfl
  · cases poles with
    | none => rfl
    | some b =>
      have := hl.d b p1 (-E1) (-E2) (-E3) T1 T2 mu1 (eta1 * mu2) (D / 2) δ (eta1 * δ)
      dsimp only
      rw [← this]
      rw [show -(E1 + δ) = -E1 - δ by ring, show -(E3 + δ) = -E3 - δ by ring,
        show -(E2 + (1 + (eta1 : ℝ)) * δ) = -E2 - δ - eta1 * δ by ring,
        show (eta1 : ℝ) * (mu2 + δ) = eta1 * mu2 + eta1 * δ by ring]

theorem integralX_sh {lib : Lib} (hl : lib.Shift) (poles : Option lib.Poles) (p1 eta1 : Int)
    (E1 E2 E3 T1 T2 mu1 mu2 D δ : ℝ) (im : Bool) :
    integralX lib poles p1 eta1 (E1 + δ) (E2 + (1 + eta1) * δ) (E3 + eta1 * δ) T1 T2 (mu1 + δ) (mu2 + δ) D im
      = integralX lib poles p1 eta1 E1 E2 E3 T1 T2 mu1 mu2 D im := by
  unfold integralX
  rw [show E3 + (eta1 : ℝ) * δ - eta1 * (mu2 + δ) = E3 - eta1 * mu2 by ring,
    show E1 + δ - (mu1 + δ) = E1 - mu1 by ring,
    show E2 + (1 + (eta1 : ℝ)) * δ - (mu1 + δ) - eta1 * (mu2 + δ) = E2 - mu1 - eta1 * mu2 by ring]
  split
  · rfl
  · cases poles with
    | none => rfl
    | some b =>
      have := hl.x b p1 (-E1) (-E2) (-E3) T1 T2 mu1 (eta1 * mu2) (D / 2) δ (eta1 * δ)
      dsimp only
      rw [← this]
      rw [show -(E1 + δ) = -E1 - δ by ring, show -(E3 + (eta1 : ℝ) * δ) = -E3 - eta1 * δ by ring,
        show -(E2 + (1 + (eta1 : ℝ)) * δ) = -E2 - δ - eta1 * δ by ring,
        show (eta1 : ℝ) * (mu2 + δ) = eta1 * mu2 + eta1 * δ by ring]

theorem states_row (v : View) {c : Nat} {l : List Nat} (e : v.states (c : Int) = .ok l) : l = v.row c := by
  unfold View.states at e
  unfold View.row
  by_cases hc : c < v.statesdm.length
  · rw [pyGet_nat _ hc] at e
    rw [List.getElem?_eq_getElem hc]
    simpa using e.symm
  · exfalso
    unfold pyGet pyIdx at e
    rw [if_pos (by omega), if_neg (by omega)] at e
    simp at e

/-- A loop over the states of a charge, which may be -1. -/
theorem loop_congr {v : View} {la : Lab} (h : VOk v la) {β : Type} {q : Int} (hq : -1 ≤ q)
    {f g : Nat → Py (List β)} (hf : ∀ c : Nat, (c : Int) = q → ∀ x ∈ v.row c, f x = g x) :
    (do let l ← v.states q; collect l f) = (do let l ← v.states q; collect l g) := by
  rcases lt_or_ge q 0 with h0 | h0
  · have : q = -1 := by omega
    subst this
    rw [h.states_neg]
    rfl
  · obtain ⟨c, rfl⟩ := Int.eq_ofNat_of_zero_le h0
    cases e : v.states (c : Int) with
    | error _ => rfl
    | ok l =>
      rw [states_row v e]
      exact collect_congr (hf c rfl)

/-- What the generators read, with other energies and with the chemical potentials moved by `δ`. -/
def In.moved (s : In) (δ : ℝ) (E' : Nat → ℝ) : In :=
  ⟨s.v, E', s.nmany, { s.L with mu := fun l => s.L.mu l + δ }, s.tl, s.nsingle, s.lib, s.poles⟩

theorem both_congr {β : Type} {p q p' q' : Py (List β)} (hp : p' = p) (hq : q' = q) : both p' q' = both p q := by
  rw [hp, hq]

section
variable {s : In} {la : Lab} (h : VOk s.v la) {δ e0 : ℝ} {E' : Nat → ℝ}
  (hE : ∀ q b, b ∈ s.v.row q → E' b = s.E b + e0 + δ * q) (hl : s.lib.Shift)

include hl in
theorem addD_sh (x : Vert) (t2 : ℂ) (p1 eta1 : Int) {E2 E2' E3 E3' : ℝ} (a3 : Nat) (q3 : Int) (a4 : Nat) (q4 : Int)
    (h2 : E2' = E2 + (1 + eta1) * δ) (h3 : E3' = E3 + δ) :
    addD (s.moved δ E') { x with E1 := x.E1 + δ } t2 p1 eta1 E2' E3' a3 q3 a4 q4
      = addD s x t2 p1 eta1 E2 E3 a3 q3 a4 q4 := by
  subst h2 h3
  unfold addD
  have := integralD_sh hl s.poles p1 eta1 x.E1 E2 E3 (s.L.T x.r0) (s.L.T x.r1) (s.L.mu x.r0) (s.L.mu x.r1)
    (s.bw x) δ (decide (|t2.im| > s.cut3))
  refine if_congr Iff.rfl ?_ rfl
  exact congrArg (fun i => i >>= fun i => pure [Call.two x.r0 (t2 * i).re x.indx0 x.indx1 a3 q3 a4 q4]) this

include hl in
theorem addX_sh (x : Vert) (t2 : ℂ) (p1 eta1 : Int) {E2 E2' E3 E3' : ℝ} (a3 : Nat) (q3 : Int) (a4 : Nat) (q4 : Int)
    (h2 : E2' = E2 + (1 + eta1) * δ) (h3 : E3' = E3 + eta1 * δ) :
    addX (s.moved δ E') { x with E1 := x.E1 + δ } t2 p1 eta1 E2' E3' a3 q3 a4 q4
      = addX s x t2 p1 eta1 E2 E3 a3 q3 a4 q4 := by
  subst h2 h3
  unfold addX
  have := integralX_sh hl s.poles p1 eta1 x.E1 E2 E3 (s.L.T x.r0) (s.L.T x.r1) (s.L.mu x.r0) (s.L.mu x.r1)
    (s.bw x) δ (decide (|t2.im| > s.cut3))
  refine if_congr Iff.rfl ?_ rfl
  exact congrArg (fun i => i >>= fun i => pure [Call.two x.r1 (-t2 * i).re x.indx0 x.indx1 a3 q3 a4 q4]) this

include h hE hl

theorem blockUp_sh (x : Vert) (t : ℂ) {a0 a1p c : Nat} (h0 : a0 ∈ s.v.row c) :
    blockUp (s.moved δ E') { x with E1 := x.E1 + δ } t a0 a1p c = blockUp s x t a0 a1p c := by
  unfold blockUp
  refine loop_congr h (by omega) fun c2 e2 a2p ha2 => ?_
  have e2 : (c2 : ℝ) = c + 2 := by exact_mod_cast e2
  refine if_congr Iff.rfl rfl ?_
  refine both_congr ?_ ?_
  · refine loop_congr h (by omega) fun c3 e3 a3 ha3 => ?_
    have e3 : (c3 : ℝ) = c + 1 := by exact_mod_cast e3
    refine both_congr (addD_sh hl _ _ _ _ _ _ _ _ ?_ ?_) (addX_sh hl _ _ _ _ _ _ _ _ ?_ ?_)
    all_goals
      show E' _ - E' _ = _
      simp only [hE _ _ ha2, hE _ _ h0, hE _ _ ha3, e2, e3]
      push_cast; ring
  · refine loop_congr h (by omega) fun c3 e3 a3 ha3 => ?_
    have e3 : (c3 : ℝ) = c + 1 := by exact_mod_cast e3
    refine both_congr (addD_sh hl _ _ _ _ _ _ _ _ ?_ ?_) (addX_sh hl _ _ _ _ _ _ _ _ ?_ ?_)
    all_goals
      show E' _ - E' _ = _
      simp only [hE _ _ ha2, hE _ _ h0, hE _ _ ha3, e2, e3]
      push_cast; ring

theorem blockDown_sh (x : Vert) (t : ℂ) {a0 a1p c : Nat} (h0 : a0 ∈ s.v.row c) (h1 : a1p ∈ s.v.row (c + 1)) :
    blockDown (s.moved δ E') { x with E1 := x.E1 + δ } t a0 a1p c = blockDown s x t a0 a1p c := by
  unfold blockDown
  refine loop_congr h (by omega) fun c2 e2 a2p ha2 => ?_
  have e2 : (c2 : ℝ) = c - 1 := by
    have : (c2 : Int) + 1 = c := by omega
    have : (c2 : ℝ) + 1 = c := by exact_mod_cast this
    linarith
  refine if_congr Iff.rfl rfl ?_
  refine both_congr ?_ ?_
  · refine loop_congr h (by omega) fun c3 e3 a3 ha3 => ?_
    have e3 : (c3 : ℝ) = c := by exact_mod_cast e3
    refine both_congr (addD_sh hl _ _ _ _ _ _ _ _ ?_ ?_) (addX_sh hl _ _ _ _ _ _ _ _ ?_ ?_)
    all_goals
      show E' _ - E' _ = _
      simp only [hE _ _ ha2, hE _ _ h0, hE _ _ h1, hE _ _ ha3, e2, e3]
      push_cast; ring
  · refine loop_congr h (by omega) fun c3 e3 a3 ha3 => ?_
    have e3 : (c3 : ℝ) = c := by exact_mod_cast e3
    refine both_congr (addD_sh hl _ _ _ _ _ _ _ _ ?_ ?_) (addX_sh hl _ _ _ _ _ _ _ _ ?_ ?_)
    all_goals
      show E' _ - E' _ = _
      simp only [hE _ _ ha2, hE _ _ h0, hE _ _ h1, hE _ _ ha3, e2, e3]
      push_cast; ring

theorem blockSame_sh (x : Vert) (t : ℂ) {a0 a1p c : Nat} (h0 : a0 ∈ s.v.row c) :
    blockSame (s.moved δ E') { x with E1 := x.E1 + δ } t a0 a1p c = blockSame s x t a0 a1p c := by
  unfold blockSame
  refine loop_congr h (by omega) fun c2 e2 a2p ha2 => ?_
  have e2 : (c2 : ℝ) = c := by exact_mod_cast e2
  refine if_congr Iff.rfl rfl ?_
  refine both_congr (both_congr ?_ ?_) (both_congr ?_ ?_)
  · refine loop_congr h (by omega) fun c3 e3 a3 ha3 => ?_
    have e3 : (c3 : ℝ) = c + 1 := by exact_mod_cast e3
    refine addD_sh hl _ _ _ _ _ _ _ _ ?_ ?_
    all_goals
      show E' _ - E' _ = _
      simp only [hE _ _ ha2, hE _ _ h0, hE _ _ ha3, e2, e3]
      push_cast; ring
  · refine loop_congr h (by omega) fun c3 e3 a3 ha3 => ?_
    have e3 : (c3 : ℝ) = c - 1 := by
      have : (c3 : Int) + 1 = c := by omega
      have : (c3 : ℝ) + 1 = c := by exact_mod_cast this
      linarith
    refine addX_sh hl _ _ _ _ _ _ _ _ ?_ ?_
    all_goals
      show E' _ - E' _ = _
      simp only [hE _ _ ha2, hE _ _ h0, hE _ _ ha3, e2, e3]
      push_cast; ring
  · refine loop_congr h (by omega) fun c3 e3 a3 ha3 => ?_
    have e3 : (c3 : ℝ) = c - 1 := by
      have : (c3 : Int) + 1 = c := by omega
      have : (c3 : ℝ) + 1 = c := by exact_mod_cast this
      linarith
    refine addD_sh hl _ _ _ _ _ _ _ _ ?_ ?_
    all_goals
      show E' _ - E' _ = _
      simp only [hE _ _ ha2, hE _ _ h0, hE _ _ ha3, e2, e3]
      push_cast; ring
  · refine loop_congr h (by omega) fun c3 e3 a3 ha3 => ?_
    have e3 : (c3 : ℝ) = c + 1 := by exact_mod_cast e3
    refine addX_sh hl _ _ _ _ _ _ _ _ ?_ ?_
    all_goals
      show E' _ - E' _ = _
      simp only [hE _ _ ha2, hE _ _ h0, hE _ _ ha3, e2, e3]
      push_cast; ring

theorem blockNext_sh (x : Vert) (t : ℂ) {a0 a1p c : Nat} (h1 : a1p ∈ s.v.row (c + 1)) :
    blockNext (s.moved δ E') { x with E1 := x.E1 + δ } t a0 a1p c = blockNext s x t a0 a1p c := by
  unfold blockNext
  refine loop_congr h (by omega) fun c2 e2 a2p ha2 => ?_
  have e2 : (c2 : ℝ) = c + 1 := by exact_mod_cast e2
  refine both_congr (both_congr ?_ ?_) (both_congr ?_ ?_)
  · refine loop_congr h (by omega) fun c3 e3 a3 ha3 => ?_
    have e3 : (c3 : ℝ) = c + 2 := by exact_mod_cast e3
    refine addD_sh hl _ _ _ _ _ _ _ _ ?_ ?_
    all_goals
      show E' _ - E' _ = _
      simp only [hE _ _ ha2, hE _ _ h1, hE _ _ ha3, e2, e3]
      push_cast; ring
  · refine loop_congr h (by omega) fun c3 e3 a3 ha3 => ?_
    have e3 : (c3 : ℝ) = c := by exact_mod_cast e3
    refine addX_sh hl _ _ _ _ _ _ _ _ ?_ ?_
    all_goals
      show E' _ - E' _ = _
      simp only [hE _ _ ha2, hE _ _ h1, hE _ _ ha3, e2, e3]
      push_cast; ring
  · refine loop_congr h (by omega) fun c3 e3 a3 ha3 => ?_
    have e3 : (c3 : ℝ) = c := by exact_mod_cast e3
    refine addD_sh hl _ _ _ _ _ _ _ _ ?_ ?_
    all_goals
      show E' _ - E' _ = _
      simp only [hE _ _ ha2, hE _ _ h1, hE _ _ ha3, e2, e3]
      push_cast; ring
  · refine loop_congr h (by omega) fun c3 e3 a3 ha3 => ?_
    have e3 : (c3 : ℝ) = c + 2 := by exact_mod_cast e3
    refine addX_sh hl _ _ _ _ _ _ _ _ ?_ ?_
    all_goals
      show E' _ - E' _ = _
      simp only [hE _ _ ha2, hE _ _ h1, hE _ _ ha3, e2, e3]
      push_cast; ring

theorem col2_sh {a0 c : Nat} (h0 : a0 ∈ s.v.row c) : col2 (s.moved δ E') a0 c = col2 s a0 c := by
  unfold col2
  refine congrArg (fun k => s.v.ind0 a0 a0 (c : Int) >>= k) (funext fun i0 => ?_)
  refine collect_congr fun r _ => ?_
  refine loop_congr h (by omega) fun c1 e1 a1p ha1 => ?_
  obtain rfl : c1 = c + 1 := by omega
  unfold vertex
  refine if_congr Iff.rfl rfl ?_
  refine congrArg (fun k => s.v.ind0 a1p a1p ((c : Int) + 1) >>= k) (funext fun i1 => ?_)
  dsimp only
  have e : E' a1p - E' a0 = s.E a1p - s.E a0 + δ := by
    rw [hE _ _ ha1, hE _ _ h0]; push_cast; ring
  rw [show (s.moved δ E').E = E' from rfl, e]
  exact both_congr (both_congr (blockUp_sh h hE hl ⟨r.1, r.2, i0, i1, _⟩ _ h0)
      (blockDown_sh h hE hl ⟨r.1, r.2, i0, i1, _⟩ _ h0 ha1))
    (both_congr (blockSame_sh h hE hl ⟨r.1, r.2, i0, i1, _⟩ _ h0) (blockNext_sh h hE hl ⟨r.1, r.2, i0, i1, _⟩ _ ha1))

omit h hE hl in
theorem phi2_sh (l : Nat) {x x' : ℝ} (hx : x' = x + δ) : (s.moved δ E').phi2 l x' = s.phi2 l x := by
  subst hx
  unfold In.phi2 In.moved
  dsimp only
  rw [show x + δ - (s.L.mu l + δ) = x - s.L.mu l by ring]

omit hl in
theorem rowE1_sh {b c : Nat} (hb : b ∈ s.v.row c) : rowE1 (s.moved δ E') b c = rowE1 s b c := by
  unfold rowE1
  refine congrArg (fun k => s.v.ind0 b b (c : Int) >>= k) (funext fun i0 => ?_)
  have e1 := loop_congr h (q := (c : Int) - 1) (by omega)
    (f := fun a => do
      let aa ← s.v.ind0 a a ((c : Int) - 1)
      pure ((List.range s.v.nleads).flatMap fun l => energy1 (s.moved δ E') a b i0 aa l))
    (g := fun a => do
      let aa ← s.v.ind0 a a ((c : Int) - 1)
      pure ((List.range s.v.nleads).flatMap fun l => energy1 s a b i0 aa l))
    (by
      intro c1 ec a ha
      obtain rfl : c = c1 + 1 := by omega
      refine congrArg (fun k => s.v.ind0 a a _ >>= k) (funext fun aa => ?_)
      refine congrArg pure (List.flatMap_congr fun l _ => ?_)
      unfold energy1
      have := phi2_sh (s := s) (E' := E') (δ := δ) l (x := s.E b - s.E a) (x' := E' b - E' a) (by
        rw [hE _ _ ha, hE _ _ hb]; push_cast; ring)
      rw [show (s.moved δ E').E = E' from rfl, this]
      rfl)
  have e2 := loop_congr h (q := (c : Int) + 1) (by omega)
    (f := fun a => do
      let aa ← s.v.ind0 a a ((c : Int) + 1)
      pure ((List.range s.v.nleads).flatMap fun l => energy1 (s.moved δ E') b a i0 aa l))
    (g := fun a => do
      let aa ← s.v.ind0 a a ((c : Int) + 1)
      pure ((List.range s.v.nleads).flatMap fun l => energy1 s b a i0 aa l))
    (by
      intro c1 ec a ha
      obtain rfl : c1 = c + 1 := by omega
      refine congrArg (fun k => s.v.ind0 a a _ >>= k) (funext fun aa => ?_)
      refine congrArg pure (List.flatMap_congr fun l _ => ?_)
      unfold energy1
      have := phi2_sh (s := s) (E' := E') (δ := δ) l (x := s.E a - s.E b) (x' := E' a - E' b) (by
        rw [hE _ _ ha, hE _ _ hb]; push_cast; ring)
      rw [show (s.moved δ E').E = E' from rfl, this]
      rfl)
  rw [← bind_assoc, ← bind_assoc]
  rw [show (s.moved δ E').v = s.v from rfl, e1]
  refine congrArg (fun k => _ >>= k) (funext fun r1 => ?_)
  rw [← bind_assoc, ← bind_assoc, e2]

omit hl in
theorem rowE2_sh {b c : Nat} (hb : b ∈ s.v.row c) : rowE2 (s.moved δ E') b c = rowE2 s b c := by
  unfold rowE2
  refine congrArg (fun k => s.v.ind0 b b (c : Int) >>= k) (funext fun i0 => ?_)
  have e1 := loop_congr h (q := (c : Int) - 1) (by omega)
    (f := fun a => do
      let aa ← s.v.ind0 a a ((c : Int) - 1)
      pure ((List.range s.v.nleads).flatMap fun l => energy2 (s.moved δ E') a b i0 aa l))
    (g := fun a => do
      let aa ← s.v.ind0 a a ((c : Int) - 1)
      pure ((List.range s.v.nleads).flatMap fun l => energy2 s a b i0 aa l))
    (by
      intro c1 ec a ha
      obtain rfl : c = c1 + 1 := by omega
      refine congrArg (fun k => s.v.ind0 a a _ >>= k) (funext fun aa => ?_)
      refine congrArg pure (List.flatMap_congr fun l _ => ?_)
      unfold energy2
      have : ∀ l, (s.moved δ E').phi2 l (E' b - E' a) = s.phi2 l (s.E b - s.E a) := fun l => phi2_sh l (by
        rw [hE _ _ ha, hE _ _ hb]; push_cast; ring)
      simp only [show (s.moved δ E').E = E' from rfl, this]
      rfl)
  have e2 := loop_congr h (q := (c : Int) + 1) (by omega)
    (f := fun a => do
      let aa ← s.v.ind0 a a ((c : Int) + 1)
      pure ((List.range s.v.nleads).flatMap fun l => energy2 (s.moved δ E') b a i0 aa l))
    (g := fun a => do
      let aa ← s.v.ind0 a a ((c : Int) + 1)
      pure ((List.range s.v.nleads).flatMap fun l => energy2 s b a i0 aa l))
    (by
      intro c1 ec a ha
      obtain rfl : c1 = c + 1 := by omega
      refine congrArg (fun k => s.v.ind0 a a _ >>= k) (funext fun aa => ?_)
      refine congrArg pure (List.flatMap_congr fun l _ => ?_)
      unfold energy2
      have : ∀ l, (s.moved δ E').phi2 l (E' a - E' b) = s.phi2 l (s.E a - s.E b) := fun l => phi2_sh l (by
        rw [hE _ _ ha, hE _ _ hb]; push_cast; ring)
      simp only [show (s.moved δ E').E = E' from rfl, this]
      rfl)
  rw [← bind_assoc, ← bind_assoc]
  rw [show (s.moved δ E').v = s.v from rfl, e1]
  refine congrArg (fun k => _ >>= k) (funext fun r1 => ?_)
  rw [← bind_assoc, ← bind_assoc, e2]

omit h hE hl in
theorem trans_sh (t2 : ℂ) (sign : ℝ) (l : Nat) {x x' y y' : ℝ} (hx : x' = x + δ) (hy : y' = y + δ) :
    trans (s.moved δ E') t2 x' y' sign l = trans s t2 x y sign l := by
  subst hx hy
  unfold trans In.alpha In.moved
  dsimp only
  rw [show x + δ - (s.L.mu l + δ) = x - s.L.mu l by ring, show y + δ - (s.L.mu l + δ) = y - s.L.mu l by ring]

omit h hE hl in
theorem stay_sh (t2 : ℂ) (sign up : ℝ) (l : Nat) {x x' : ℝ} (hx : x' = x + δ) :
    stay (s.moved δ E') t2 x' sign up l = stay s t2 x sign up l := by
  subst hx
  unfold stay In.alpha In.moved
  dsimp only
  rw [show x + δ - (s.L.mu l + δ) = x - s.L.mu l by ring]

omit hE hl in
theorem upper_congr {c : Nat} (f g : List Nat → List Call) (hf : f (s.v.row (c + 1)) = g (s.v.row (c + 1))) :
    upper s.v c f = upper s.v c g := by
  unfold upper
  refine if_congr Iff.rfl ?_ rfl
  cases e : s.v.states ((c : Int) + 1) with
  | error _ => rfl
  | ok l =>
    obtain rfl := states_row s.v (c := c + 1) (by push_cast; exact e)
    exact congrArg Except.ok hf

omit hE hl in
theorem lower_congr {c : Nat} (f g : List Nat → List Call)
    (hf : ∀ c1, c = c1 + 1 → f (s.v.row c1) = g (s.v.row c1)) : lower s.v c f = lower s.v c g := by
  unfold lower
  by_cases hc : (c : Int) ≠ 0
  · rw [if_pos hc, if_pos hc]
    obtain ⟨c1, rfl⟩ : ∃ c1, c = c1 + 1 := ⟨c - 1, by omega⟩
    cases e : s.v.states (((c1 + 1 : Nat) : Int) - 1) with
    | error _ => rfl
    | ok l =>
      obtain rfl := states_row s.v (c := c1) (by rw [← e]; congr 1; push_cast; ring)
      exact congrArg Except.ok (hf c1 rfl)
  · rw [if_neg hc, if_neg hc]

omit hl in
theorem colDn_sh {a1 b1 c : Nat} (h1 : a1 ∈ s.v.row c) (h2 : b1 ∈ s.v.row c) :
    colDn (s.moved δ E') a1 b1 c = colDn s a1 b1 c := by
  unfold colDn
  refine both_congr (both_congr ?_ ?_) ?_
  · refine upper_congr h _ _ (List.flatMap_congr fun a2 ha2 => List.flatMap_congr fun l _ => ?_)
    dsimp only
    rw [show (s.moved δ E').E = E' from rfl,
      trans_sh _ _ _ (x := s.E a2 - s.E a1) (y := s.E a2 - s.E b1)
        (by rw [hE _ _ ha2, hE _ _ h1]; push_cast; ring) (by rw [hE _ _ ha2, hE _ _ h2]; push_cast; ring)]
    rfl
  · refine lower_congr h _ _ (fun c1 ec => List.flatMap_congr fun a2 ha2 => List.flatMap_congr fun l _ => ?_)
    subst ec
    dsimp only
    rw [show (s.moved δ E').E = E' from rfl,
      trans_sh _ _ _ (x := s.E b1 - s.E a2) (y := s.E a1 - s.E a2)
        (by rw [hE _ _ ha2, hE _ _ h2]; push_cast; ring) (by rw [hE _ _ ha2, hE _ _ h1]; push_cast; ring)]
    rfl
  · refine loop_congr h (by omega) fun c2 e2 a2 ha2 => ?_
    obtain rfl : c2 = c := by omega
    refine both_congr ?_ ?_
    · refine upper_congr h _ _ (List.flatMap_congr fun x hx => ?_)
      have : E' x - E' a2 = s.E x - s.E a2 + δ := by rw [hE _ _ hx, hE _ _ ha2]; push_cast; ring
      simp only [show (s.moved δ E').E = E' from rfl, stay_sh _ _ _ _ this]
      rfl
    · refine lower_congr h _ _ (fun c1 ec => List.flatMap_congr fun x hx => ?_)
      subst ec
      have : E' a2 - E' x = s.E a2 - s.E x + δ := by rw [hE _ _ hx, hE _ _ ha2]; push_cast; ring
      simp only [show (s.moved δ E').E = E' from rfl, stay_sh _ _ _ _ this]
      rfl

omit hl in
theorem colNd_sh {a1 c : Nat} (h1 : a1 ∈ s.v.row c) : colNd (s.moved δ E') a1 c = colNd s a1 c := by
  unfold colNd
  refine both_congr (both_congr ?_ ?_) ?_
  · refine upper_congr h _ _ (List.flatMap_congr fun a2 ha2 => List.flatMap_congr fun b2 hb2 => ?_)
    refine if_congr Iff.rfl rfl (List.flatMap_congr fun l _ => ?_)
    dsimp only
    rw [show (s.moved δ E').E = E' from rfl,
      trans_sh _ _ _ (x := s.E b2 - s.E a1) (y := s.E a2 - s.E a1)
        (by rw [hE _ _ hb2, hE _ _ h1]; push_cast; ring) (by rw [hE _ _ ha2, hE _ _ h1]; push_cast; ring)]
    rfl
  · refine lower_congr h _ _ (fun c1 ec => List.flatMap_congr fun a2 ha2 => List.flatMap_congr fun b2 hb2 => ?_)
    subst ec
    refine if_congr Iff.rfl rfl (List.flatMap_congr fun l _ => ?_)
    dsimp only
    rw [show (s.moved δ E').E = E' from rfl,
      trans_sh _ _ _ (x := s.E a1 - s.E a2) (y := s.E a1 - s.E b2)
        (by rw [hE _ _ ha2, hE _ _ h1]; push_cast; ring) (by rw [hE _ _ hb2, hE _ _ h1]; push_cast; ring)]
    rfl
  · have key : ∀ l2, s.v.states (c : Int) = .ok l2 → ∀ x ∈ l2, x ∈ s.v.row c := by
      intro l2 e x hx
      rw [← states_row s.v e]; exact hx
    show (do let l2 ← s.v.states (c : Int); _) = (do let l2 ← s.v.states (c : Int); _)
    cases e : s.v.states (c : Int) with
    | error _ => rfl
    | ok l2 =>
      obtain rfl := states_row s.v e
      refine collect_congr fun a2 ha2 => collect_congr fun b2 hb2 => if_congr Iff.rfl rfl (both_congr ?_ ?_)
      · refine upper_congr h _ _ (List.flatMap_congr fun x hx => ?_)
        have k1 : E' x - E' a2 = s.E x - s.E a2 + δ := by rw [hE _ _ hx, hE _ _ ha2]; push_cast; ring
        have k2 : E' x - E' b2 = s.E x - s.E b2 + δ := by rw [hE _ _ hx, hE _ _ hb2]; push_cast; ring
        simp only [show (s.moved δ E').E = E' from rfl, stay_sh _ _ _ _ k1, stay_sh _ _ _ _ k2]
        rfl
      · refine lower_congr h _ _ (fun c1 ec => List.flatMap_congr fun x hx => ?_)
        subst ec
        have k1 : E' a2 - E' x = s.E a2 - s.E x + δ := by rw [hE _ _ hx, hE _ _ ha2]; push_cast; ring
        have k2 : E' b2 - E' x = s.E b2 - s.E x + δ := by rw [hE _ _ hx, hE _ _ hb2]; push_cast; ring
        simp only [show (s.moved δ E').E = E' from rfl, stay_sh _ _ _ _ k1, stay_sh _ _ _ _ k2]
        rfl

theorem calls1_sh (fct : Nat → Nat → ℝ × ℝ) (off : Bool) :
    calls1 (s.moved δ E') fct off = calls1 s fct off := by
  unfold calls1
  refine collect_congr fun c _ => loop_congr h (by omega) fun c' ec b hb => ?_
  obtain rfl : c' = c := by omega
  refine congrArg (fun k => s.v.isUnique b b (c' : Int) >>= k) (funext fun u => if_congr Iff.rfl ?_ rfl)
  rw [col2_sh h hE hl hb, rowE1_sh h hE hb, rowE2_sh h hE hb]
  unfold nd
  rw [colNd_sh h hE hb]
  rfl

omit hl in
theorem calls2_sh : calls2 (s.moved δ E') = calls2 s := by
  unfold calls2
  refine collect_congr fun c _ => ?_
  show (do let l ← s.v.states (c : Int); _) = (do let l ← s.v.states (c : Int); _)
  cases e : s.v.states (c : Int) with
  | error _ => rfl
  | ok l2 =>
    obtain rfl := states_row s.v e
    refine collect_congr fun a ha => collect_congr fun b hb => if_congr Iff.rfl rfl ?_
    rw [colDn_sh h hE ha hb]
    refine congrArg (fun k => colDn s a b c >>= k) (funext fun k1 => ?_)
    unfold rowL
    rw [show (s.moved δ E').E a - (s.moved δ E').E b = s.E a - s.E b by
      show E' a - E' b = _
      rw [hE _ _ ha, hE _ _ hb]; ring]

theorem genKern_sh (fct : Nat → Nat → ℝ × ℝ) (off : Bool) (st : St) :
    genKern (s.moved δ E') fct off st = genKern s fct off st := by
  unfold genKern
  rw [calls1_sh h hE hl, calls2_sh h hE]
  rfl

include h hE hl in
/-- **C68** for the RTD approach: the factors, the kernel and all matrices it is made of are the same, including the
second order integrals and the corrections from coherences. For `lib` see `Fun.shift`. -/
theorem c68_rtd_kernel (hi : s.L.itype = 1) (off : Bool) (st : St) :
    (Pauli.genFct (s.moved δ E').v (s.moved δ E').E (s.moved δ E').L >>= fun f => genKern (s.moved δ E') f off st) =
      (Pauli.genFct s.v s.E s.L >>= fun f => genKern s f off st) := by
  have hs : Shifted s.v δ e0 s.E E' s.L (s.moved δ E').L :=
    ⟨hE, fun _ => rfl, fun _ => rfl, fun _ _ _ => rfl, rfl, rfl, fun _ => by simp [hi, In.moved],
      fun _ => by simp [hi, In.moved]⟩
  have := (c68_pauli (v := s.v) h hs).1
  rw [show Pauli.genFct (s.moved δ E').v (s.moved δ E').E (s.moved δ E').L = Pauli.genFct s.v s.E s.L from this]
  exact congrArg (fun k => Pauli.genFct s.v s.E s.L >>= k) (funext fun f => genKern_sh h hE hl f off st)

omit hl in
include h hE in
/-- **C68** for the RTD approach, the currents made from the same matrices: the particle currents are the same, and so
are the heat currents if each population has the number of its state as label (cf. `c65_own_labels`). The energy
currents differ by `δ` per electron. -/
theorem c68_rtd_current (ho : Ordered s.v la) (hid : ∀ c b, b ∈ s.v.row c → la.lab c b b = b)
    {fct : Nat → Nat → ℝ × ℝ} {off symq : Bool} {st : St}
    (hst : genKern s fct off (fresh s.v symq) = .ok st) {LN : List ℝ} (hLN : genLN s.v = .ok LN) {φ : Vec}
    {cur : Currents} (hc : genCurrent s (vecOf LN) st.acc φ = .ok cur) :
    ∃ cur', genCurrent (s.moved δ E') (vecOf LN) st.acc φ = .ok cur' ∧ ∀ l < s.v.nleads,
      cur'.current l = cur.current l ∧
      (∀ e, cur.energy l = some e → cur'.energy l = some (e + δ * cur.current l)) ∧
      cur'.heat l = cur.heat l := by
  obtain ⟨S⟩ := genKern_steps hst
  obtain ⟨LN', hLN', hlen, key⟩ := c65_LN (v := s.v) h ho
  obtain rfl : LN' = LN := by rw [hLN] at hLN'; exact (Except.ok.inj hLN').symm
  have cols := (c28_columns h hst).1
  obtain ⟨w, hw, rfl⟩ := genCurrent_inv hc
  by_cases hn : s.v.nleads = 0
  · have : ∃ cur', genCurrent (s.moved δ E') (vecOf LN') st.acc φ = .ok cur' := by
      unfold genCurrent
      rw [show (s.moved δ E').v.nleads = 0 from hn]
      exact ⟨_, rfl⟩
    obtain ⟨cur', hc'⟩ := this
    exact ⟨cur', hc', fun l hl => absurd hl (by omega)⟩
  · obtain ⟨q1, q2, q3, -, -⟩ := leadCurrent_inv S.sh (hw 0 (by omega))
    obtain ⟨cur', hc'⟩ := genCurrent_some (s := s.moved δ E') (LN := vecOf LN') (a := st.acc) (φ := φ) S.sh q1 q2 q3
    refine ⟨cur', hc', fun l hl => ?_⟩
    obtain ⟨w', hw', rfl⟩ := genCurrent_inv hc'
    obtain ⟨-, -, -, x1, x2⟩ := leadCurrent_inv S.sh (hw l hl)
    obtain ⟨-, -, -, y1, y2⟩ := leadCurrent_inv (s := s.moved δ E') S.sh (hw' l hl)
    have z1 : (w' l).1 = (w l).1 := by rw [x1]; exact y1
    have z2 : (w' l).2 = (w l).2 + δ * (w l).1 := by
      rw [x2, y2, x1]
      have tot : ∑ i ∈ range s.v.npauli, ∑ j ∈ range s.v.npauli, (st.acc.mats.ten .Wdd).val l i j * φ.val j = 0 := by
        rw [sum_comm]
        refine sum_eq_zero fun j _ => ?_
        rw [← sum_mul, cols l hl, zero_mul]
      have e : ∑ i ∈ range s.v.npauli, 2 * E' i * ∑ j ∈ range s.v.npauli, (st.acc.mats.ten .Wdd).val l i j * φ.val j =
          ∑ i ∈ range s.v.npauli, 2 * s.E i * ∑ j ∈ range s.v.npauli, (st.acc.mats.ten .Wdd).val l i j * φ.val j +
          δ * ∑ i ∈ range s.v.npauli, (vecOf LN').val i * ∑ j ∈ range s.v.npauli, (st.acc.mats.ten .Wdd).val l i j * φ.val j +
          2 * e0 * ∑ i ∈ range s.v.npauli, ∑ j ∈ range s.v.npauli, (st.acc.mats.ten .Wdd).val l i j * φ.val j := by
        rw [sum_pop h, sum_pop h, sum_pop h, sum_pop h, mul_sum, mul_sum, ← sum_add_distrib, ← sum_add_distrib]
        refine sum_congr rfl fun q _ => ?_
        rw [mul_sum, mul_sum, ← sum_add_distrib, ← sum_add_distrib]
        refine sum_congr rfl fun b hb => ?_
        have hb' := (mem_R h).1 hb
        rw [key q b hb', hid q b hb', hE q b hb']
        ring
      rw [tot, mul_zero, add_zero] at e
      rw [show (s.moved δ E').v = s.v from rfl, show (s.moved δ E').E = E' from rfl, e]
      ring
    refine ⟨z1, ?_, ?_⟩
    · intro e he
      simp only at he ⊢
      split at he
      · simp at he
      · rename_i hc
        rw [if_neg hc, z2]
        simp only [Option.some.injEq] at he
        rw [he]
    · simp only
      rw [z1, z2, show (s.moved δ E').L.mu l = s.L.mu l + δ from rfl]
      ring_nf

end

/-- The hypotheses of `c68_rtd_kernel` and `c68_rtd_current` hold for the integrals of the code, two leads of different
temperature and off-diagonal corrections. -/
example (F : Fun) (P : F.lib.Poles) : ∃ (s : In) (la : Lab) (fct : Nat → Nat → ℝ × ℝ) (st : St) (LN : List ℝ) (φ : Vec) (cur : Currents)
    (E' : Nat → ℝ), s.lib = F.lib ∧ s.lib.Shift ∧ VOk s.v la ∧ Ordered s.v la ∧
    (∀ c b, b ∈ s.v.row c → la.lab c b b = b) ∧ (∀ q b, b ∈ s.v.row q → E' b = s.E b + 5 + 3 * q) ∧ s.L.itype = 1 ∧
    Pauli.genFct s.v s.E s.L = .ok fct ∧ genKern s fct true (fresh s.v true) = .ok st ∧ genLN s.v = .ok LN ∧
    genCurrent s (vecOf LN) st.acc φ = .ok cur ∧ s.v.nleads = 2 ∧ s.L.T 0 ≠ s.L.T 1 ∧ s.L.Tba 0 0 1 ≠ 0 ∧
    E' 3 ≠ s.E 3 ∧ φ.val 0 ≠ 0 := by
  obtain ⟨d, e, hv, ho, hid, hp, _⟩ := view_own
  obtain ⟨d', e', _, ha, hst, _⟩ := view_all
  obtain rfl : d' = d := by rw [e] at e'; exact (Except.ok.inj e').symm
  let L : Leads := ⟨fun l => l, fun l => l + 1, fun _ => -60, fun _ => 60, fun l _ _ => l + 1, 1, 10000⟩
  let s : In := ⟨d'.view 2, fun b => b, 4, L, fun _ _ => 1, 2, F.lib, some P⟩
  have hp' : s.v.npauli = 4 := hp
  obtain ⟨fct, hf, _⟩ := Pauli.genFct_ok (v := s.v) hv s.E s.L
  obtain ⟨st, hst'⟩ := genKern_some (s := s) hv (Or.inl rfl) fct true true (fun _ => ha)
  obtain ⟨S⟩ := genKern_steps hst'
  obtain ⟨LN, hLN, hlen, _⟩ := c65_LN (v := s.v) hv ho
  obtain ⟨cur, hc⟩ := genCurrent_some (s := s) (LN := vecOf LN) (φ := ⟨4, fun _ => 1⟩) S.sh hlen hp'.symm hp'.symm
  refine ⟨s, d'.labOf, fct, st, LN, _, cur, fun b => b + 5 + 3 * (if b = 0 then 0 else if b < 3 then 1 else 2),
    rfl, F.shift, hv, ho, hid, ?_, rfl, hf, hst', hLN, hc, rfl, by norm_num [s, L], by norm_num [s, L],
    by norm_num [s], one_ne_zero⟩
  intro q b hb
  have : b ∈ (d'.statesdm[q]?).getD [] := hb
  rw [hst] at this
  match q with
  | 0 => obtain rfl : b = 0 := by simpa using this
         simp [s]
  | 1 => obtain rfl | rfl : b = 1 ∨ b = 2 := by simpa using this
         · norm_num [s]
         · norm_num [s]
  | 2 => obtain rfl : b = 3 := by simpa using this
         norm_num [s]
  | 3 => simp at this
  | q + 4 => simp at this

end RTD

end

end Verif
