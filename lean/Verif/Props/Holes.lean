import Verif.Spec.Holes
import Verif.Props.Basis
import Verif.Props.Amplitudes
import Verif.Props.Pauli

/-! C85: electrons and holes are treated alike. -/

namespace Verif

open Finset
open Complex (I)
open scoped ComplexConjugate

noncomputable section

/-- The real constant by which the energy amplitudes for holes differ from those for electrons. It stems from the cutoff
40 in specfunc.py:99-100 and is smaller than `2 T exp(-40)`. -/
def holeShift (mu T Dm Dp : ℝ) (itype : Int) : ℝ :=
  if itype = 0 then T * (softPlus ((-Dp - -mu) / T) - softPlus ((-Dm - -mu) / T)) +
    (T * (softPlus ((Dm - mu) / T) - softPlus ((Dp - mu) / T)) + Dm - Dp) else 0

/-- The energy amplitudes of holes. -/
theorem hole_energy {lib : NumLib} {Ecb mu T Dm Dp : ℝ} {itype limit : Int} (hT : 0 < T) {A A' : Amp}
    (hA : A = func1vN lib Ecb mu T Dm Dp itype limit)
    (hA' : A' = func1vN lib (-Ecb) (-mu) T (-Dp) (-Dm) itype limit) (h0 : A'.cur0 = conj A.cur1) (h1 : A'.cur1 = conj A.cur0) :
    A'.en0 = -conj A.en1 + (holeShift mu T Dm Dp itype : ℝ) ∧ A'.en1 = -conj A.en0 + (holeShift mu T Dm Dp itype : ℝ) := by
  have key : ∀ k0 k1 k0' k1' : ℝ, A.en0 = k0 + Ecb * A.cur0 → A.en1 = k1 + Ecb * A.cur1 → A'.en0 = k0' + (-Ecb : ℝ) * A'.cur0 →
      A'.en1 = k1' + (-Ecb : ℝ) * A'.cur1 → k0' + k1 = holeShift mu T Dm Dp itype → k1' + k0 = holeShift mu T Dm Dp itype →
      A'.en0 = -conj A.en1 + (holeShift mu T Dm Dp itype : ℝ) ∧ A'.en1 = -conj A.en0 + (holeShift mu T Dm Dp itype : ℝ) := by
    intro k0 k1 k0' k1' e0 e1 e0' e1' d1 d2
    constructor
    · rw [e0', e1, h0, ← d1]
      simp only [map_add, map_mul, Complex.conj_ofReal]
      push_cast; ring
    · rw [e1', e0, h1, ← d2]
      simp only [map_add, map_mul, Complex.conj_ofReal]
      push_cast; ring
  have hT' := hT.ne'
  have hTc : (T : ℂ) ≠ 0 := Complex.ofReal_ne_zero.2 hT'
  subst hA hA'
  by_cases i0 : itype = 0
  · subst i0
    refine key (T * (softPlus ((Dm - mu) / T) - softPlus ((Dp - mu) / T)))
      (T * (softPlus ((Dm - mu) / T) - softPlus ((Dp - mu) / T)) + Dm - Dp)
      (T * (softPlus ((-Dp - -mu) / T) - softPlus ((-Dm - -mu) / T)))
      (T * (softPlus ((-Dp - -mu) / T) - softPlus ((-Dm - -mu) / T)) + -Dp - -Dm) ?_ ?_ ?_ ?_ ?_ ?_
    · simp [func1vN, func1vN0]
    · simp [func1vN, func1vN0]
    · simp [func1vN, func1vN0]
    · simp [func1vN, func1vN0]
    · simp [holeShift]
    · simp only [holeShift, if_true]; ring
  by_cases i1 : itype = 1
  · subst i1
    refine key (-Dm) (-Dp) Dp Dm ?_ ?_ ?_ ?_ ?_ ?_
    · simp [func1vN, func1vN1]; field_simp
    · simp [func1vN, func1vN1]; field_simp
    · simp [func1vN, func1vN1]; field_simp
    · simp [func1vN, func1vN1]; field_simp
    · simp [holeShift]
    · simp [holeShift]
  refine key 0 0 0 0 ?_ ?_ ?_ ?_ (by simp [holeShift, i0]) (by simp [holeShift, i0])
  all_goals
    by_cases i2 : itype = 2
    · subst i2; simp [func1vN, func1vN2]
    by_cases i3 : itype = 3
    · subst i3; simp [func1vN, func1vN3]
    simp [func1vN, i0, i1, i2, i3]

/-- The rates of holes. -/
theorem hole_pauli {Ecb mu T Dm Dp : ℝ} (itype : Int) (hα : |(Ecb - mu) / T| ≤ 709.77) :
    funcPauli (-Ecb) (-mu) T (-Dp) (-Dm) itype = ((funcPauli Ecb mu T Dm Dp itype).2, (funcPauli Ecb mu T Dm Dp itype).1) := by
  have en : ∀ d : ℝ, (-d - -mu) / T = -((d - mu) / T) := fun d => by ring
  unfold funcPauli
  simp only [en, fermi_refl hα, neg_lt_neg_iff, and_comm (a := (Ecb - mu) / T < (Dp - mu) / T)]
  split <;> simp

section
variable {v w : View} {la la' : Lab} (h : VOk v la) (h' : VOk w la') {N : Nat} {π : Equiv.Perm Nat} {E E' : Nat → ℝ}
  {L L' : Leads} (hp : Holes v w la la' N π E E' L L')

include h h' hp

theorem Holes.R_map {q : Nat} (hq : q ≤ N) : w.R (N - q) = (v.R q).map π.toEmbedding := by
  ext x
  rw [mem_R h', mem_map]
  constructor
  · intro hx
    refine ⟨π.symm x, (mem_R h).2 ((hp.states q hq _).1 (by simpa using hx)), by simp⟩
  · rintro ⟨b, hb, rfl⟩
    exact (hp.states q hq b).2 ((mem_R h).1 hb)

theorem Holes.R_empty {q : Nat} (hq : N < q) : v.R q = ∅ ∧ w.R q = ∅ := by
  have c := hp.charges; have c' := hp.charges'
  constructor
  · simp [View.R, h.last q (by omega)]
  · simp [View.R, h'.last q (by omega)]

theorem Holes.sumR {α : Type} [AddCommMonoid α] {q : Nat} (hq : q ≤ N) (F : Nat → α) :
    ∑ x ∈ w.R (N - q), F x = ∑ y ∈ v.R q, F (π y) := by
  rw [hp.R_map h h' hq, sum_map]; rfl

theorem Holes.sumLo {α : Type} [AddCommMonoid α] {q : Nat} (hq : q ≤ N) (F : Nat → α) :
    ∑ x ∈ w.Lo (N - q), F x = ∑ y ∈ v.R (q + 1), F (π y) := by
  by_cases e : q = N
  · subst e
    rw [Nat.sub_self, Lo_zero h', (hp.R_empty h h' (Nat.lt_succ_self q)).1]; simp
  · have : N - q = N - (q + 1) + 1 := by omega
    rw [this, Lo_succ h', hp.sumR h h' (by omega)]

theorem Holes.sumHi {α : Type} [AddCommMonoid α] {q : Nat} (hq : q ≤ N) (F : Nat → α) :
    ∑ x ∈ w.R (N - q + 1), F x = ∑ y ∈ v.Lo q, F (π y) := by
  rcases q with _ | q
  · rw [Lo_zero h, Nat.sub_zero, (hp.R_empty h h' (Nat.lt_succ_self N)).2]; simp
  · have : N - (q + 1) + 1 = N - q := by omega
    rw [this, Lo_succ h, hp.sumR h h' (by omega)]

/-- The factors of the second calculation are those of the first, with electrons and holes exchanged, up to a sign and a
real constant. -/
structure HoleFct (v : View) (N : Nat) (π : Equiv.Perm Nat) (s : ℝ) (δ : Nat → ℝ) (k0 k1 k0' k1' : KFct) : Prop where
  h0 : ∀ l < v.nleads, ∀ q, q + 1 ≤ N → ∀ x ∈ v.R q, ∀ b ∈ v.R (q + 1), ∀ bp ∈ v.R (q + 1),
    k0' l (N - (q + 1)) (π x) (π b) (π bp) = s * conj (k1 l q b bp x) + δ l
  h1 : ∀ l < v.nleads, ∀ q, q + 1 ≤ N → ∀ x ∈ v.R q, ∀ xp ∈ v.R q, ∀ b ∈ v.R (q + 1),
    k1' l (N - (q + 1)) (π x) (π xp) (π b) = s * conj (k0 l q b x xp) + δ l

theorem Holes.SL {k0 k1 k0' k1' : KFct} (hk : HoleFct v N π 1 (fun _ => 0) k0 k1 k0' k1') {ρ ρ' : Nat → Nat → Nat → ℂ}
    (hρ : HoleDens v N π ρ ρ') {l : Nat} (hl : l < v.nleads) {c b bp : Nat} (hc : c ≤ N) (hb : b ∈ v.R c) (hbp : bp ∈ v.R c) :
    Coh.SL w L'.Tba k0' k1' ρ' l (N - c) (π b) (π bp) = Coh.SL v L.Tba k0 k1 ρ l c b bp := by
  have m := fun {q x} => (mem_R (v := v) h (c := q) (b := x)).1
  have up : ∀ x ∈ v.R (c + 1), c + 1 ≤ N := by
    intro x hx
    by_contra e
    rw [(hp.R_empty h h' (by omega)).1] at hx
    simp at hx
  unfold Coh.SL
  simp only [hp.sumLo h h' hc, hp.sumR h h' hc, hp.sumHi h h' hc, hp.tba]
  rw [show ∀ a b c d e f : ℂ, a + b + c + d + e + f = f + c + b + e + d + a by intros; ring]
  refine congrArg₂ (· + ·) (congrArg₂ (· + ·) (congrArg₂ (· + ·) (congrArg₂ (· + ·) (congrArg₂ (· + ·) ?_ ?_) ?_) ?_) ?_) ?_
  · rcases c with _ | c
    · rw [Lo_zero h]; simp
    · rw [Lo_succ h, Nat.add_sub_cancel]
      refine sum_congr rfl fun a ha => sum_congr rfl fun ap hap => ?_
      have e : N - (c + 1) + 1 = N - c := by omega
      rw [hk.h1 l hl c hc a ha ap hap bp hbp, hk.h1 l hl c hc ap hap a ha b hb, e, hρ c (by omega) a (m ha) ap (m hap)]
      simp
  · rcases c with _ | c
    · rw [Lo_zero h]; simp
    · rw [Lo_succ h, Nat.add_sub_cancel]
      refine sum_congr rfl fun y hy => sum_congr rfl fun a ha => ?_
      rw [hk.h0 l hl c hc a ha bp hbp y hy, hρ _ hc y (m hy) bp (m hbp)]
      simp
  · refine sum_congr rfl fun y hy => sum_congr rfl fun x hx => ?_
    rw [Nat.sub_sub, hk.h1 l hl c (up x hx) bp hbp y hy x hx, hρ c hc y (m hy) bp (m hbp)]
    simp
  · rcases c with _ | c
    · rw [Lo_zero h]; simp
    · rw [Lo_succ h, Nat.add_sub_cancel]
      refine sum_congr rfl fun y hy => sum_congr rfl fun a ha => ?_
      rw [hk.h0 l hl c hc a ha b hb y hy, hρ _ hc b (m hb) y (m hy)]
      simp
  · refine sum_congr rfl fun y hy => sum_congr rfl fun x hx => ?_
    rw [Nat.sub_sub, hk.h1 l hl c (up x hx) b hb y hy x hx, hρ c hc b (m hb) y (m hy)]
    simp
  · refine sum_congr rfl fun x hx => sum_congr rfl fun xp hxp => ?_
    rw [Nat.sub_sub, hk.h0 l hl c (up x hx) bp hbp x hx xp hxp, hk.h0 l hl c (up x hx) b hb xp hxp x hx,
      hρ (c + 1) (up x hx) x (m hx) xp (m hxp)]
    simp

theorem Holes.S {k0 k1 k0' k1' : KFct} (hk : HoleFct v N π 1 (fun _ => 0) k0 k1 k0' k1') {ρ ρ' : Nat → Nat → Nat → ℂ}
    (hρ : HoleDens v N π ρ ρ') {c b bp : Nat} (hc : c ≤ N) (hb : b ∈ v.row c) (hbp : bp ∈ v.row c) :
    Coh.S w L'.Tba k0' k1' ρ' (N - c) (π b) (π bp) = Coh.S v L.Tba k0 k1 ρ c b bp := by
  rw [Coh.S_leads, Coh.S_leads, hp.leads]
  exact sum_congr rfl fun l hl => hp.SL h h' hk hρ (mem_range.1 hl) hc ((mem_R h).2 hb) ((mem_R h).2 hbp)

omit h h' in
theorem Holes.le {c b : Nat} (h : VOk v la) (hb : b ∈ v.row c) : c ≤ N := by
  by_contra e
  have := hp.charges
  rw [h.last c (by omega)] at hb
  simp at hb

/-- Every state of the second system is one of the first. -/
theorem Holes.onto {q x : Nat} (hx : x ∈ w.row q) : q ≤ N ∧ π.symm x ∈ v.row (N - q) := by
  have hq : q ≤ N := by
    by_contra e
    have := hp.charges'
    rw [h'.last q (by omega)] at hx
    simp at hx
  refine ⟨hq, (hp.states (N - q) (by omega) _).1 ?_⟩
  rw [show N - (N - q) = q by omega]
  simpa using hx

theorem Holes.exist (φ : Vec) : ∃ φ' : Vec, φ'.size = w.ndm0r ∧ HoleDens v N π (dens v la φ.val) (dens w la' φ'.val) := by
  obtain ⟨f, hf⟩ := exists_dens h' (fun q b bp => dens v la φ.val (N - q) (π.symm b) (π.symm bp))
    (fun q b bp hb hbp => h.dens_herm φ.val (hp.onto h h' hb).2 (hp.onto h h' hbp).2)
    (fun q b bp hb hbp hi => by
      obtain ⟨hq, hb⟩ := hp.onto h h' hb
      have hbp := (hp.onto h h' hbp).2
      have k := hp.inc (N - q) (by omega) _ hb _ hbp
      rw [show N - (N - q) = q by omega, Equiv.apply_symm_apply, Equiv.apply_symm_apply, hi] at k
      rw [dens, ← k]; simp)
  refine ⟨⟨w.ndm0r, f⟩, rfl, fun q hq b hb bp hbp => ?_⟩
  have := hf (N - q) (π b) ((hp.states q hq b).2 hb) (π bp) ((hp.states q hq bp).2 hbp)
  rw [show N - (N - q) = q by omega, Equiv.symm_apply_apply, Equiv.symm_apply_apply] at this
  exact this

theorem Holes.pop {φ φ' : Nat → ℝ} (hρ : HoleDens v N π (dens v la φ) (dens w la' φ')) {q b : Nat} (hb : b ∈ v.row q) :
    φ' (la'.lab (N - q) (π b) (π b)) = φ (la.lab q b b) := by
  have hq := hp.le h hb
  have := congrArg Complex.re (hρ q hq b hb b hb)
  rwa [dens, dens, if_pos (h.inc_diag q b hb), if_pos (h'.inc_diag _ _ ((hp.states q hq b).2 hb))] at this

/-- The sum over the charges in the reverse order. -/
theorem Holes.flip {α : Type} [AddCommMonoid α] (F : Nat → α) : ∑ q ∈ range w.ncharge, F q = ∑ q ∈ range v.ncharge, F (N - q) := by
  rw [hp.charges, hp.charges', ← sum_range_reflect]
  exact sum_congr rfl fun q hq => by rw [show N + 1 - 1 - q = N - q by omega]

theorem Holes.flip1 {α : Type} [AddCommMonoid α] (F : Nat → α) :
    ∑ q ∈ range (w.ncharge - 1), F q = ∑ q ∈ range (v.ncharge - 1), F (N - (q + 1)) := by
  rw [hp.charges, hp.charges', ← sum_range_reflect]
  exact sum_congr rfl fun q hq => by rw [show N + 1 - 1 - 1 - q = N - (q + 1) by omega]

theorem Holes.trace {φ φ' : Nat → ℝ} (hρ : HoleDens v N π (dens v la φ) (dens w la' φ')) :
    ∑ i ∈ range w.npauli, φ' i = ∑ i ∈ range v.npauli, φ i := by
  rw [sum_pop h, sum_pop h', hp.flip h h']
  refine sum_congr rfl fun q hq => ?_
  have := hp.charges
  have := mem_range.1 hq
  rw [hp.sumR h h' (by omega)]
  exact sum_congr rfl fun b hb => hp.pop h h' hρ ((mem_R h).1 hb)

theorem Holes.zero {ψ ψ' : Nat → ℝ} (hρ : HoleDens v N π (dens v la ψ) (dens w la' ψ')) :
    (∀ i < v.ndm0r, ψ i = 0) ↔ ∀ i < w.ndm0r, ψ' i = 0 := by
  rw [← dens_eq_zero h, ← dens_eq_zero h']
  constructor
  · intro hz q b hb bp hbp
    obtain ⟨hq, hb⟩ := hp.onto h h' hb
    have hbp := (hp.onto h h' hbp).2
    have := hρ (N - q) (by omega) _ hb _ hbp
    rw [hz _ _ hb _ hbp] at this
    rwa [show N - (N - q) = q by omega, Equiv.apply_symm_apply, Equiv.apply_symm_apply] at this
  · intro hz q b hb bp hbp
    have hq := hp.le h hb
    rw [← hρ q hq b hb bp hbp]
    exact hz _ _ ((hp.states q hq b).2 hb) _ ((hp.states q hq bp).2 hbp)

theorem Holes.step {m m' : Mat} {S S' : (Nat → ℝ) → Nat → Nat → Nat → ℂ}
    (rows : ∀ φ c b bp, (b, bp) ∈ combsR2 (v.row c) → la.inc c b bp = true →
        m.app φ (la.lab c b bp)
          = (((E b - E bp : ℝ) : ℂ) * dens v la φ c b bp + S φ c b bp).im ∧
        (b ≠ bp → m.app φ (v.imag (la.lab c b bp))
          = -(((E b - E bp : ℝ) : ℂ) * dens v la φ c b bp + S φ c b bp).re))
    (rows' : ∀ φ c b bp, (b, bp) ∈ combsR2 (w.row c) → la'.inc c b bp = true →
        m'.app φ (la'.lab c b bp)
          = (((E' b - E' bp : ℝ) : ℂ) * dens w la' φ c b bp + S' φ c b bp).im ∧
        (b ≠ bp → m'.app φ (w.imag (la'.lab c b bp))
          = -(((E' b - E' bp : ℝ) : ℂ) * dens w la' φ c b bp + S' φ c b bp).re))
    {φ φ' : Nat → ℝ} (anti : ∀ c b bp, b ∈ v.row c → bp ∈ v.row c → S φ c bp b = -conj (S φ c b bp))
    (anti' : ∀ c b bp, b ∈ w.row c → bp ∈ w.row c → S' φ' c bp b = -conj (S' φ' c b bp))
    (hρ : HoleDens v N π (dens v la φ) (dens w la' φ'))
    (hS : ∀ c b bp, b ∈ v.row c → bp ∈ v.row c → S' φ' (N - c) (π b) (π bp) = S φ c b bp) :
    HoleDens v N π (dens v la (m.app φ)) (dens w la' (m'.app φ')) := by
  intro q hq b hb bp hbp
  rw [dens_app h' rows' anti' ((hp.states q hq b).2 hb) ((hp.states q hq bp).2 hbp), dens_app h rows anti hb hbp,
    hp.inc q hq b hb bp hbp, hp.energy q b hb, hp.energy q bp hbp, hρ q hq b hb bp hbp, hS q b bp hb hbp]

/-! ### Currents of 1vN and Redfield -/

omit h' hp in
/-- The sums in the currents. -/
theorem Coh.Z_sum (T : TMat) (k0 k1 : KFct) (ρ : Nat → Nat → Nat → ℂ) (l q : Nat) :
    ∑ x ∈ v.R (q + 1), ∑ b ∈ v.R q, Coh.Z v T k0 k1 ρ l q x b =
      ∑ b ∈ v.R q, ∑ y ∈ v.R q, ∑ a ∈ v.R (q + 1), T l b a * T l a y * k0 l q a b y * ρ q y b +
      ∑ b ∈ v.R q, ∑ a ∈ v.R (q + 1), ∑ ap ∈ v.R (q + 1), T l b a * T l ap b * k1 l q a ap b * ρ (q + 1) a ap := by
  unfold Coh.Z
  simp only [sum_add_distrib]
  refine congrArg₂ (· + ·) ?_ ?_
  · rw [sum_comm]
    refine sum_congr rfl fun b _ => ?_
    rw [sum_comm]
    exact sum_congr rfl fun y _ => sum_congr rfl fun a _ => by ring
  · rw [sum_comm]
    exact sum_congr rfl fun b _ => sum_congr rfl fun y _ => sum_congr rfl fun a _ => by ring

omit h h' hp in
/-- `Tr T⁺ T ρ` is real, which makes real constants in the factors drop out of the currents. -/
theorem im_trace {P Q : Finset Nat} {T ρ : Nat → Nat → ℂ} (hT : ∀ b a, T b a = conj (T a b))
    (hρ : ∀ y ∈ P, ∀ b ∈ P, ρ y b = conj (ρ b y)) (δ : ℝ) :
    (∑ b ∈ P, ∑ y ∈ P, ∑ a ∈ Q, T b a * T a y * δ * ρ y b).im = 0 := by
  apply Complex.conj_eq_iff_im.1
  simp only [map_sum, map_mul, Complex.conj_ofReal]
  rw [sum_comm]
  refine sum_congr rfl fun b hb => sum_congr rfl fun y hy => sum_congr rfl fun a _ => ?_
  rw [← hT, ← hT, ← hρ y hy b hb]
  ring


theorem Holes.Z {s : ℝ} {δ : Nat → ℝ} {k0 k1 k0' k1' : KFct} (hk : HoleFct v N π s δ k0 k1 k0' k1')
    (hH : ∀ l b c, L.Tba l b c = conj (L.Tba l c b)) {ρ ρ' : Nat → Nat → Nat → ℂ}
    (herm : ∀ q, ∀ b ∈ v.R q, ∀ bp ∈ v.R q, ρ q b bp = conj (ρ q bp b)) (hρ : HoleDens v N π ρ ρ') {l : Nat}
    (hl : l < v.nleads) {q : Nat} (hq : q + 1 ≤ N) :
    (∑ x ∈ w.R (N - (q + 1) + 1), ∑ b ∈ w.R (N - (q + 1)), Coh.Z w L'.Tba k0' k1' ρ' l (N - (q + 1)) x b).im =
      -s * (∑ x ∈ v.R (q + 1), ∑ b ∈ v.R q, Coh.Z v L.Tba k0 k1 ρ l q x b).im := by
  have m := fun {q x} => (mem_R (v := v) h (c := q) (b := x)).1
  have e : N - (q + 1) + 1 = N - q := by omega
  rw [Coh.Z_sum h', Coh.Z_sum h, e]
  simp only [hp.sumR h h' hq, hp.sumR h h' (show q ≤ N by omega), hp.tba]
  have eA : ∑ b ∈ v.R (q + 1), ∑ y ∈ v.R (q + 1), ∑ a ∈ v.R q, L.Tba l b a * L.Tba l a y *
      k0' l (N - (q + 1)) (π a) (π b) (π y) * ρ' (N - (q + 1)) (π y) (π b) =
      s * conj (∑ b ∈ v.R q, ∑ a ∈ v.R (q + 1), ∑ ap ∈ v.R (q + 1), L.Tba l b a * L.Tba l ap b * k1 l q a ap b * ρ (q + 1) a ap) +
      ∑ b ∈ v.R (q + 1), ∑ y ∈ v.R (q + 1), ∑ a ∈ v.R q, L.Tba l b a * L.Tba l a y * (δ l : ℝ) * ρ (q + 1) y b := by
    rw [sum_comm (s := v.R q) (t := v.R (q + 1))]
    rw [sum_congr (s₁ := v.R (q + 1)) (f := fun a => ∑ b ∈ v.R q, ∑ ap ∈ v.R (q + 1), _) rfl fun a _ => sum_comm]
    simp only [map_sum, map_mul, mul_sum, ← sum_add_distrib]
    refine sum_congr rfl fun b hb => sum_congr rfl fun y hy => sum_congr rfl fun a ha => ?_
    rw [hk.h0 l hl q hq a ha b hb y hy, hρ (q + 1) hq y (m hy) b (m hb), ← hH, ← hH, ← herm (q + 1) y hy b hb]
    ring
  have eB : ∑ b ∈ v.R (q + 1), ∑ a ∈ v.R q, ∑ ap ∈ v.R q, L.Tba l b a * L.Tba l ap b *
      k1' l (N - (q + 1)) (π a) (π ap) (π b) * ρ' (N - q) (π a) (π ap) =
      s * conj (∑ b ∈ v.R q, ∑ y ∈ v.R q, ∑ a ∈ v.R (q + 1), L.Tba l b a * L.Tba l a y * k0 l q a b y * ρ q y b) +
      ∑ b ∈ v.R q, ∑ y ∈ v.R q, ∑ a ∈ v.R (q + 1), L.Tba l b a * L.Tba l a y * (δ l : ℝ) * ρ q y b := by
    rw [sum_comm (s := v.R (q + 1)) (t := v.R q)]
    rw [sum_congr (s₁ := v.R q) (f := fun a => ∑ b ∈ v.R (q + 1), ∑ ap ∈ v.R q, _) rfl fun a _ => sum_comm]
    rw [sum_comm (f := fun b y => ∑ a ∈ v.R (q + 1), L.Tba l b a * L.Tba l a y * (δ l : ℝ) * ρ q y b)]
    simp only [map_sum, map_mul, mul_sum, ← sum_add_distrib]
    refine sum_congr rfl fun a ha => sum_congr rfl fun ap hap => sum_congr rfl fun b hb => ?_
    rw [hk.h1 l hl q hq a ha ap hap b hb, hρ q (by omega) a (m ha) ap (m hap), ← hH, ← hH, ← herm q a ha ap hap]
    ring
  rw [eA, eB]
  have z1 := im_trace (P := v.R (q + 1)) (Q := v.R q) (T := L.Tba l) (ρ := ρ (q + 1)) (hH l) (herm (q + 1)) (δ l)
  have z2 := im_trace (P := v.R q) (Q := v.R (q + 1)) (T := L.Tba l) (ρ := ρ q) (hH l) (herm q) (δ l)
  simp only [Complex.add_im, z1, z2, Complex.re_ofReal_mul, Complex.im_ofReal_mul, Complex.conj_im]
  ring

/-- The common part of the proofs for 1vN and Redfield. -/
theorem Holes.same (hH : ∀ l b c, L.Tba l b c = conj (L.Tba l c b)) {k0 k1 e0 e1 k0' k1' e0' e1' : KFct} {δ : Nat → ℝ}
    (hk : HoleFct v N π 1 (fun _ => 0) k0 k1 k0' k1') (he : HoleFct v N π (-1) δ e0 e1 e0' e1') {m m' : Mat}
    (hc : m.cols = v.ndm0r) (hc' : m'.cols = w.ndm0r)
    (rows : ∀ φ c b bp, (b, bp) ∈ combsR2 (v.row c) → la.inc c b bp = true →
        m.app φ (la.lab c b bp)
          = (((E b - E bp : ℝ) : ℂ) * dens v la φ c b bp + Coh.S v L.Tba k0 k1 (dens v la φ) c b bp).im ∧
        (b ≠ bp → m.app φ (v.imag (la.lab c b bp))
          = -(((E b - E bp : ℝ) : ℂ) * dens v la φ c b bp + Coh.S v L.Tba k0 k1 (dens v la φ) c b bp).re))
    (rows' : ∀ φ c b bp, (b, bp) ∈ combsR2 (w.row c) → la'.inc c b bp = true →
        m'.app φ (la'.lab c b bp)
          = (((E' b - E' bp : ℝ) : ℂ) * dens w la' φ c b bp + Coh.S w L'.Tba k0' k1' (dens w la' φ) c b bp).im ∧
        (b ≠ bp → m'.app φ (w.imag (la'.lab c b bp))
          = -(((E' b - E' bp : ℝ) : ℂ) * dens w la' φ c b bp + Coh.S w L'.Tba k0' k1' (dens w la' φ) c b bp).re))
    {cur cur' : Vec → Py (List CEv)}
    (hcur : ∀ φ : Vec, φ.size = v.ndm0r → ∃ evs, cur φ = .ok evs ∧ ∀ l < v.nleads,
      current evs l = ∑ q ∈ range (v.ncharge - 1), ∑ c ∈ v.R (q + 1), ∑ b ∈ v.R q,
          -2 * (Coh.Z v L.Tba k0 k1 (dens v la φ.val) l q c b).im ∧
      energyCurrent evs l = ∑ q ∈ range (v.ncharge - 1), ∑ c ∈ v.R (q + 1), ∑ b ∈ v.R q,
          -2 * (Coh.Z v L.Tba e0 e1 (dens v la φ.val) l q c b).im)
    (hcur' : ∀ φ : Vec, φ.size = w.ndm0r → ∃ evs, cur' φ = .ok evs ∧ ∀ l < w.nleads,
      current evs l = ∑ q ∈ range (w.ncharge - 1), ∑ c ∈ w.R (q + 1), ∑ b ∈ w.R q,
          -2 * (Coh.Z w L'.Tba k0' k1' (dens w la' φ.val) l q c b).im ∧
      energyCurrent evs l = ∑ q ∈ range (w.ncharge - 1), ∑ c ∈ w.R (q + 1), ∑ b ∈ w.R q,
          -2 * (Coh.Z w L'.Tba e0' e1' (dens w la' φ.val) l q c b).im) :
    SameForHoles v w la la' N π m m' cur cur' := by
  have hH' : ∀ l b c, L'.Tba l b c = conj (L'.Tba l c b) := by
    intro l b c
    have := hH l (π.symm b) (π.symm c)
    rwa [← hp.tba, ← hp.tba, Equiv.apply_symm_apply, Equiv.apply_symm_apply] at this
  have hstep : ∀ φ φ' : Vec, HoleDens v N π (dens v la φ.val) (dens w la' φ'.val) →
      HoleDens v N π (dens v la fun i => ∑ j ∈ range v.ndm0r, m.val i j * φ.val j)
        (dens w la' fun i => ∑ j ∈ range w.ndm0r, m'.val i j * φ'.val j) := by
    intro φ φ' hρ
    have := hp.step h h' (S := fun φ => Coh.S v L.Tba k0 k1 (dens v la φ)) (S' := fun φ => Coh.S w L'.Tba k0' k1' (dens w la' φ))
      rows rows' (φ := φ.val) (φ' := φ'.val) (Coh.S_anti' h hH k0 k1 _) (Coh.S_anti' h' hH' k0' k1' _) hρ
      (fun c b bp hb hbp => hp.S h h' hk hρ (hp.le h hb) hb hbp)
    unfold Mat.app at this
    rw [hc, hc'] at this
    exact this
  refine ⟨hp.exist h h', fun φ φ' hρ => hp.trace h h' hρ, hstep, fun φ φ' hρ => hp.zero h h' (hstep φ φ' hρ), ?_⟩
  intro φ φ' hs hs' hρ
  obtain ⟨evs, g, ge⟩ := hcur φ hs
  obtain ⟨evs', g', ge'⟩ := hcur' φ' hs'
  have herm : ∀ q, ∀ b ∈ v.R q, ∀ bp ∈ v.R q, dens v la φ.val q b bp = conj (dens v la φ.val q bp b) :=
    fun q b hb bp hbp => h.dens_herm φ.val ((mem_R h).1 hbp) ((mem_R h).1 hb)
  refine ⟨evs, evs', g, g', fun l hl => ?_⟩
  rw [(ge l hl).1, (ge l hl).2, (ge' l (by rw [hp.leads]; exact hl)).1, (ge' l (by rw [hp.leads]; exact hl)).2]
  simp only [Coh.cur_sum h, Coh.cur_sum h']
  rw [hp.flip1 h h', hp.flip1 h h', ← sum_neg_distrib]
  have lt : ∀ q ∈ range (v.ncharge - 1), q + 1 ≤ N := by
    intro q hq
    have := hp.charges
    have := mem_range.1 hq
    omega
  constructor
  · exact sum_congr rfl fun q hq => by rw [hp.Z h h' hk hH herm hρ hl (lt q hq)]; ring
  · exact sum_congr rfl fun q hq => by rw [hp.Z h h' he hH herm hρ hl (lt q hq)]; ring

/-- The amplitudes of the two calculations. -/
theorem Holes.amp {lib : NumLib} (hq : QuadOk lib) (hψ : ∀ x, lib.digammaRe (-x) = lib.digammaRe x) (hr : HoleRange v E L)
    {l : Nat} (hl : l < v.nleads) {q x b : Nat} (hx : x ∈ v.row (q + 1)) (hb : b ∈ v.row q) {A A' : Amp}
    (hA : A = amp1vN lib E L l x b) (hA' : A' = amp1vN lib E' L' l (π b) (π x)) :
    A'.cur0 = conj A.cur1 ∧ A'.cur1 = conj A.cur0 ∧
    A'.en0 = -conj A.en1 + (holeShift (L.mu l) (L.T l) (L.Dm l) (L.Dp l) L.itype : ℝ) ∧
    A'.en1 = -conj A.en0 + (holeShift (L.mu l) (L.T l) (L.Dm l) (L.Dp l) L.itype : ℝ) := by
  unfold amp1vN at hA hA'
  rw [hp.energy q b hb, hp.energy (q + 1) x hx, hp.mu, hp.temp, hp.Dm, hp.Dp, hp.itype, hp.limit,
    show E b - E x = -(E x - E b) by ring] at hA'
  have hT := hr.temp l hl
  obtain ⟨c0, c1, -, -⟩ := c82_hole hq hψ hT (hr.below l hl q x hx b hb)
    (fun i => by
      obtain ⟨d, e, f, g⟩ := hr.band i l hl
      exact ⟨d, (g q x hx b hb).1, (g q x hx b hb).2, e, f⟩)
    (fun i => hr.wide i l hl) L.limit hA hA'
  exact ⟨c0, c1, hole_energy hT hA hA' c0 c1⟩

/-- **C85** for 1vN. -/
theorem c85_1vN (symq : Bool) {lib : NumLib} (hq : QuadOk lib) (hψ : ∀ x, lib.digammaRe (-x) = lib.digammaRe x)
    (hr : HoleRange v E L) (hH : ∀ l b c, L.Tba l b c = conj (L.Tba l c b)) :
    ∃ f f' m m', genFct1vN v lib E L = .ok f ∧ genFct1vN w lib E' L' = .ok f' ∧
      VN1.kernel v symq E L.Tba f = .ok m ∧ VN1.kernel w symq E' L'.Tba f' = .ok m' ∧
      SameForHoles v w la la' N π m m' (fun φ => List.map (·.ev) <$> VN1.genCurrent v L.Tba f φ)
        (fun φ => List.map (·.ev) <$> VN1.genCurrent w L'.Tba f' φ) := by
  obtain ⟨f, gf, hf⟩ := fillFct_ok h (⟨0, 0, 0, 0⟩ : Amp) (amp1vN lib E L)
  obtain ⟨f', gf', hf'⟩ := fillFct_ok h' (⟨0, 0, 0, 0⟩ : Amp) (amp1vN lib E' L')
  obtain ⟨m, g, hc, _, rows⟩ := assemble_rows h symq E (VN1.coup v L.Tba f) _
    (fun c b bp hb hbp hi => VN1.coup_ok h L.Tba f hb hbp hi)
  obtain ⟨m', g', hc', _, rows'⟩ := assemble_rows h' symq E' (VN1.coup w L'.Tba f') _
    (fun c b bp hb hbp hi => VN1.coup_ok h' L'.Tba f' hb hbp hi)
  have key : ∀ l < v.nleads, ∀ q, q + 1 ≤ N → ∀ x ∈ v.R q, ∀ b ∈ v.R (q + 1), ∀ A A', A = f l (la.ix1 q b x) →
      A' = f' l (la'.ix1 (N - (q + 1)) (π x) (π b)) → A'.cur0 = conj A.cur1 ∧ A'.cur1 = conj A.cur0 ∧
      A'.en0 = -conj A.en1 + (holeShift (L.mu l) (L.T l) (L.Dm l) (L.Dp l) L.itype : ℝ) ∧
      A'.en1 = -conj A.en0 + (holeShift (L.mu l) (L.T l) (L.Dm l) (L.Dp l) L.itype : ℝ) := by
    intro l hl q hqN x hx b hb A A' hA hA'
    have hx := (mem_R h).1 hx
    have hb := (mem_R h).1 hb
    have e : N - (q + 1) + 1 = N - q := by omega
    rw [hf q b x l hb hx hl] at hA
    rw [hf' (N - (q + 1)) (π x) (π b) l (by rw [e]; exact (hp.states q (by omega) x).2 hx)
      ((hp.states (q + 1) hqN b).2 hb) (by rw [hp.leads]; exact hl)] at hA'
    exact hp.amp h h' hq hψ hr hl hb hx hA hA'
  refine ⟨f, f', m, m', gf, gf', g, g', hp.same h h' hH
    (e0 := fun l q x b _ => (f l (la.ix1 q x b)).en0) (e1 := fun l q x _ b => (f l (la.ix1 q x b)).en1)
    (e0' := fun l q x b _ => (f' l (la'.ix1 q x b)).en0) (e1' := fun l q x _ b => (f' l (la'.ix1 q x b)).en1)
    (δ := fun l => holeShift (L.mu l) (L.T l) (L.Dm l) (L.Dp l) L.itype) ⟨?_, ?_⟩ ⟨?_, ?_⟩ hc hc' rows rows' ?_ ?_⟩
  · intro l hl q hqN x hx b hb bp _
    simpa using (key l hl q hqN x hx b hb _ _ rfl rfl).1
  · intro l hl q hqN x hx xp _ b hb
    simpa using (key l hl q hqN x hx b hb _ _ rfl rfl).2.1
  · intro l hl q hqN x hx b hb bp _
    simpa using (key l hl q hqN x hx b hb _ _ rfl rfl).2.2.1
  · intro l hl q hqN x hx xp _ b hb
    simpa using (key l hl q hqN x hx b hb _ _ rfl rfl).2.2.2
  · intro φ hs
    obtain ⟨evs, ge, _, hev⟩ := VN1.genCurrent_ok h L.Tba f φ (by omega)
    exact ⟨evs.map (·.ev), by rw [ge]; rfl, hev⟩
  · intro φ hs
    obtain ⟨evs, ge, _, hev⟩ := VN1.genCurrent_ok h' L'.Tba f' φ (by omega)
    exact ⟨evs.map (·.ev), by rw [ge]; rfl, hev⟩

/-- **C85** for Redfield. -/
theorem c85_redfield (symq : Bool) {lib : NumLib} (hq : QuadOk lib) (hψ : ∀ x, lib.digammaRe (-x) = lib.digammaRe x)
    (hr : HoleRange v E L) (hH : ∀ l b c, L.Tba l b c = conj (L.Tba l c b)) :
    ∃ f f' m m', genFct1vN v lib E L = .ok f ∧ genFct1vN w lib E' L' = .ok f' ∧
      Redfield.kernel v symq E L.Tba f = .ok m ∧ Redfield.kernel w symq E' L'.Tba f' = .ok m' ∧
      SameForHoles v w la la' N π m m' (fun φ => List.map (·.ev) <$> Redfield.genCurrent v L.Tba f φ)
        (fun φ => List.map (·.ev) <$> Redfield.genCurrent w L'.Tba f' φ) := by
  obtain ⟨f, gf, hf⟩ := fillFct_ok h (⟨0, 0, 0, 0⟩ : Amp) (amp1vN lib E L)
  obtain ⟨f', gf', hf'⟩ := fillFct_ok h' (⟨0, 0, 0, 0⟩ : Amp) (amp1vN lib E' L')
  obtain ⟨m, g, hc, _, rows⟩ := assemble_rows h symq E (Redfield.coup v L.Tba f) _
    (fun c b bp hb hbp hi => Redfield.coup_ok h L.Tba f hb hbp hi)
  obtain ⟨m', g', hc', _, rows'⟩ := assemble_rows h' symq E' (Redfield.coup w L'.Tba f') _
    (fun c b bp hb hbp hi => Redfield.coup_ok h' L'.Tba f' hb hbp hi)
  have key : ∀ l < v.nleads, ∀ q, q + 1 ≤ N → ∀ x ∈ v.R q, ∀ b ∈ v.R (q + 1), ∀ A A', A = f l (la.ix1 q b x) →
      A' = f' l (la'.ix1 (N - (q + 1)) (π x) (π b)) → A'.cur0 = conj A.cur1 ∧ A'.cur1 = conj A.cur0 ∧
      A'.en0 = -conj A.en1 + (holeShift (L.mu l) (L.T l) (L.Dm l) (L.Dp l) L.itype : ℝ) ∧
      A'.en1 = -conj A.en0 + (holeShift (L.mu l) (L.T l) (L.Dm l) (L.Dp l) L.itype : ℝ) := by
    intro l hl q hqN x hx b hb A A' hA hA'
    have hx := (mem_R h).1 hx
    have hb := (mem_R h).1 hb
    have e : N - (q + 1) + 1 = N - q := by omega
    rw [hf q b x l hb hx hl] at hA
    rw [hf' (N - (q + 1)) (π x) (π b) l (by rw [e]; exact (hp.states q (by omega) x).2 hx)
      ((hp.states (q + 1) hqN b).2 hb) (by rw [hp.leads]; exact hl)] at hA'
    exact hp.amp h h' hq hψ hr hl hb hx hA hA'
  refine ⟨f, f', m, m', gf, gf', g, g', hp.same h h' hH
    (e0 := fun l q x _ bp => (f l (la.ix1 q x bp)).en0) (e1 := fun l q x xp b => (f l (la.ix1 q xp b)).en1)
    (e0' := fun l q x _ bp => (f' l (la'.ix1 q x bp)).en0) (e1' := fun l q x xp b => (f' l (la'.ix1 q xp b)).en1)
    (δ := fun l => holeShift (L.mu l) (L.T l) (L.Dm l) (L.Dp l) L.itype) ⟨?_, ?_⟩ ⟨?_, ?_⟩ hc hc' rows rows' ?_ ?_⟩
  · intro l hl q hqN x hx b _ bp hbp
    simpa using (key l hl q hqN x hx bp hbp _ _ rfl rfl).1
  · intro l hl q hqN x _ xp hxp b hb
    simpa using (key l hl q hqN xp hxp b hb _ _ rfl rfl).2.1
  · intro l hl q hqN x hx b _ bp hbp
    simpa using (key l hl q hqN x hx bp hbp _ _ rfl rfl).2.2.1
  · intro l hl q hqN x _ xp hxp b hb
    simpa using (key l hl q hqN xp hxp b hb _ _ rfl rfl).2.2.2
  · intro φ hs
    obtain ⟨evs, ge, _, hev⟩ := Redfield.genCurrent_ok h L.Tba f φ (by omega)
    exact ⟨evs.map (·.ev), by rw [ge]; rfl, hev⟩
  · intro φ hs
    obtain ⟨evs, ge, _, hev⟩ := Redfield.genCurrent_ok h' L'.Tba f' φ (by omega)
    exact ⟨evs.map (·.ev), by rw [ge]; rfl, hev⟩

/-! ### Constants in the energy amplitudes -/

omit h' hp in
theorem Coh.Z_const (T : TMat) (hT : ∀ l b c, T l b c = conj (T l c b)) {e0 e1 e0' e1' : KFct} {δ : Nat → ℝ}
    (h0 : ∀ l q x b bp, e0' l q x b bp = e0 l q x b bp + δ l) (h1 : ∀ l q x xp b, e1' l q x xp b = e1 l q x xp b + δ l)
    (φ : Nat → ℝ) (l : Nat) :
    ∑ q ∈ range (v.ncharge - 1), ∑ c ∈ v.R (q + 1), ∑ b ∈ v.R q, -2 * (Coh.Z v T e0' e1' (dens v la φ) l q c b).im =
    ∑ q ∈ range (v.ncharge - 1), ∑ c ∈ v.R (q + 1), ∑ b ∈ v.R q, -2 * (Coh.Z v T e0 e1 (dens v la φ) l q c b).im := by
  have herm : ∀ q, ∀ y ∈ v.R q, ∀ b ∈ v.R q, dens v la φ q y b = conj (dens v la φ q b y) :=
    fun q y hy b hb => h.dens_herm φ ((mem_R h).1 hb) ((mem_R h).1 hy)
  refine sum_congr rfl fun q _ => ?_
  simp only [← mul_sum, ← Complex.im_sum]
  rw [Coh.Z_sum h, Coh.Z_sum h]
  simp only [h0, h1, mul_add, add_mul, sum_add_distrib, Complex.add_im]
  have z1 := im_trace (P := v.R q) (Q := v.R (q + 1)) (T := T l) (ρ := dens v la φ q) (hT l) (herm q) (δ l)
  have z2 := im_trace (P := v.R (q + 1)) (Q := v.R q) (T := T l) (ρ := dens v la φ (q + 1)) (hT l) (herm (q + 1)) (δ l)
  rw [z1]
  have z3 : ∑ b ∈ v.R q, ∑ a ∈ v.R (q + 1), ∑ ap ∈ v.R (q + 1), T l b a * T l ap b * (δ l : ℂ) * dens v la φ (q + 1) a ap =
      ∑ b ∈ v.R (q + 1), ∑ y ∈ v.R (q + 1), ∑ a ∈ v.R q, T l b a * T l a y * (δ l : ℂ) * dens v la φ (q + 1) y b := by
    rw [sum_comm (s := v.R q) (t := v.R (q + 1)), sum_comm (s := v.R (q + 1)) (t := v.R (q + 1)) (f := fun b y => ∑ a ∈ v.R q, _)]
    refine sum_congr rfl fun a _ => ?_
    rw [sum_comm]
    exact sum_congr rfl fun ap _ => sum_congr rfl fun b _ => by ring
  rw [z3, z2]
  ring

omit h' hp in
/-- **C85**, a real constant added to both energy amplitudes of a lead does not change the energy currents of 1vN and
Redfield. -/
theorem c85_constant (T : TMat) (hT : ∀ l b c, T l b c = conj (T l c b)) (δ : Nat → ℝ) {f f' : Nat → Nat → Amp}
    (hf : ∀ l i, f' l i = ⟨(f l i).cur0, (f l i).cur1, (f l i).en0 + δ l, (f l i).en1 + δ l⟩) (φ : Vec) (hs : φ.size = v.ndm0r) :
    (∃ evs evs', VN1.genCurrent v T f φ = .ok evs ∧ VN1.genCurrent v T f' φ = .ok evs' ∧ ∀ l < v.nleads,
      current (evs'.map (·.ev)) l = current (evs.map (·.ev)) l ∧
      energyCurrent (evs'.map (·.ev)) l = energyCurrent (evs.map (·.ev)) l) ∧
    ∃ evs evs', Redfield.genCurrent v T f φ = .ok evs ∧ Redfield.genCurrent v T f' φ = .ok evs' ∧ ∀ l < v.nleads,
      current (evs'.map (·.ev)) l = current (evs.map (·.ev)) l ∧
      energyCurrent (evs'.map (·.ev)) l = energyCurrent (evs.map (·.ev)) l := by
  constructor
  · obtain ⟨evs, ge, _, hev⟩ := VN1.genCurrent_ok h T f φ (by omega)
    obtain ⟨evs', ge', _, hev'⟩ := VN1.genCurrent_ok h T f' φ (by omega)
    refine ⟨evs, evs', ge, ge', fun l hl => ?_⟩
    rw [(hev l hl).1, (hev l hl).2, (hev' l hl).1, (hev' l hl).2]
    exact ⟨by simp only [hf], Coh.Z_const h T hT (δ := δ) (fun l q x b bp => by rw [hf]) (fun l q x xp b => by rw [hf]) _ l⟩
  · obtain ⟨evs, ge, _, hev⟩ := Redfield.genCurrent_ok h T f φ (by omega)
    obtain ⟨evs', ge', _, hev'⟩ := Redfield.genCurrent_ok h T f' φ (by omega)
    refine ⟨evs, evs', ge, ge', fun l hl => ?_⟩
    rw [(hev l hl).1, (hev l hl).2, (hev' l hl).1, (hev' l hl).2]
    exact ⟨by simp only [hf], Coh.Z_const h T hT (δ := δ) (fun l q x b bp => by rw [hf]) (fun l q x xp b => by rw [hf]) _ l⟩

/-! ### Lindblad -/

theorem Holes.lSL {t t' : TMat} (ht : ∀ l < v.nleads, ∀ q, ∀ x ∈ v.R (q + 1), ∀ b ∈ v.R q,
      t' l (π x) (π b) = t l x b ∧ t' l (π b) (π x) = t l b x) {ρ ρ' : Nat → Nat → Nat → ℂ}
    (hρ : HoleDens v N π ρ ρ') {l : Nat} (hl : l < v.nleads) {c b bp : Nat} (hc : c ≤ N) (hb : b ∈ v.R c) (hbp : bp ∈ v.R c) :
    Lindblad.SL w t' ρ' l (N - c) (π b) (π bp) = Lindblad.SL v t ρ l c b bp := by
  have m := fun {q x} => (mem_R (v := v) h (c := q) (b := x)).1
  have up : ∀ x ∈ v.R (c + 1), c + 1 ≤ N := by
    intro x hx
    by_contra e
    rw [(hp.R_empty h h' (by omega)).1] at hx
    simp at hx
  unfold Lindblad.SL
  simp only [hp.sumLo h h' hc, hp.sumR h h' hc, hp.sumHi h h' hc]
  rw [show ∀ a b c d e f : ℂ, a + b + c + d + e + f = f + c + b + e + d + a by intros; ring]
  refine congrArg₂ (· + ·) (congrArg₂ (· + ·) (congrArg₂ (· + ·) (congrArg₂ (· + ·) (congrArg₂ (· + ·) ?_ ?_) ?_) ?_) ?_) ?_
  · rcases c with _ | c
    · rw [Lo_zero h]; simp
    · rw [Lo_succ h, Nat.add_sub_cancel]
      refine sum_congr rfl fun a ha => sum_congr rfl fun ap hap => ?_
      have e : N - (c + 1) + 1 = N - c := by omega
      rw [(ht l hl c b hb a ha).1, (ht l hl c bp hbp ap hap).1, e, hρ c (by omega) a (m ha) ap (m hap)]
  · rcases c with _ | c
    · rw [Lo_zero h]; simp
    · rw [Lo_succ h]
      refine sum_congr rfl fun y hy => sum_congr rfl fun a ha => ?_
      rw [(ht l hl c b hb a ha).2, (ht l hl c y hy a ha).2, hρ _ hc y (m hy) bp (m hbp)]
  · refine sum_congr rfl fun y hy => sum_congr rfl fun x hx => ?_
    rw [(ht l hl c x hx b hb).1, (ht l hl c x hx y hy).1, hρ c hc y (m hy) bp (m hbp)]
  · rcases c with _ | c
    · rw [Lo_zero h]; simp
    · rw [Lo_succ h]
      refine sum_congr rfl fun y hy => sum_congr rfl fun a ha => ?_
      rw [(ht l hl c y hy a ha).2, (ht l hl c bp hbp a ha).2, hρ _ hc b (m hb) y (m hy)]
  · refine sum_congr rfl fun y hy => sum_congr rfl fun x hx => ?_
    rw [(ht l hl c x hx y hy).1, (ht l hl c x hx bp hbp).1, hρ c hc b (m hb) y (m hy)]
  · refine sum_congr rfl fun x hx => sum_congr rfl fun xp hxp => ?_
    rw [Nat.sub_sub, (ht l hl c x hx b hb).2, (ht l hl c xp hxp bp hbp).2,
      hρ (c + 1) (up x hx) x (m hx) xp (m hxp)]

theorem Holes.flow {t t' : TMat} (ht : ∀ l < v.nleads, ∀ q, ∀ x ∈ v.R (q + 1), ∀ b ∈ v.R q,
      t' l (π x) (π b) = t l x b ∧ t' l (π b) (π x) = t l b x) {ρ ρ' : Nat → Nat → Nat → ℂ}
    (hρ : HoleDens v N π ρ ρ') {l : Nat} (hl : l < v.nleads) {g g' : Nat → Nat → ℂ}
    (hg : ∀ q ≤ N, ∀ b ∈ v.R q, g' (N - q) (π b) = g q b) :
    Lindblad.flow w t' ρ' g' l = Lindblad.flow v t ρ g l := by
  have m := fun {q x} => (mem_R (v := v) h (c := q) (b := x)).1
  unfold Lindblad.flow
  rw [hp.flip1 h h']
  refine sum_congr rfl fun q hq => ?_
  have hq1 : q + 1 ≤ N := by
    have := hp.charges
    have := mem_range.1 hq
    omega
  have hq0 : q ≤ N := by omega
  rw [show N - (q + 1) + 1 = N - q by omega]
  simp only [hp.sumR h h' hq1, hp.sumR h h' hq0]
  rw [sum_comm]
  refine sum_congr rfl fun x hx => sum_congr rfl fun b hb => ?_
  rw [add_comm]
  refine congrArg₂ (· + ·) ?_ ?_
  · refine sum_congr rfl fun xp hxp => ?_
    unfold Lindblad.P
    rw [hg q hq0 b hb, hg (q + 1) hq1 x hx, hg (q + 1) hq1 xp hxp, (ht l hl q x hx b hb).2, (ht l hl q xp hxp b hb).2,
      hρ (q + 1) hq1 x (m hx) xp (m hxp)]
  · refine sum_congr rfl fun bp hbp => ?_
    unfold Lindblad.P
    rw [hg q hq0 b hb, hg q hq0 bp hbp, hg (q + 1) hq1 x hx, (ht l hl q x hx b hb).1, (ht l hl q x hx bp hbp).1,
      hρ q hq0 b (m hb) bp (m hbp)]

omit h' in
theorem Holes.flow_neg (t : TMat) (ρ : Nat → Nat → Nat → ℂ) (l : Nat) :
    Lindblad.flow v t ρ (fun q _ => ((N - q : ℕ) : ℂ)) l = -Lindblad.flow v t ρ (fun q _ => (q : ℂ)) l := by
  unfold Lindblad.flow
  rw [← sum_neg_distrib]
  refine sum_congr rfl fun q hq => ?_
  have hq1 : q + 1 ≤ N := by
    have := hp.charges
    have := mem_range.1 hq
    omega
  rw [← sum_neg_distrib]
  refine sum_congr rfl fun x _ => ?_
  rw [← sum_neg_distrib]
  refine sum_congr rfl fun b _ => ?_
  rw [neg_add, ← sum_neg_distrib, ← sum_neg_distrib]
  simp only [Nat.cast_sub hq1, Nat.cast_sub (show q ≤ N by omega)]
  push_cast
  refine congrArg₂ (· + ·) ?_ ?_ <;> exact sum_congr rfl fun _ _ => by ring

/-- **C85** for Lindblad. -/
theorem c85_lindblad (symq : Bool) (hr : ∀ l < v.nleads, ∀ q, ∀ x ∈ v.row (q + 1), ∀ b ∈ v.row q,
      |(E x - E b - L.mu l) / L.T l| ≤ 709.77) :
    ∃ t t' m m', Lindblad.genFct v E L = .ok t ∧ Lindblad.genFct w E' L' = .ok t' ∧
      Lindblad.kernel v symq E t = .ok m ∧ Lindblad.kernel w symq E' t' = .ok m' ∧
      SameForHoles v w la la' N π m m' (Lindblad.genCurrent v E t) (Lindblad.genCurrent w E' t') := by
  obtain ⟨t, gt, ht⟩ := Lindblad.genFct_ok h E L
  obtain ⟨t', gt', ht'⟩ := Lindblad.genFct_ok h' E' L'
  obtain ⟨m, g, hc, _, rows⟩ := assemble_rows h symq E (Lindblad.coup v t) _
    (fun c b bp hb hbp hi => Lindblad.coup_ok h t hb hbp hi)
  obtain ⟨m', g', hc', _, rows'⟩ := assemble_rows h' symq E' (Lindblad.coup w t') _
    (fun c b bp hb hbp hi => Lindblad.coup_ok h' t' hb hbp hi)
  have hj : ∀ l < v.nleads, ∀ q, ∀ x ∈ v.R (q + 1), ∀ b ∈ v.R q,
      t' l (π x) (π b) = t l x b ∧ t' l (π b) (π x) = t l b x := by
    intro l hl q x hx b hb
    have hx := (mem_R h).1 hx
    have hb := (mem_R h).1 hb
    have hq := hp.le h hx
    obtain ⟨e1, e2⟩ := ht q x b l hx hb hl
    obtain ⟨e3, e4⟩ := ht' (N - (q + 1)) (π b) (π x) l
      (by rw [show N - (q + 1) + 1 = N - q by omega]; exact (hp.states q (by omega) b).2 hb) ((hp.states (q + 1) hq x).2 hx)
      (by rw [hp.leads]; exact hl)
    rw [hp.energy q b hb, hp.energy (q + 1) x hx, hp.mu, hp.temp, hp.Dm, hp.Dp, hp.itype, hp.tba,
      show E b - E x = -(E x - E b) by ring, hole_pauli _ (hr l hl q x hx b hb)] at e3 e4
    exact ⟨by rw [e1, e4], by rw [e2, e3]⟩
  have hstep : ∀ φ φ' : Vec, HoleDens v N π (dens v la φ.val) (dens w la' φ'.val) →
      HoleDens v N π (dens v la fun i => ∑ j ∈ range v.ndm0r, m.val i j * φ.val j)
        (dens w la' fun i => ∑ j ∈ range w.ndm0r, m'.val i j * φ'.val j) := by
    intro φ φ' hρ
    have := hp.step h h' (S := fun φ => Lindblad.S v t (dens v la φ)) (S' := fun φ => Lindblad.S w t' (dens w la' φ))
      rows rows' (φ := φ.val) (φ' := φ'.val) (Lindblad.S_anti h t _) (Lindblad.S_anti h' t' _) hρ
      (fun c b bp hb hbp => by
        rw [Lindblad.S_leads', Lindblad.S_leads', hp.leads]
        exact sum_congr rfl fun l hl => hp.lSL h h' hj hρ (mem_range.1 hl) (hp.le h hb) ((mem_R h).2 hb) ((mem_R h).2 hbp))
    unfold Mat.app at this
    rw [hc, hc'] at this
    exact this
  refine ⟨t, t', m, m', gt, gt', g, g', hp.exist h h', fun φ φ' hρ => hp.trace h h' hρ, hstep,
    fun φ φ' hρ => hp.zero h h' (hstep φ φ' hρ), ?_⟩
  intro φ φ' hs hs' hρ
  obtain ⟨evs, ge, hev⟩ := Lindblad.genCurrent_ok h E t φ (by omega)
  obtain ⟨evs', ge', hev'⟩ := Lindblad.genCurrent_ok h' E' t' φ' (by omega)
  refine ⟨evs, evs', ge, ge', fun l hl => ?_⟩
  have hl' : l < w.nleads := by rw [hp.leads]; exact hl
  rw [(hev l hl).1, (hev l hl).2, (hev' l hl').1, (hev' l hl').2]
  rw [hp.flow h h' hj hρ hl (g := fun q _ => ((N - q : ℕ) : ℂ)) (g' := fun q _ => (q : ℂ)) (fun q _ b _ => rfl),
    hp.flow h h' hj hρ hl (g := fun _ b => (E b : ℂ)) (g' := fun _ b => (E' b : ℂ))
      (fun q _ b hb => by rw [hp.energy q b ((mem_R h).1 hb)]), hp.flow_neg h, Complex.neg_re]
  exact ⟨rfl, rfl⟩

/-! ### Pauli -/

/-- **C85** for Pauli: equal populations of corresponding states change in the same way, the particle currents are
opposite and the energy currents equal. -/
theorem c85_pauli (symq : Bool) (hr : ∀ l < v.nleads, ∀ q, ∀ x ∈ v.row (q + 1), ∀ b ∈ v.row q,
      |(E x - E b - L.mu l) / L.T l| ≤ 709.77) :
    ∃ f f' m m', Pauli.genFct v E L = .ok f ∧ Pauli.genFct w E' L' = .ok f' ∧
      Pauli.kernel v symq f = .ok m ∧ Pauli.kernel w symq f' = .ok m' ∧
      ∀ φ φ' : Vec, φ.size = v.npauli → φ'.size = w.npauli →
        (∀ q, ∀ b ∈ v.row q, φ'.val (la'.lab (N - q) (π b) (π b)) = φ.val (la.lab q b b)) →
        (∀ q, ∀ b ∈ v.row q, ∑ j ∈ range w.npauli, m'.val (la'.lab (N - q) (π b) (π b)) j * φ'.val j =
          ∑ j ∈ range v.npauli, m.val (la.lab q b b) j * φ.val j) ∧
        ∃ evs evs', Pauli.genCurrent v E f φ = .ok evs ∧ Pauli.genCurrent w E' f' φ' = .ok evs' ∧ ∀ l < v.nleads,
          current evs' l = -current evs l ∧ energyCurrent evs' l = energyCurrent evs l := by
  obtain ⟨f, gf, hf⟩ := Pauli.genFct_ok h E L
  obtain ⟨f', gf', hf'⟩ := Pauli.genFct_ok h' E' L'
  obtain ⟨m, g, hc, _, rows⟩ := Pauli.kernel_rows h f symq
  obtain ⟨m', g', hc', _, rows'⟩ := Pauli.kernel_rows h' f' symq
  have key : ∀ l < v.nleads, ∀ q, ∀ x ∈ v.R (q + 1), ∀ b ∈ v.R q,
      f' l (la'.ix1 (N - (q + 1)) (π b) (π x)) = ((f l (la.ix1 q x b)).2, (f l (la.ix1 q x b)).1) := by
    intro l hl q x hx b hb
    have hq := hp.le h ((mem_R h).1 hx)
    rw [hf q x b l hx hb hl, hf' _ _ _ l
      (by rw [show N - (q + 1) + 1 = N - q by omega]; exact (mem_R h').2 ((hp.states q (by omega) b).2 ((mem_R h).1 hb)))
      ((mem_R h').2 ((hp.states (q + 1) hq x).2 ((mem_R h).1 hx))) (by rw [hp.leads]; exact hl)]
    have hx := (mem_R h).1 hx
    have hb := (mem_R h).1 hb
    unfold Pauli.amp
    dsimp only
    rw [hp.energy q b hb, hp.energy (q + 1) x hx, hp.mu, hp.temp, hp.Dm, hp.Dp, hp.itype, hp.tba, hp.tba,
      show E b - E x = -(E x - E b) by ring, hole_pauli _ (hr l hl q x hx b hb), mul_comm (L.Tba l x b)]
  have kup : ∀ q, ∀ x ∈ v.R (q + 1), ∀ b ∈ v.R q, Pauli.up w la' f' (N - (q + 1)) (π b) (π x) = Pauli.down v la f q x b := by
    intro q x hx b hb
    unfold Pauli.up Pauli.down
    rw [hp.leads]
    exact sum_congr rfl fun l hl => by rw [key l (mem_range.1 hl) q x hx b hb]
  have kdn : ∀ q, ∀ x ∈ v.R (q + 1), ∀ b ∈ v.R q, Pauli.down w la' f' (N - (q + 1)) (π b) (π x) = Pauli.up v la f q x b := by
    intro q x hx b hb
    unfold Pauli.up Pauli.down
    rw [hp.leads]
    exact sum_congr rfl fun l hl => by rw [key l (mem_range.1 hl) q x hx b hb]
  refine ⟨f, f', m, m', gf, gf', g, g', fun φ φ' hs hs' hφ => ⟨?_, ?_⟩⟩
  · intro c b hb
    have hcN := hp.le h hb
    have r := rows φ.val c b hb
    have r' := rows' φ'.val (N - c) (π b) ((hp.states c hcN b).2 hb)
    unfold Mat.app at r r'
    rw [hc] at r
    rw [hc'] at r'
    rw [r, r', hp.sumLo h h' hcN, hp.sumHi h h' hcN, add_comm, hφ c b hb]
    have hb' := (mem_R h).2 hb
    refine congrArg₂ (· + ·) ?_ ?_
    · rcases c with _ | c
      · rw [Lo_zero h]; simp
      · rw [Lo_succ h, Nat.add_sub_cancel]
        refine sum_congr rfl fun a ha => ?_
        rw [kup c b hb' a ha, kdn c b hb' a ha, show N - (c + 1) + 1 = N - c by omega, hφ c a ((mem_R h).1 ha)]
    · refine sum_congr rfl fun x hx => ?_
      rw [Nat.sub_sub, kup c x hx b hb', kdn c x hx b hb', hφ (c + 1) x ((mem_R h).1 hx)]
  · obtain ⟨evs, ge, hev⟩ := Pauli.genCurrent_ok h E f φ (by omega)
    obtain ⟨evs', ge', hev'⟩ := Pauli.genCurrent_ok h' E' f' φ' (by omega)
    refine ⟨evs, evs', ge, ge', fun l hl => ?_⟩
    have hl' : l < w.nleads := by rw [hp.leads]; exact hl
    rw [(hev l hl).1, (hev l hl).2, (hev' l hl').1, (hev' l hl').2, hp.flip1 h h', hp.flip1 h h', ← sum_neg_distrib]
    have main : ∀ (F : Nat → Nat → Nat → ℝ) (F' : Nat → Nat → Nat → ℝ), (∀ q, q + 1 ≤ N → ∀ x ∈ v.R (q + 1), ∀ b ∈ v.R q,
        F' (N - (q + 1)) (π b) (π x) = F q x b) → ∀ q ∈ range (v.ncharge - 1),
        ∑ c ∈ w.R (N - (q + 1) + 1), ∑ b ∈ w.R (N - (q + 1)), F' (N - (q + 1)) c b = ∑ c ∈ v.R (q + 1), ∑ b ∈ v.R q, F q c b := by
      intro F F' hF q hq
      have := hp.charges
      have := mem_range.1 hq
      have hq1 : q + 1 ≤ N := by omega
      rw [show N - (q + 1) + 1 = N - q by omega]
      simp only [hp.sumR h h' hq1, hp.sumR h h' (show q ≤ N by omega)]
      rw [sum_comm]
      exact sum_congr rfl fun x hx => sum_congr rfl fun b hb => hF q hq1 x hx b hb
    constructor
    · refine sum_congr rfl fun q hq => ?_
      rw [main (fun q c b => -(φ.val (la.lab q b b) * (f l (la.ix1 q c b)).1 - φ.val (la.lab (q + 1) c c) * (f l (la.ix1 q c b)).2))
        (fun q c b => φ'.val (la'.lab q b b) * (f' l (la'.ix1 q c b)).1 - φ'.val (la'.lab (q + 1) c c) * (f' l (la'.ix1 q c b)).2)
        ?_ q hq]
      · simp only [sum_neg_distrib]
      · intro q hq x hx b hb
        rw [key l hl q x hx b hb, show N - (q + 1) + 1 = N - q by omega, hφ q b ((mem_R h).1 hb), hφ (q + 1) x ((mem_R h).1 hx)]
        ring
    · refine sum_congr rfl fun q hq => ?_
      rw [main (fun q c b => (E c - E b) * (φ.val (la.lab q b b) * (f l (la.ix1 q c b)).1 - φ.val (la.lab (q + 1) c c) * (f l (la.ix1 q c b)).2))
        (fun q c b => (E' c - E' b) * (φ'.val (la'.lab q b b) * (f' l (la'.ix1 q c b)).1 - φ'.val (la'.lab (q + 1) c c) * (f' l (la'.ix1 q c b)).2))
        ?_ q hq]
      · intro q hq x hx b hb
        rw [key l hl q x hx b hb, show N - (q + 1) + 1 = N - q by omega, hφ q b ((mem_R h).1 hb), hφ (q + 1) x ((mem_R h).1 hx),
          hp.energy q b ((mem_R h).1 hb), hp.energy (q + 1) x ((mem_R h).1 hx)]
        ring

end

/-- The hypotheses of the theorems for C85 hold for two orbitals with interaction and two leads with a finite band. -/
example : ∃ (v w : View) (la la' : Lab) (π : Equiv.Perm Nat) (E E' : Nat → ℝ) (L L' : Leads) (lib : NumLib),
    VOk v la ∧ VOk w la' ∧ Holes v w la la' 2 π E E' L L' ∧ HoleRange v E L ∧ L.itype = 0 ∧ QuadOk lib ∧
    (∀ x, lib.digammaRe (-x) = lib.digammaRe x) ∧ (∀ l b c, L.Tba l b c = conj (L.Tba l c b)) ∧ v.nleads = 2 ∧
    v.row 1 = [1, 2] ∧ la.inc 1 1 2 = true ∧ E 1 ≠ E 2 ∧ L.Tba 0 1 0 ≠ 0 ∧ L.mu 1 ≠ 0 := by
  obtain ⟨d, hd, hv, ha, hst, _⟩ := RTD.view_all
  have hn : (d.view 2).ncharge = 3 := by
    have key : (DM.init .dm 2 "charge" >>= fun d => (.ok d.si.ncharge : Py Nat)) = .ok 3 := by decide +kernel
    rw [hd] at key
    exact Except.ok.inj key
  obtain ⟨lib, hlib, e⟩ := quad_exists fun x => x ^ 2
  have hrow : ∀ q b, b ∈ (d.view 2).row q ↔ (q = 0 ∧ b = 0) ∨ (q = 1 ∧ (b = 1 ∨ b = 2)) ∨ (q = 2 ∧ b = 3) := by
    intro q b
    show b ∈ (d.statesdm[q]?).getD [] ↔ _
    rw [hst]
    match q with
    | 0 => simp
    | 1 => simp
    | 2 => simp
    | 3 => simp
    | q + 4 => simp
  have r1 : (d.view 2).row 1 = [1, 2] := by show (d.statesdm[1]?).getD [] = _; rw [hst]; rfl
  let π : Equiv.Perm Nat := Equiv.swap 0 3
  let E : Nat → ℝ := fun b => if b = 0 then 0 else if b = 3 then 7 else b
  let T : Nat → Nat → Nat → ℂ := fun l b c => (l + 1 + b + c : ℕ)
  have hT : ∀ l b c, T l b c = conj (T l c b) := by
    intro l b c; simp only [T, Complex.conj_natCast]; push_cast; ring
  have p0 : π 0 = 3 := Equiv.swap_apply_left 0 3
  have p3 : π 3 = 0 := Equiv.swap_apply_right 0 3
  have px : ∀ b, b ≠ 0 → b ≠ 3 → π b = b := fun b h h' => Equiv.swap_apply_of_ne_of_ne h h'
  refine ⟨d.view 2, d.view 2, d.labOf, d.labOf, π, E, fun b => E (π.symm b),
    ⟨fun l => l, fun l => l + 1, fun _ => -60, fun _ => 60, T, 0, 10000⟩,
    ⟨fun l => -l, fun l => l + 1, fun _ => -60, fun _ => 60, fun l b c => T l (π.symm b) (π.symm c), 0, 10000⟩, lib,
    hv, hv, ⟨?_, ?_, rfl, ?_, ?_, ?_, ?_, fun _ => rfl, fun _ => rfl, fun _ => rfl, fun _ => by norm_num, rfl, rfl⟩,
    ⟨?_, ?_, ?_, ?_⟩, rfl, hlib, fun x => by rw [e]; ring, hT, rfl, r1, ?_, ?_, ?_, ?_⟩
  · exact hn
  · exact hn
  · intro q hq b
    rw [hrow, hrow]
    by_cases h0 : b = 0
    · subst h0; rw [p0]; omega
    · by_cases h3 : b = 3
      · subst h3; rw [p3]; omega
      · rw [px b h0 h3]; omega
  · intro q hq b hb bp hbp
    have hm : ∀ b ∈ (d.view 2).row q, π b ∈ (d.view 2).row (2 - q) := by
      intro b hb
      rw [hrow] at hb ⊢
      rcases hb with ⟨rfl, rfl⟩ | ⟨rfl, rfl | rfl⟩ | ⟨rfl, rfl⟩
      · rw [p0]; omega
      · rw [px 1 (by omega) (by omega)]; omega
      · rw [px 2 (by omega) (by omega)]; omega
      · rw [p3]; omega
    rw [ha q b bp hb hbp, ha _ _ _ (hm b hb) (hm bp hbp)]
  · intro q b _
    show E (π.symm (π b)) = E b
    rw [Equiv.symm_apply_apply]
  · intro l b a
    show T l (π.symm (π b)) (π.symm (π a)) = T l b a
    rw [Equiv.symm_apply_apply, Equiv.symm_apply_apply]
  · intro l _
    positivity
  · intro l hl q x hx b hb
    have hl' : l = 0 ∨ l = 1 := by
      have : l < 2 := hl
      omega
    rw [hrow] at hx hb
    rcases hl' with rfl | rfl <;> rcases hx with ⟨h, -⟩ | ⟨h, rfl | rfl⟩ | ⟨h, rfl⟩ <;>
      rcases hb with ⟨h', rfl⟩ | ⟨h', rfl | rfl⟩ | ⟨h', rfl⟩ <;> first | omega | (norm_num [E, abs_lt])
  · intro _ l hl
    have hl' : l = 0 ∨ l = 1 := by
      have : l < 2 := hl
      omega
    refine ⟨by norm_num, ?_, ?_, ?_⟩
    · rcases hl' with rfl | rfl <;> norm_num [abs_le]
    · rcases hl' with rfl | rfl <;> norm_num [abs_le]
    · intro q x hx b hb
      rw [hrow] at hx hb
      rcases hx with ⟨h, -⟩ | ⟨h, rfl | rfl⟩ | ⟨h, rfl⟩ <;>
        rcases hb with ⟨h', rfl⟩ | ⟨h', rfl | rfl⟩ | ⟨h', rfl⟩ <;> first | omega | (norm_num [E])
  · intro h
    exact absurd h (by norm_num)
  · exact ha 1 1 2 ((hrow 1 1).2 (by omega)) ((hrow 1 2).2 (by omega))
  · norm_num [E]
  · simp only [T]; norm_num
  · norm_num

end

end Verif
