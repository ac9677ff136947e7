import Verif.Props.Basis

/-! C70 does not extend to the Pauli approach: without coherences the current depends on the basis chosen among states
of equal energy. -/

namespace Verif

open Finset
open scoped ComplexConjugate

noncomputable section

/-- The kernel and the current of the Pauli approach for two orbitals. -/
theorem pauli_two {v : View} {la : Lab} (h : VOk v la) (r0 : v.row 0 = [0]) (r1 : v.row 1 = [1, 2]) (r2 : v.row 2 = [3])
    (r3 : v.row 3 = []) (hn : v.ncharge = 3) (hl : v.nleads = 2) (E : Nat → ℝ) (L : Leads) (symq : Bool) :
    ∃ fct m, Pauli.genFct v E L = .ok fct ∧ Pauli.kernel v symq fct = .ok m ∧ ∀ φ : Vec, φ.size = v.npauli →
      (∀ i < v.npauli, ∑ j ∈ range v.npauli, m.val i j * φ.val j = 0) →
      ∃ (evs : List CEv) (p0 p1 p2 p3 : ℝ), Pauli.genCurrent v E fct φ = .ok evs ∧
        ∑ i ∈ range v.npauli, φ.val i = p0 + p1 + p2 + p3 ∧
        current evs 0 = (p0 * (Pauli.amp E L 0 1 0).1 - p1 * (Pauli.amp E L 0 1 0).2) +
          (p0 * (Pauli.amp E L 0 2 0).1 - p2 * (Pauli.amp E L 0 2 0).2) +
          (p1 * (Pauli.amp E L 0 3 1).1 - p3 * (Pauli.amp E L 0 3 1).2) +
          (p2 * (Pauli.amp E L 0 3 2).1 - p3 * (Pauli.amp E L 0 3 2).2) ∧
        ((Pauli.amp E L 0 1 0).1 + (Pauli.amp E L 1 1 0).1) * p0 - ((Pauli.amp E L 0 1 0).2 + (Pauli.amp E L 1 1 0).2) * p1 +
          (((Pauli.amp E L 0 3 1).2 + (Pauli.amp E L 1 3 1).2) * p3
            - ((Pauli.amp E L 0 3 1).1 + (Pauli.amp E L 1 3 1).1) * p1) = 0 ∧
        ((Pauli.amp E L 0 2 0).1 + (Pauli.amp E L 1 2 0).1) * p0 - ((Pauli.amp E L 0 2 0).2 + (Pauli.amp E L 1 2 0).2) * p2 +
          (((Pauli.amp E L 0 3 2).2 + (Pauli.amp E L 1 3 2).2) * p3
            - ((Pauli.amp E L 0 3 2).1 + (Pauli.amp E L 1 3 2).1) * p2) = 0 ∧
        (((Pauli.amp E L 0 3 1).1 + (Pauli.amp E L 1 3 1).1) * p1 - ((Pauli.amp E L 0 3 1).2 + (Pauli.amp E L 1 3 1).2) * p3) +
          (((Pauli.amp E L 0 3 2).1 + (Pauli.amp E L 1 3 2).1) * p2
            - ((Pauli.amp E L 0 3 2).2 + (Pauli.amp E L 1 3 2).2) * p3) = 0 := by
  obtain ⟨fct, gf, hf⟩ := Pauli.genFct_ok h E L
  obtain ⟨m, g, hc, _, rows⟩ := Pauli.kernel_rows h fct symq
  have R0 : v.R 0 = {0} := by simp [View.R, r0]
  have R1 : v.R 1 = {1, 2} := by simp [View.R, r1]
  have R2 : v.R 2 = {3} := by simp [View.R, r2]
  have R3 : v.R 3 = ∅ := by simp [View.R, r3]
  have L1 : v.Lo 1 = {0} := by rw [Lo_succ h, R0]
  have L2 : v.Lo 2 = {1, 2} := by rw [Lo_succ h, R1]
  have m0 : 0 ∈ v.row 0 := by simp [r0]
  have m1 : 1 ∈ v.row 1 := by simp [r1]
  have m2 : 2 ∈ v.row 1 := by simp [r1]
  have m3 : 3 ∈ v.row 2 := by simp [r2]
  refine ⟨fct, m, gf, g, ?_⟩
  intro φ hs hz
  obtain ⟨evs, ge, hev⟩ := Pauli.genCurrent_ok h E fct φ (by omega)
  have f10 : ∀ l, l < 2 → fct l (la.ix1 0 1 0) = Pauli.amp E L l 1 0 := fun l hl' => hf 0 1 0 l ((mem_R h).2 m1) ((mem_R h).2 m0) (by omega)
  have f20 : ∀ l, l < 2 → fct l (la.ix1 0 2 0) = Pauli.amp E L l 2 0 := fun l hl' => hf 0 2 0 l ((mem_R h).2 m2) ((mem_R h).2 m0) (by omega)
  have f31 : ∀ l, l < 2 → fct l (la.ix1 1 3 1) = Pauli.amp E L l 3 1 := fun l hl' => hf 1 3 1 l ((mem_R h).2 m3) ((mem_R h).2 m1) (by omega)
  have f32 : ∀ l, l < 2 → fct l (la.ix1 1 3 2) = Pauli.amp E L l 3 2 := fun l hl' => hf 1 3 2 l ((mem_R h).2 m3) ((mem_R h).2 m2) (by omega)
  have row : ∀ q b, b ∈ v.row q → m.app φ.val (la.lab q b b) = 0 := by
    intro q b hb
    have := hz _ (h.lab_diag q b hb)
    rw [← hc] at this
    exact this
  refine ⟨evs, φ.val (la.lab 0 0 0), φ.val (la.lab 1 1 1), φ.val (la.lab 1 2 2), φ.val (la.lab 2 3 3), ge, ?_, ?_, ?_, ?_, ?_⟩
  · rw [sum_pop h, hn]
    simp [sum_range_succ, R0, R1, R2]
    ring
  · rw [(hev 0 (by omega)).1, hn]
    simp [sum_range_succ, R0, R1, R2, f10, f20, f31, f32]
    ring
  · rw [← row 1 1 m1, rows φ.val 1 1 m1]
    simp [Pauli.up, Pauli.down, hl, sum_range_succ, L1, R2, f10, f20, f31, f32]
  · rw [← row 1 2 m2, rows φ.val 1 2 m2]
    simp [Pauli.up, Pauli.down, hl, sum_range_succ, L1, R2, f10, f20, f31, f32]
  · rw [← row 2 3 m3, rows φ.val 2 3 m3]
    simp [Pauli.up, Pauli.down, hl, sum_range_succ, L2, R3, f10, f20, f31, f32]
    ring

/-- Each orbital coupled to its own lead. -/
def tEx (l b c : Nat) : ℂ :=
  if l = 0 ∧ ((b = 1 ∧ c = 0) ∨ (b = 0 ∧ c = 1) ∨ (b = 3 ∧ c = 2) ∨ (b = 2 ∧ c = 3)) then 1 else
  if l = 1 ∧ ((b = 2 ∧ c = 0) ∨ (b = 0 ∧ c = 2)) then 1 else
  if l = 1 ∧ ((b = 3 ∧ c = 1) ∨ (b = 1 ∧ c = 3)) then -1 else 0

/-- `1/√2`. -/
def hr : ℝ := Real.sqrt 2 / 2

theorem hr_sq : hr * hr = 1 / 2 := by
  have := Real.mul_self_sqrt (show (0 : ℝ) ≤ 2 by norm_num)
  unfold hr
  linarith

/-- The sums and differences of the two states with one electron. -/
def uHad (b y : Nat) : ℂ :=
  if b = 2 ∧ y = 2 then -(hr : ℂ)
  else if (b = 1 ∨ b = 2) ∧ (y = 1 ∨ y = 2) then (hr : ℂ) else if b = y then 1 else 0

/-- **C70** is false for the Pauli approach: two orbitals of equal energy, each coupled to its own lead, carry no
current, but when the sums and differences of the states are chosen as the basis there is a current. This holds for
all stationary states of the two kernels, which exist. -/
theorem c70_pauli_false (symq : Bool) : ∃ (v : View) (la : Lab) (E : Nat → ℝ) (U : Nat → Nat → ℂ) (w : Nat → ℂ) (L : Leads)
    (T' : Nat → Nat → Nat → ℂ), VOk v la ∧ Eigenbasis v la E U ∧ (∀ l b c, L.Tba l b c = conj (L.Tba l c b)) ∧
    (∀ l b c, T' l b c = conj (T' l c b)) ∧ NewTba v U w L.Tba T' ∧ 0 < v.nleads ∧
    ∃ fct m fct' m', Pauli.genFct v E L = .ok fct ∧ Pauli.kernel v symq fct = .ok m ∧
      Pauli.genFct v E { L with Tba := T' } = .ok fct' ∧ Pauli.kernel v symq fct' = .ok m' ∧
      (∃ φ : Vec, φ.size = v.npauli ∧ ∑ i ∈ range v.npauli, φ.val i = 1 ∧
        ∀ i < v.npauli, ∑ j ∈ range v.npauli, m.val i j * φ.val j = 0) ∧
      (∃ φ : Vec, φ.size = v.npauli ∧ ∑ i ∈ range v.npauli, φ.val i = 1 ∧
        ∀ i < v.npauli, ∑ j ∈ range v.npauli, m'.val i j * φ.val j = 0) ∧
      (∀ φ : Vec, φ.size = v.npauli → ∑ i ∈ range v.npauli, φ.val i = 1 →
        (∀ i < v.npauli, ∑ j ∈ range v.npauli, m.val i j * φ.val j = 0) →
        ∃ evs, Pauli.genCurrent v E fct φ = .ok evs ∧ current evs 0 = 0) ∧
      ∀ φ : Vec, φ.size = v.npauli → ∑ i ∈ range v.npauli, φ.val i = 1 →
        (∀ i < v.npauli, ∑ j ∈ range v.npauli, m'.val i j * φ.val j = 0) →
        ∃ evs, Pauli.genCurrent v E fct' φ = .ok evs ∧ current evs 0 ≠ 0 := by
  obtain ⟨d, _, hv, ha, hst, hnp⟩ := RTD.view_all
  have hrow : ∀ q b, b ∈ (d.view 2).row q → (q = 0 ∧ b = 0) ∨ (q = 1 ∧ (b = 1 ∨ b = 2)) ∨ (q = 2 ∧ b = 3) := by
    intro q b hb
    have : b ∈ (d.statesdm[q]?).getD [] := hb
    rw [hst] at this
    match q with
    | 0 => simp at this; simp [this]
    | 1 => simp at this; simp [this]
    | 2 => simp at this; simp [this]
    | 3 => simp at this
    | q + 4 => simp at this
  have r0 : (d.view 2).row 0 = [0] := by show (d.statesdm[0]?).getD [] = _; rw [hst]; rfl
  have r1 : (d.view 2).row 1 = [1, 2] := by show (d.statesdm[1]?).getD [] = _; rw [hst]; rfl
  have r2 : (d.view 2).row 2 = [3] := by show (d.statesdm[2]?).getD [] = _; rw [hst]; rfl
  have r3 : (d.view 2).row 3 = [] := by show (d.statesdm[3]?).getD [] = _; rw [hst]; rfl
  have hn : (d.view 2).ncharge = 3 := by
    have h1 := hv.len
    have h2 : (d.view 2).statesdm.length = 4 := by show d.statesdm.length = 4; rw [hst]; rfl
    have h3 := hv.last 2
    rw [r2] at h3
    by_contra hne
    exact absurd (h3 (by omega)) (by simp)
  have s2 : (hr : ℂ) * (hr : ℂ) = 1 / 2 := by
    rw [← Complex.ofReal_mul, hr_sq]; push_cast; rfl
  have hT : ∀ l b c, tEx l b c = conj (tEx l c b) := by
    intro l b c
    have e : tEx l c b = tEx l b c := by unfold tEx; exact if_congr (by omega) rfl (if_congr (by omega) rfl (if_congr (by omega) rfl rfl))
    rw [e]
    unfold tEx
    split
    · simp
    · split
      · simp
      · split <;> simp
  obtain ⟨T', hT', hN⟩ := exists_newTba hv (U := uHad) (w := fun _ => 1) (by simp) hT
  let E : Nat → ℝ := fun b => if b = 0 then 0 else if b = 3 then 2 else 1
  let L : Leads := ⟨fun l => if l = 0 then 1 else 0, fun _ => 1, fun _ => -60, fun _ => 60, tEx, 1, 10000⟩
  have hB : Eigenbasis (d.view 2) d.labOf E uHad := by
    refine ⟨?_, ?_, ?_⟩
    · intro q y hy y' hy'
      rcases hrow q y hy with ⟨rfl, rfl⟩ | ⟨rfl, h1⟩ | ⟨rfl, rfl⟩
      · rcases hrow 0 y' hy' with ⟨_, rfl⟩ | ⟨h, _⟩ | ⟨h, _⟩
        · rw [r0]; simp [uHad]
        · omega
        · omega
      · rcases hrow 1 y' hy' with ⟨h, _⟩ | ⟨_, h2⟩ | ⟨h, _⟩
        · omega
        · rw [r1]
          rw [List.toFinset_cons, List.toFinset_cons, List.toFinset_nil, insert_empty_eq, sum_pair (by decide)]
          rcases h1 with rfl | rfl <;> rcases h2 with rfl | rfl <;>
            simp only [uHad] <;> norm_num <;> linear_combination 2 * s2
        · omega
      · rcases hrow 2 y' hy' with ⟨h, _⟩ | ⟨h, _⟩ | ⟨_, rfl⟩
        · omega
        · omega
        · rw [r2]; simp [uHad]
    · intro q b hb y hy _
      rcases hrow q b hb with ⟨rfl, rfl⟩ | ⟨rfl, h1⟩ | ⟨rfl, rfl⟩
      · rcases hrow 0 y hy with ⟨_, rfl⟩ | ⟨h, _⟩ | ⟨h, _⟩
        · rfl
        · omega
        · omega
      · rcases hrow 1 y hy with ⟨h, _⟩ | ⟨_, h2⟩ | ⟨h, _⟩
        · omega
        · rcases h1 with rfl | rfl <;> rcases h2 with rfl | rfl <;> simp [E]
        · omega
      · rcases hrow 2 y hy with ⟨h, _⟩ | ⟨h, _⟩ | ⟨_, rfl⟩
        · omega
        · omega
        · rfl
    · intro q b hb bp hbp y hy yp hyp _ _
      rw [ha q b bp hb hbp, ha q y yp hy hyp]
  obtain ⟨fct, m, gf, g, hA⟩ := pauli_two hv r0 r1 r2 r3 hn rfl E L symq
  obtain ⟨fct', m', gf', g', hA'⟩ := pauli_two hv r0 r1 r2 r3 hn rfl E { L with Tba := T' } symq
  obtain ⟨f1, k1, gf1, gk1, p, _, hp1, hp2⟩ := c22_stationary hv symq E L hT (by show 0 < d.npauli; omega)
  obtain ⟨f2, k2, gf2, gk2, p', _, hp1', hp2'⟩ := c22_stationary hv symq E { L with Tba := T' } hT' (by show 0 < d.npauli; omega)
  rw [gf] at gf1; obtain rfl := Except.ok.inj gf1
  rw [g] at gk1; obtain rfl := Except.ok.inj gk1
  rw [gf'] at gf2; obtain rfl := Except.ok.inj gf2
  rw [g'] at gk2; obtain rfl := Except.ok.inj gk2
  refine ⟨d.view 2, d.labOf, E, uHad, fun _ => 1, L, T', hv, hB, hT, hT', hN, by show 0 < 2; omega, fct, m, fct', m', gf, g, gf', g',
    ⟨⟨_, p⟩, rfl, hp1, hp2⟩, ⟨⟨_, p'⟩, rfl, hp1', hp2'⟩, ?_, ?_⟩
  · intro φ hs _ hz
    obtain ⟨evs, p0, p1, p2, p3, ge, _, hI, e1, e2, e3⟩ := hA φ hs hz
    refine ⟨evs, ge, ?_⟩
    rw [hI]
    simp [Pauli.amp, L, tEx] at e1 e2 e3 ⊢
    linarith
  · intro φ hs hn1 hz
    obtain ⟨evs, p0, p1, p2, p3, ge, hsum, hI, e1, e2, e3⟩ := hA' φ hs hz
    refine ⟨evs, ge, ?_⟩
    have hre : ∀ z : ℂ, (conj z * z).re = Complex.normSq z := by
      intro z; rw [mul_comm, Complex.mul_conj, Complex.ofReal_re]
    have s2' := hr_sq
    have n1 : ∀ l < 2, (T' l 0 1 * T' l 1 0).re = 1 / 2 := by
      intro l hl
      have u := hN.up l 0 1 (by rw [r1]; simp) 0 (by rw [r0]; simp)
      rw [r0, r1] at u
      rw [hT' l 0 1, hre, u]
      interval_cases l <;> simp [uHad, tEx, Complex.normSq_apply] <;> linarith
    have n2 : ∀ l < 2, (T' l 0 2 * T' l 2 0).re = 1 / 2 := by
      intro l hl
      have u := hN.up l 0 2 (by rw [r1]; simp) 0 (by rw [r0]; simp)
      rw [r0, r1] at u
      rw [hT' l 0 2, hre, u]
      interval_cases l <;> simp [uHad, tEx, Complex.normSq_apply] <;> linarith
    have n3 : ∀ l < 2, (T' l 1 3 * T' l 3 1).re = 1 / 2 := by
      intro l hl
      have u := hN.up l 1 3 (by rw [r2]; simp) 1 (by rw [r1]; simp)
      rw [r1, r2] at u
      rw [hT' l 1 3, hre, u]
      interval_cases l <;> simp [uHad, tEx, Complex.normSq_apply] <;> linarith
    have n4 : ∀ l < 2, (T' l 2 3 * T' l 3 2).re = 1 / 2 := by
      intro l hl
      have u := hN.up l 1 3 (by rw [r2]; simp) 2 (by rw [r1]; simp)
      rw [r1, r2] at u
      rw [hT' l 2 3, hre, u]
      interval_cases l <;> simp [uHad, tEx, Complex.normSq_apply] <;> linarith
    have f0 : fermiFunc 0 = 1 / 2 := by unfold fermiFunc; norm_num
    have f1 : fermiFunc 1 ≠ 1 / 2 := by
      unfold fermiFunc
      rw [if_neg (by norm_num)]
      intro he
      have hx : (1 : ℝ) < Real.exp 1 := by simp
      rw [div_eq_div_iff (by positivity) (by norm_num)] at he
      linarith
    rw [hI]
    simp only [Pauli.amp, L, n1 0 (by omega), n1 1 (by omega), n2 0 (by omega), n2 1 (by omega), n3 0 (by omega),
      n3 1 (by omega), n4 0 (by omega), n4 1 (by omega), funcPauli, E] at e1 e2 e3 ⊢
    norm_num [f0] at e1 e2 e3 ⊢
    rw [hn1] at hsum
    have hpi := Real.pi_ne_zero
    intro hc
    have h03 : p0 = p3 := by
      have : Real.pi * (p0 - p3) = 0 := by linear_combination hc
      rcases mul_eq_zero.1 this with h | h
      · exact absurd h hpi
      · linarith
    subst h03
    have hs2 : p2 = 1 - 2 * p0 - p1 := by linarith
    subst hs2
    have : Real.pi * (2 * fermiFunc 1 - 1) = 0 := by linear_combination e1 + e2 + 2 * e3
    rcases mul_eq_zero.1 this with h | h
    · exact hpi h
    · exact f1 (by linarith)

end

end Verif
