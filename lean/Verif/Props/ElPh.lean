import Verif.Props.ElPhSI
import Verif.Props.Coherent
import Verif.Lemmas.ElPhFct

/-!
Electron-phonon kernels: conservation of trace and particle number (C45), the rates of the Pauli
kernel (C56), agreement of the four approaches on populations (C57).
-/

namespace Verif

noncomputable section

open Finset
open Complex (I)
open scoped ComplexConjugate

variable {v e : View} {la : Lab} {el : Nat → Nat → Nat → Option Nat}

/-! ### C45 -/

/-- Two kernels whose population rows agree in total for every charge. -/
theorem charge_sums {m0 m : Mat} (hc0 : m0.cols = v.ndm0r) (hc : m.cols = v.ndm0r)
    (hz : ∀ φ q, ∑ b ∈ v.R q, m.app φ (la.lab q b b) = ∑ b ∈ v.R q, m0.app φ (la.lab q b b))
    {q j : Nat} (hj : j < v.ndm0r) :
    ∑ b ∈ v.R q, m.val (la.lab q b b) j = ∑ b ∈ v.R q, m0.val (la.lab q b b) j := by
  rw [sum_congr rfl fun b _ => m.val_eq_app (r := la.lab q b b) (by rw [hc]; exact hj),
    sum_congr rfl fun b _ => m0.val_eq_app (r := la.lab q b b) (by rw [hc0]; exact hj)]
  exact hz _ q

/-- The common argument for the approaches with coherences. -/
theorem coh_charge_sums (h : VOk v la) {m0 m : Mat} {E : Nat → ℝ}
    {S0 S1 : (Nat → ℝ) → Nat → Nat → Nat → ℂ}
    (rows0 : ∀ φ c b bp, (b, bp) ∈ combsR2 (v.row c) → la.inc c b bp = true →
        m0.app φ (la.lab c b bp)
          = (((E b - E bp : ℝ) : ℂ) * dens v la φ c b bp + S0 φ c b bp).im ∧
        (b ≠ bp → m0.app φ (v.imag (la.lab c b bp))
          = -(((E b - E bp : ℝ) : ℂ) * dens v la φ c b bp + S0 φ c b bp).re))
    (rows : ∀ φ c b bp, (b, bp) ∈ combsR2 (v.row c) → la.inc c b bp = true →
        m.app φ (la.lab c b bp)
          = (((E b - E bp : ℝ) : ℂ) * dens v la φ c b bp + (S0 φ c b bp + S1 φ c b bp)).im ∧
        (b ≠ bp → m.app φ (v.imag (la.lab c b bp))
          = -(((E b - E bp : ℝ) : ℂ) * dens v la φ c b bp + (S0 φ c b bp + S1 φ c b bp)).re))
    (tr : ∀ φ c, ∑ b ∈ v.R c, S1 φ c b b = 0) (φ : Nat → ℝ) (q : Nat) :
    ∑ b ∈ v.R q, m.app φ (la.lab q b b) = ∑ b ∈ v.R q, m0.app φ (la.lab q b b) := by
  rw [sum_congr rfl fun b hb => pop_rows h (S := fun φ c b bp => S0 φ c b bp + S1 φ c b bp)
    rows φ hb, sum_congr rfl fun b hb => pop_rows h rows0 φ hb]
  simp only [Complex.add_im, sum_add_distrib]
  rw [← Complex.im_sum (v.R q) (fun b => S1 φ q b b), tr]
  simp

/-- **C45** for the Pauli approach: adding phonons leaves the sum of the population rows of each
charge unchanged, in every column. -/
theorem c45_pauli (h : VOk v la) (hp : PhOk v e la el) (symq : Bool) (nb : Nat)
    (fe : Nat → Nat → ℝ × ℝ) (fp : Nat → Nat → ℝ) :
    ∃ m0 m, Pauli.kernel v symq fe = .ok m0 ∧ PauliPh.kernel v e nb symq fe fp = .ok m ∧
      ∀ q j, j < v.npauli →
        ∑ b ∈ v.R q, m.val (la.lab q b b) j = ∑ b ∈ v.R q, m0.val (la.lab q b b) j := by
  obtain ⟨m0, m, g0, g, hc0, hc, rows⟩ := PauliPh.kernel_rows h hp nb fe fp symq
  refine ⟨m0, m, g0, g, ?_⟩
  intro q j hj
  rw [sum_congr rfl fun b _ => m.val_eq_app (r := la.lab q b b) (by rw [hc]; exact hj),
    sum_congr rfl fun b _ => m0.val_eq_app (r := la.lab q b b) (by rw [hc0]; exact hj),
    sum_congr rfl fun b hb => rows _ q b ((mem_R h).1 hb), sum_add_distrib]
  simp only [sum_sub_distrib]
  rw [sum_comm]
  simp

/-- **C45** for Lindblad. -/
theorem c45_lindblad (h : VOk v la) (symq : Bool) (nb : Nat) (E : Nat → ℝ)
    (te : Nat → Nat → Nat → ℂ) (t : Nat → Nat → Nat → ℂ × ℂ) :
    ∃ m0 m, Lindblad.kernel v symq E te = .ok m0 ∧ LindbladPh.kernel v nb symq E te t = .ok m ∧
      ∀ q j, j < v.ndm0r →
        ∑ b ∈ v.R q, m.val (la.lab q b b) j = ∑ b ∈ v.R q, m0.val (la.lab q b b) j := by
  obtain ⟨m0, g0, hc0, _, rows0⟩ := assemble_rows h symq E (Lindblad.coup v te) _
    (fun c b bp hb hbp hi => Lindblad.coup_ok h te hb hbp hi)
  obtain ⟨m, g, hc, _, rows⟩ := assemble_rows h symq E (LindbladPh.coup v nb te t) _
    (fun c b bp hb hbp hi => LindbladPh.coup_ok h nb te t hb hbp hi)
  exact ⟨m0, m, g0, g, fun q j hj => charge_sums hc0 hc (fun φ q => coh_charge_sums h rows0 rows
    (fun φ c => LindbladPh.trace v nb t (dens v la φ) c) φ q) hj⟩

/-- **C45** for 1vN. -/
theorem c45_1vN (h : VOk v la) (hp : PhOk v e la el) (symq : Bool) (nb : Nat) (E : Nat → ℝ)
    (T : Nat → Nat → Nat → ℂ) (f : Nat → Nat → Amp) (V : Nat → Nat → Nat → ℂ)
    (w : Nat → Nat → ℂ × ℂ) :
    ∃ m0 m, VN1.kernel v symq E T f = .ok m0 ∧ VN1Ph.kernel v e nb symq E T f V w = .ok m ∧
      ∀ q j, j < v.ndm0r →
        ∑ b ∈ v.R q, m.val (la.lab q b b) j = ∑ b ∈ v.R q, m0.val (la.lab q b b) j := by
  obtain ⟨m0, g0, hc0, _, rows0⟩ := assemble_rows h symq E (VN1.coup v T f) _
    (fun c b bp hb hbp hi => VN1.coup_ok h T f hb hbp hi)
  obtain ⟨m, g, hc, _, rows⟩ := assemble_rows h symq E (VN1Ph.coup v e nb T f V w) _
    (fun c b bp hb hbp hi => VN1Ph.coup_ok h hp nb T f V w hb hbp hi)
  exact ⟨m0, m, g0, g, fun q j hj => charge_sums hc0 hc (fun φ q => coh_charge_sums h rows0 rows
    (fun φ c => CohPh.trace v nb V (phW el w) _ (dens v la φ) c) φ q) hj⟩

/-- **C45** for Redfield. -/
theorem c45_redfield (h : VOk v la) (hp : PhOk v e la el) (symq : Bool) (nb : Nat) (E : Nat → ℝ)
    (T : Nat → Nat → Nat → ℂ) (f : Nat → Nat → Amp) (V : Nat → Nat → Nat → ℂ)
    (w : Nat → Nat → ℂ × ℂ) :
    ∃ m0 m, Redfield.kernel v symq E T f = .ok m0 ∧
      RedfieldPh.kernel v e nb symq E T f V w = .ok m ∧
      ∀ q j, j < v.ndm0r →
        ∑ b ∈ v.R q, m.val (la.lab q b b) j = ∑ b ∈ v.R q, m0.val (la.lab q b b) j := by
  obtain ⟨m0, g0, hc0, _, rows0⟩ := assemble_rows h symq E (Redfield.coup v T f) _
    (fun c b bp hb hbp hi => Redfield.coup_ok h T f hb hbp hi)
  obtain ⟨m, g, hc, _, rows⟩ := assemble_rows h symq E (RedfieldPh.coup v e nb T f V w) _
    (fun c b bp hb hbp hi => RedfieldPh.coup_ok h hp nb T f V w hb hbp hi)
  exact ⟨m0, m, g0, g, fun q j hj => charge_sums hc0 hc (fun φ q => coh_charge_sums h rows0 rows
    (fun φ c => CohPh.trace v nb V (phW el w) _ (dens v la φ) c) φ q) hj⟩

/-- Rows of equal charge sums give equal sums weighted by a function of the charge. -/
theorem weighted_of_charge_sums {m0 m : Mat} {N : Nat} {x : Nat → ℝ}
    (hz : ∀ q j, j < N →
      ∑ b ∈ v.R q, m.val (la.lab q b b) j = ∑ b ∈ v.R q, m0.val (la.lab q b b) j)
    (w : Nat → ℝ) :
    ∑ q ∈ range v.ncharge, ∑ b ∈ v.R q, w q * ∑ j ∈ range N, m.val (la.lab q b b) j * x j
      = ∑ q ∈ range v.ncharge, ∑ b ∈ v.R q, w q * ∑ j ∈ range N, m0.val (la.lab q b b) j * x j := by
  refine sum_congr rfl fun q _ => ?_
  rw [← mul_sum (v.R q), ← mul_sum (v.R q), sum_comm (s := v.R q), sum_comm (s := v.R q)]
  congr 1
  refine sum_congr rfl fun j hj => ?_
  rw [← sum_mul (v.R q), ← sum_mul (v.R q), hz q j (mem_range.1 hj)]

/-- **C45**, consequence for 1vN: in a state that the kernel with phonons leaves unchanged the
particle currents into the leads still cancel. -/
theorem c45_current_1vN (h : VOk v la) (hp : PhOk v e la el) (symq : Bool) (nb : Nat)
    (E : Nat → ℝ) (T : Nat → Nat → Nat → ℂ) (hT : ∀ l b c, T l b c = conj (T l c b))
    (f : Nat → Nat → Amp) (V : Nat → Nat → Nat → ℂ) (w : Nat → Nat → ℂ × ℂ) (φ : Vec)
    (hs : φ.size = v.ndm0r) :
    ∃ m evs, VN1Ph.kernel v e nb symq E T f V w = .ok m ∧ VN1.genCurrent v T f φ = .ok evs ∧
      ((∀ i, i < v.npauli → ∑ j ∈ range v.ndm0r, m.val i j * φ.val j = 0) →
        ∑ l ∈ range v.nleads, current (evs.map (·.ev)) l = 0) := by
  obtain ⟨m0, m, g0, g, hz⟩ := c45_1vN h hp symq nb E T f V w
  obtain ⟨m0', evs, g0', ge, hcur, _⟩ := c25_current_1vN h symq E T hT f φ hs
  rw [g0] at g0'
  cases g0'
  refine ⟨m, evs, g, ge, fun hm => ?_⟩
  rw [hcur, ← weighted_of_charge_sums hz (fun q => (q : ℝ))]
  apply sum_eq_zero; intro q _
  apply sum_eq_zero; intro b hb
  rw [hm _ (h.lab_diag q b ((mem_R h).1 hb)), mul_zero]

/-- **C45**, consequence for Redfield. -/
theorem c45_current_redfield (h : VOk v la) (hp : PhOk v e la el) (symq : Bool) (nb : Nat)
    (E : Nat → ℝ) (T : Nat → Nat → Nat → ℂ) (hT : ∀ l b c, T l b c = conj (T l c b))
    (f : Nat → Nat → Amp) (V : Nat → Nat → Nat → ℂ) (w : Nat → Nat → ℂ × ℂ) (φ : Vec)
    (hs : φ.size = v.ndm0r) :
    ∃ m evs, RedfieldPh.kernel v e nb symq E T f V w = .ok m ∧
      Redfield.genCurrent v T f φ = .ok evs ∧
      ((∀ i, i < v.npauli → ∑ j ∈ range v.ndm0r, m.val i j * φ.val j = 0) →
        ∑ l ∈ range v.nleads, current (evs.map (·.ev)) l = 0) := by
  obtain ⟨m0, m, g0, g, hz⟩ := c45_redfield h hp symq nb E T f V w
  obtain ⟨m0', evs, g0', ge, hcur, _⟩ := c25_current_redfield h symq E T hT f φ hs
  rw [g0] at g0'
  cases g0'
  refine ⟨m, evs, g, ge, fun hm => ?_⟩
  rw [hcur, ← weighted_of_charge_sums hz (fun q => (q : ℝ))]
  apply sum_eq_zero; intro q _
  apply sum_eq_zero; intro b hb
  rw [hm _ (h.lab_diag q b ((mem_R h).1 hb)), mul_zero]

/-- **C45**, consequence for Lindblad. -/
theorem c45_current_lindblad (h : VOk v la) (symq : Bool) (nb : Nat) (E : Nat → ℝ)
    (te : Nat → Nat → Nat → ℂ) (t : Nat → Nat → Nat → ℂ × ℂ) (φ : Vec) (hs : φ.size = v.ndm0r) :
    ∃ m evs, LindbladPh.kernel v nb symq E te t = .ok m ∧ Lindblad.genCurrent v E te φ = .ok evs ∧
      ((∀ i, i < v.npauli → ∑ j ∈ range v.ndm0r, m.val i j * φ.val j = 0) →
        ∑ l ∈ range v.nleads, current evs l = 0) := by
  obtain ⟨m0, m, g0, g, hz⟩ := c45_lindblad h symq nb E te t
  obtain ⟨m0', evs, g0', ge, hcur, _⟩ := c25_c26_lindblad h symq E te φ hs
  rw [g0] at g0'
  cases g0'
  refine ⟨m, evs, g, ge, fun hm => ?_⟩
  rw [hcur, ← weighted_of_charge_sums hz (fun q => (q : ℝ))]
  apply sum_eq_zero; intro q _
  apply sum_eq_zero; intro b hb
  rw [hm _ (h.lab_diag q b ((mem_R h).1 hb)), mul_zero]

/-- **C45**, consequence for the Pauli approach. -/
theorem c45_current_pauli (h : VOk v la) (hp : PhOk v e la el) (symq : Bool) (nb : Nat)
    (E : Nat → ℝ) (fe : Nat → Nat → ℝ × ℝ) (fp : Nat → Nat → ℝ) (φ : Vec)
    (hs : φ.size = v.npauli) :
    ∃ m evs, PauliPh.kernel v e nb symq fe fp = .ok m ∧ Pauli.genCurrent v E fe φ = .ok evs ∧
      ((∀ i, i < v.npauli → ∑ j ∈ range v.npauli, m.val i j * φ.val j = 0) →
        ∑ l ∈ range v.nleads, current evs l = 0) := by
  obtain ⟨m0, m, g0, g, hz⟩ := c45_pauli h hp symq nb fe fp
  obtain ⟨m0', evs, g0', ge, hcur, _⟩ := c19_particle_current h symq E fe φ hs
  rw [g0] at g0'
  cases g0'
  refine ⟨m, evs, g, ge, fun hm => ?_⟩
  rw [hcur, ← weighted_of_charge_sums hz (fun q => (q : ℝ))]
  apply sum_eq_zero; intro q _
  apply sum_eq_zero; intro b hb
  rw [hm _ (h.lab_diag q b ((mem_R h).1 hb)), mul_zero]

/-! ### C56: the rates -/

theorem bose_nonneg {x : ℝ} (hx : 0 < x) : 0 ≤ bose x := by
  unfold bose
  have : 1 < Real.exp x := Real.one_lt_exp_iff.2 hx
  exact div_nonneg zero_le_one (by linarith)

theorem bose_balance {x : ℝ} (hx : 0 < x) : bose x = Real.exp (-x) * (1 + bose x) := by
  unfold bose
  have h1 : 1 < Real.exp x := Real.one_lt_exp_iff.2 hx
  have h2 : Real.exp x - 1 ≠ 0 := by linarith
  have h3 : Real.exp x ≠ 0 := (Real.exp_pos x).ne'
  rw [Real.exp_neg]
  field_simp
  ring

/-- Lower end of the band of the bath `l`, in units of the temperature. -/
def PhBaths.lo (B : PhBaths) (l : Nat) : ℝ := max (B.omm l / B.T l) (0.9 * B.eps)

theorem PhBaths.lo_nonneg (B : PhBaths) (l : Nat) (heps : 0 ≤ B.eps) : 0 ≤ B.lo l :=
  le_max_of_le_right (by positivity)

/-- **C56**: the values of `func_pauli` are not negative. -/
theorem c56_rate_nonneg (B : PhBaths) (E : ℝ) (l : Nat) (heps : 0 ≤ B.eps)
    (hdos : ∀ x, 0 ≤ B.dos l x) : 0 ≤ B.rate E l := by
  have hlo := B.lo_nonneg l heps
  unfold PhBaths.lo at hlo
  unfold PhBaths.rate
  simp only
  split
  · rename_i hh
    have := bose_nonneg (x := B.alpha E l) (by linarith [hh.1])
    have := hdos (B.T l * B.alpha E l)
    have := Real.pi_pos
    positivity
  · split
    · rename_i hh
      have := bose_nonneg (x := -B.alpha E l) (by linarith [hh.1])
      have := hdos (-B.T l * B.alpha E l)
      have := Real.pi_pos
      positivity
    · exact le_refl _

theorem PhBaths.alpha_neg (B : PhBaths) {E : ℝ} (hE : E ≠ 0) (l : Nat) :
    B.alpha (-E) l = -B.alpha E l := by
  unfold PhBaths.alpha
  rw [neg_div, abs_neg]
  rcases lt_or_gt_of_ne hE with h | h
  · rw [if_pos (by linarith), if_neg (by linarith)]; ring
  · rw [if_neg (by linarith), if_pos (by linarith)]; ring

/-- **C56**, detailed balance: emission and absorption of a phonon of the energy `|E|` differ by
the Boltzmann factor, unless `|E| / T` is below the cut-off `eps`. -/
theorem c56_detailed_balance (B : PhBaths) (E : ℝ) (l : Nat) (hT : 0 < B.T l) (heps : 0 ≤ B.eps)
    (hE : E = 0 ∨ B.eps ≤ |E| / B.T l) :
    B.rate E l = Real.exp (-(E / B.T l)) * B.rate (-E) l := by
  by_cases h0 : E = 0
  · subst h0; simp
  have hE' : B.eps ≤ |E / B.T l| := by
    rw [abs_div, abs_of_pos hT]
    exact hE.resolve_left h0
  have ha : B.alpha E l = E / B.T l := by
    unfold PhBaths.alpha
    rw [max_eq_left hE']
    rcases lt_or_gt_of_ne h0 with h | h
    · rw [if_neg (by linarith), abs_of_neg (div_neg_of_neg_of_pos h hT)]; ring
    · rw [if_pos (by linarith), abs_of_pos (div_pos h hT)]; ring
  have hlo := B.lo_nonneg l heps
  unfold PhBaths.lo at hlo
  unfold PhBaths.rate
  simp only
  rw [B.alpha_neg h0, ha]
  generalize E / B.T l = x at *
  set lo := max (B.omm l / B.T l) (0.9 * B.eps)
  set hi := B.omp l / B.T l
  by_cases c1 : lo < x ∧ x < hi
  · rw [if_pos c1, if_neg (by rintro ⟨h, _⟩; linarith [c1.1]), if_pos (by simpa using c1),
      bose_balance (by linarith [c1.1])]
    simp only [neg_neg, mul_neg, neg_mul]
    ring
  · rw [if_neg c1]
    by_cases c2 : lo < -x ∧ -x < hi
    · have hb := bose_balance (x := -x) (by linarith [c2.1])
      rw [if_pos c2, if_pos c2]
      rw [neg_neg] at hb
      have : 1 + bose (-x) = Real.exp (-x) * bose (-x) := by
        nth_rewrite 2 [hb]
        rw [← mul_assoc, ← Real.exp_add]; simp
      rw [this]
      simp only [neg_mul, mul_neg]
      ring
    · rw [if_neg c2, if_neg c2, if_neg (by simpa using c1)]
      ring

/-- The coupling strength in the rates, symmetric in the states. -/
def PhBaths.x (B : PhBaths) (l b a : Nat) : ℝ :=
  0.5 * (Complex.normSq (B.V l b a) + Complex.normSq (B.V l a b))

theorem PauliPh.amp_eq (E : Nat → ℝ) (B : PhBaths) (l b a : Nat) :
    PauliPh.amp E B l b a = B.x l b a * B.rate (E b - E a) l := by
  unfold PauliPh.amp PhBaths.x
  congr 1
  rw [Complex.mul_conj, ← Complex.normSq_eq_conj_mul_self, ← Complex.ofReal_add]
  rw [show (0.5 : ℂ) = ((0.5 : ℝ) : ℂ) by push_cast; norm_num, ← Complex.ofReal_mul, Complex.ofReal_re]

theorem PhBaths.x_symm (B : PhBaths) (l b a : Nat) : B.x l b a = B.x l a b := by
  unfold PhBaths.x; ring

theorem PhBaths.x_nonneg (B : PhBaths) (l b a : Nat) : 0 ≤ B.x l b a := by
  unfold PhBaths.x
  have := Complex.normSq_nonneg (B.V l b a)
  have := Complex.normSq_nonneg (B.V l a b)
  positivity

/-- The rate of `a → b` due to phonons, summed over the baths; zero for pairs that are left
out. -/
def PhBaths.total (B : PhBaths) (el : Nat → Nat → Nat → Option Nat) (nb : Nat) (E : Nat → ℝ)
    (c b a : Nat) : ℝ :=
  if (el c b a).isSome then ∑ l ∈ range nb, B.x l b a * B.rate (E b - E a) l else 0

/-- The rows of the Pauli kernel with the arrays made by `generate_fct`. -/
theorem PauliPh.rows_total (h : VOk v la) (hp : PhOk v e la el) (symq : Bool) (nb : Nat)
    (E : Nat → ℝ) (B : PhBaths) (fe : Nat → Nat → ℝ × ℝ) :
    ∃ fp m0 m, PauliPh.genFct e nb E B = .ok fp ∧ Pauli.kernel v symq fe = .ok m0 ∧
      PauliPh.kernel v e nb symq fe fp = .ok m ∧ m0.cols = v.npauli ∧ m.cols = v.npauli ∧
      ∀ φ c b, b ∈ v.row c → m.app φ (la.lab c b b) = m0.app φ (la.lab c b b) +
        ∑ a ∈ v.R c, (B.total el nb E c b a * φ (la.lab c a a)
          - B.total el nb E c a b * φ (la.lab c b b)) := by
  obtain ⟨fp, gf, hf⟩ := PauliPh.genFct_ok h hp nb E B
  obtain ⟨m0, m, g0, g, hc0, hc, rows⟩ := PauliPh.kernel_rows h hp nb fe fp symq
  refine ⟨fp, m0, m, gf, g0, g, hc0, hc, ?_⟩
  intro φ c b hb
  rw [rows φ c b hb]
  congr 1
  have hΓ : ∀ x y, x ∈ v.row c → y ∈ v.row c → x ≠ y →
      PauliPh.Γ el nb fp c x y = B.total el nb E c x y := by
    intro x y hx hy hne
    unfold PauliPh.Γ PhBaths.total phW
    cases hk : el c x y with
    | none => simp
    | some k =>
      simp only [Option.isSome_some, if_true]
      refine sum_congr rfl fun l hl => ?_
      rw [hf c x y l hx hy hne (mem_range.1 hl) k hk, PauliPh.amp_eq]
  refine sum_congr rfl fun a ha => ?_
  have ha' := (mem_R h).1 ha
  by_cases hne : b = a
  · subst hne; ring
  · rw [hΓ b a hb ha' hne, hΓ a b ha' hb (Ne.symm hne)]

/-- Two rows that differ by a gain and loss term, entry by entry. -/
theorem entries_of_rows (h : VOk v la) {m0 m : Mat} {N : Nat} (hN : v.npauli ≤ N)
    (hc0 : m0.cols = N) (hc : m.cols = N)
    {G : Nat → Nat → Nat → ℝ}
    (rows : ∀ j, j < v.npauli → ∀ c b, b ∈ v.row c →
      m.app (fun k => if k = j then 1 else 0) (la.lab c b b)
        = m0.app (fun k => if k = j then 1 else 0) (la.lab c b b) +
        ∑ a ∈ v.R c, (G c b a * (if la.lab c a a = j then 1 else 0)
          - G c a b * (if la.lab c b b = j then 1 else 0))) :
    (∀ c b a, b ∈ v.row c → a ∈ v.row c → b ≠ a →
      m.val (la.lab c b b) (la.lab c a a) = m0.val (la.lab c b b) (la.lab c a a) + G c b a) ∧
    (∀ c b c' a, b ∈ v.row c → a ∈ v.row c' → c ≠ c' →
      m.val (la.lab c b b) (la.lab c' a a) = m0.val (la.lab c b b) (la.lab c' a a)) ∧
    (∀ c b, b ∈ v.row c → m.val (la.lab c b b) (la.lab c b b)
      = m0.val (la.lab c b b) (la.lab c b b) - ∑ a ∈ (v.R c).erase b, G c a b) := by
  have inj : ∀ {c b c' a}, b ∈ v.row c → a ∈ v.row c' → la.lab c b b = la.lab c' a a →
      c = c' ∧ b = a := by
    intro c b c' a hb ha hl
    obtain ⟨h1, h2⟩ := h.lab_inj c b b c' a a hb hb (h.inc_diag c b hb) ha ha (h.inc_diag c' a ha) hl
    exact ⟨h1, by rcases h2 with h2 | h2 <;> exact h2.1⟩
  have hlt : ∀ {c a}, a ∈ v.row c → la.lab c a a < v.npauli := fun ha => h.lab_diag _ _ ha
  refine ⟨?_, ?_, ?_⟩
  · intro c b a hb ha hne
    rw [m.val_eq_app (by have := hlt ha; omega), m0.val_eq_app (by have := hlt ha; omega),
      rows _ (hlt ha) c b hb]
    congr 1
    rw [sum_eq_single a]
    · rw [if_pos rfl, if_neg (fun hh => hne (inj hb ha hh).2)]; ring
    · intro x hx hxa
      rw [if_neg (fun hh => hxa (inj ((mem_R h).1 hx) ha hh).2),
        if_neg (fun hh => hne (inj hb ha hh).2)]; ring
    · intro hh; exact absurd ((mem_R h).2 ha) hh
  · intro c b c' a hb ha hne
    rw [m.val_eq_app (by have := hlt ha; omega), m0.val_eq_app (by have := hlt ha; omega),
      rows _ (hlt ha) c b hb, sum_eq_zero, add_zero]
    intro x hx
    rw [if_neg (fun hh => hne (inj ((mem_R h).1 hx) ha hh).1),
        if_neg (fun hh => hne (inj hb ha hh).1)]; ring
  · intro c b hb
    rw [m.val_eq_app (by have := hlt hb; omega), m0.val_eq_app (by have := hlt hb; omega),
      rows _ (hlt hb) c b hb, sub_eq_add_neg]
    congr 1
    rw [← Finset.add_sum_erase _ _ ((mem_R h).2 hb), ← sum_neg_distrib, if_pos rfl]
    rw [sum_congr rfl fun a ha => ?_]
    · ring_nf
      rfl
    · rw [if_neg (fun hh => (Finset.mem_erase.1 ha).1
        (inj ((mem_R h).1 (Finset.mem_erase.1 ha).2) hb hh).2)]
      ring

/-- **C56**. With phonons the Pauli kernel differs from the one without by the matrix of a
classical rate equation: between two states of the same charge by the rate, which is not
negative, on the diagonal by minus the total rate out of the state, between states of different
charge not at all. -/
theorem c56_rate_matrix (h : VOk v la) (hp : PhOk v e la el) (symq : Bool) (nb : Nat)
    (E : Nat → ℝ) (B : PhBaths) (heps : 0 ≤ B.eps) (hdos : ∀ l x, 0 ≤ B.dos l x)
    (fe : Nat → Nat → ℝ × ℝ) :
    ∃ fp m0 m, PauliPh.genFct e nb E B = .ok fp ∧ Pauli.kernel v symq fe = .ok m0 ∧
      PauliPh.kernel v e nb symq fe fp = .ok m ∧
      (∀ c b a, b ∈ v.row c → a ∈ v.row c → b ≠ a →
        m.val (la.lab c b b) (la.lab c a a)
          = m0.val (la.lab c b b) (la.lab c a a) + B.total el nb E c b a ∧
        0 ≤ B.total el nb E c b a) ∧
      (∀ c b c' a, b ∈ v.row c → a ∈ v.row c' → c ≠ c' →
        m.val (la.lab c b b) (la.lab c' a a) = m0.val (la.lab c b b) (la.lab c' a a)) ∧
      (∀ c b, b ∈ v.row c → m.val (la.lab c b b) (la.lab c b b)
        = m0.val (la.lab c b b) (la.lab c b b) - ∑ a ∈ (v.R c).erase b, B.total el nb E c a b) := by
  obtain ⟨fp, m0, m, gf, g0, g, hc0, hc, rows⟩ := PauliPh.rows_total h hp symq nb E B fe
  obtain ⟨a1, a2, a3⟩ := entries_of_rows h le_rfl hc0 hc (fun j _ c b hb => rows _ c b hb)
  refine ⟨fp, m0, m, gf, g0, g, fun c b a hb ha hne => ⟨a1 c b a hb ha hne, ?_⟩, a2, a3⟩
  unfold PhBaths.total
  split
  · exact sum_nonneg fun l _ => mul_nonneg (B.x_nonneg l b a) (c56_rate_nonneg B _ l heps (hdos l))
  · exact le_rfl

/-- **C56**. If all baths have the same temperature, the phonons do not change a distribution
that within each charge is the Gibbs distribution at this temperature. -/
theorem c56_gibbs (h : VOk v la) (hp : PhOk v e la el) (symq : Bool) (nb : Nat)
    (E : Nat → ℝ) (B : PhBaths) (heps : 0 ≤ B.eps) (fe : Nat → Nat → ℝ × ℝ) (T : ℝ) (hT : 0 < T)
    (hTl : ∀ l, l < nb → B.T l = T)
    (hE : ∀ c b a, b ∈ v.row c → a ∈ v.row c → E b = E a ∨ B.eps ≤ |E b - E a| / T)
    (w : Nat → ℝ) (φ : Nat → ℝ)
    (hφ : ∀ c a, a ∈ v.row c → φ (la.lab c a a) = w c * Real.exp (-(E a / T))) :
    ∃ fp m0 m, PauliPh.genFct e nb E B = .ok fp ∧ Pauli.kernel v symq fe = .ok m0 ∧
      PauliPh.kernel v e nb symq fe fp = .ok m ∧
      ∀ i, i < v.npauli → ∑ j ∈ range v.npauli, m.val i j * φ j
        = ∑ j ∈ range v.npauli, m0.val i j * φ j := by
  obtain ⟨fp, m0, m, gf, g0, g, hc0, hc, rows⟩ := PauliPh.rows_total h hp symq nb E B fe
  refine ⟨fp, m0, m, gf, g0, g, ?_⟩
  intro i hi
  obtain ⟨c, b, bp, hb, hbp, hin, hl⟩ := h.lab_surj i (lt_of_lt_of_le hi h.np_le)
  have hbb : b = bp := by
    by_contra hne
    have := (h.lab_off c b bp hb hbp hne hin).1
    omega
  subst hbb
  subst hl
  have key := rows φ c b hb
  unfold Mat.app at key
  rw [hc, hc0] at key
  rw [key, sum_eq_zero (s := v.R c), add_zero]
  intro a ha
  have ha' := (mem_R h).1 ha
  rw [hφ c a ha', hφ c b hb]
  unfold PhBaths.total
  rw [hp.symm c a b ha' hb]
  split
  · rw [sum_mul, sum_mul, ← sum_sub_distrib]
    apply sum_eq_zero
    intro l hlr
    have hl := mem_range.1 hlr
    have hdb := c56_detailed_balance B (E b - E a) l (by rw [hTl l hl]; exact hT) heps (by
      rcases hE c b a hb ha' with h1 | h1
      · left; linarith
      · right; rw [hTl l hl]; exact h1)
    rw [hdb, hTl l hl, B.x_symm l a b, neg_sub]
    have : Real.exp (-((E b - E a) / T)) * Real.exp (-(E a / T)) = Real.exp (-(E b / T)) := by
      rw [← Real.exp_add]; congr 1; ring
    rw [show B.x l b a * (Real.exp (-((E b - E a) / T)) * B.rate (E a - E b) l)
        * (w c * Real.exp (-(E a / T)))
      = B.x l b a * B.rate (E a - E b) l * (w c * (Real.exp (-((E b - E a) / T))
        * Real.exp (-(E a / T)))) by ring, this]
    ring
  · ring

/-! ### C57: agreement of the approaches -/

/-- A sum over pairs with a diagonal matrix. -/
theorem sum_diag (R : Finset Nat) (F : Nat → Nat → ℂ) (ρ : Nat → Nat → ℂ) (d : Nat → ℂ)
    (hρ : ∀ a ∈ R, ∀ ap ∈ R, ρ a ap = if a = ap then d a else 0) :
    ∑ a ∈ R, ∑ ap ∈ R, F a ap * ρ a ap = ∑ a ∈ R, F a a * d a := by
  refine sum_congr rfl fun a ha => ?_
  rw [sum_eq_single a]
  · rw [hρ a ha a ha, if_pos rfl]
  · intro ap hap hne
    rw [hρ a ha ap hap, if_neg (Ne.symm hne), mul_zero]
  · intro hh; exact absurd ha hh

theorem sum_side (R : Finset Nat) (FL FR : Nat → ℂ) (ρ : Nat → Nat → ℂ) (d : Nat → ℂ)
    (hρ : ∀ a ∈ R, ∀ ap ∈ R, ρ a ap = if a = ap then d a else 0) {b : Nat} (hb : b ∈ R) :
    ∑ y ∈ R, (FL y * ρ y b + FR y * ρ b y) = FL b * d b + FR b * d b := by
  rw [sum_eq_single b]
  · rw [hρ b hb b hb, if_pos rfl]
  · intro y hy hne
    rw [hρ y hy b hb, hρ b hb y hy, if_neg hne, if_neg (Ne.symm hne)]; ring
  · intro hh; exact absurd hb hh

/-- The rate `a → b` in Lindblad. -/
def LindbladPh.G (nb : Nat) (t : Nat → Nat → Nat → ℂ × ℂ) (b a : Nat) : ℝ :=
  ∑ l ∈ range nb, (Complex.normSq (t l b a).1 + Complex.normSq (t l b a).2)

/-- The Lindblad equation of a population when there are no coherences. -/
theorem LindbladPh.S_pop (h : VOk v la) (nb : Nat) (t : Nat → Nat → Nat → ℂ × ℂ) {φ : Nat → ℝ}
    (hφ : ∀ i, v.npauli ≤ i → φ i = 0) {c b : Nat} (hb : b ∈ v.R c) :
    (LindbladPh.S v nb t (dens v la φ) c b b).im
      = ∑ a ∈ v.R c, (G nb t b a * φ (la.lab c a a) - G nb t a b * φ (la.lab c b b)) := by
  have hd : ∀ a ∈ v.R c, ∀ ap ∈ v.R c,
      dens v la φ c a ap = if a = ap then (φ (la.lab c a a) : ℂ) else 0 :=
    fun a ha ap hap => dens_pop h hφ ha hap
  unfold LindbladPh.S
  rw [sum_diag (v.R c) (fun a ap => J nb t b b a ap) _ _ hd,
    sum_side (v.R c) (fun y => K v nb t c b y) (fun y => K v nb t c y b) _ _ hd hb]
  · have hJ : ∀ a, J nb t b b a a = I * (G nb t b a : ℂ) := by
      intro a
      unfold J G
      simp only [Complex.mul_conj]
      push_cast
      rfl
    have hK : K v nb t c b b = I * ((-0.5 * ∑ a ∈ v.R c, G nb t a b : ℝ) : ℂ) := by
      unfold K G
      congr 1
      push_cast
      rw [mul_sum (v.R c)]
      refine sum_congr rfl fun a _ => ?_
      rw [mul_sum]
      refine sum_congr rfl fun l _ => ?_
      rw [mul_assoc, mul_assoc, ← Complex.normSq_eq_conj_mul_self,
        ← Complex.normSq_eq_conj_mul_self]
      ring
    rw [hK]
    simp only [hJ, Complex.add_im, Complex.im_sum, mul_assoc, Complex.I_mul_im,
      ← Complex.ofReal_mul, Complex.ofReal_re]
    rw [sum_sub_distrib, ← sum_mul]
    ring

/-- The rate `a → b` in 1vN and Redfield. -/
def CohPh.G (nb : Nat) (B : PhBaths) (W : Nat → Nat → Nat → Nat → ℂ × ℂ) (c b a : Nat) : ℝ :=
  ∑ l ∈ range nb, B.x l b a * (-2 * (W l c b a).1.im + 2 * (W l c a b).2.im)

theorem CohPh.gam_eq (B : PhBaths) (l b a : Nat) : CohPh.gam B.V l b a b a = (B.x l b a : ℂ) := by
  unfold CohPh.gam PhBaths.x
  rw [Complex.mul_conj, ← Complex.normSq_eq_conj_mul_self]
  push_cast
  norm_num

theorem CohPh.gam'_eq (B : PhBaths) (l b a : Nat) : CohPh.gam' B.V l a b b = (B.x l b a : ℂ) := by
  unfold CohPh.gam' PhBaths.x
  rw [Complex.mul_conj, ← Complex.normSq_eq_conj_mul_self]
  push_cast
  norm_num
  ring

/-- The equation of a population in 1vN and Redfield when there are no coherences. -/
theorem CohPh.S_pop (h : VOk v la) (nb : Nat) (B : PhBaths) (W : Nat → Nat → Nat → Nat → ℂ × ℂ)
    (σ : Nat → Nat → Nat) (hσ : ∀ x, σ x x = x) {φ : Nat → ℝ}
    (hφ : ∀ i, v.npauli ≤ i → φ i = 0) {c b : Nat} (hb : b ∈ v.R c) :
    (CohPh.S v nb B.V W σ (dens v la φ) c b b).im
      = ∑ a ∈ v.R c, (G nb B W c b a * φ (la.lab c a a) - G nb B W c a b * φ (la.lab c b b)) := by
  have hd : ∀ a ∈ v.R c, ∀ ap ∈ v.R c,
      dens v la φ c a ap = if a = ap then (φ (la.lab c a a) : ℂ) else 0 :=
    fun a ha ap hap => dens_pop h hφ ha hap
  have im1 : ∀ z : ℂ, (conj z - z) = ((-2 * z.im : ℝ) : ℂ) * I := by
    intro z; apply Complex.ext <;> simp; ring
  have im2 : ∀ z : ℂ, (z - conj z) = ((2 * z.im : ℝ) : ℂ) * I := by
    intro z; apply Complex.ext <;> simp; ring
  unfold CohPh.S
  rw [sum_diag (v.R c) (fun a ap => A nb B.V W σ c b b a ap) _ _ hd,
    sum_diag (v.R c) (fun a ap => C nb B.V W σ c b b a ap) _ _ hd,
    sum_side (v.R c) (fun y => L v nb B.V W c b y (σ b y)) (fun y => R v nb B.V W c b y (σ b y))
      _ _ hd hb]
  · rw [hσ]
    have hA : ∀ a, A nb B.V W σ c b b a a + C nb B.V W σ c b b a a = (G nb B W c b a : ℂ) * I := by
      intro a
      unfold A C G
      rw [← sum_add_distrib]
      push_cast
      rw [sum_mul]
      refine sum_congr rfl fun l _ => ?_
      rw [hσ, gam_eq, im1, im2]
      push_cast
      ring
    have hL : L v nb B.V W c b b b + R v nb B.V W c b b b
        = -((∑ a ∈ v.R c, G nb B W c a b : ℝ) : ℂ) * I := by
      unfold L R G
      rw [← sum_add_distrib, ← sum_add_distrib, ← sum_add_distrib]
      push_cast
      rw [neg_mul, sum_mul, ← sum_neg_distrib]
      refine sum_congr rfl fun a _ => ?_
      rw [← sum_add_distrib, ← sum_add_distrib, ← sum_add_distrib, sum_mul, ← sum_neg_distrib]
      refine sum_congr rfl fun l _ => ?_
      rw [gam_eq, gam'_eq, B.x_symm l a b]
      have e1 := im1 (W l c b a).2
      have e2 := im2 (W l c a b).1
      push_cast at e1 e2
      linear_combination (B.x l b a : ℂ) * e1 + (B.x l b a : ℂ) * e2
    have hsplit : ∑ a ∈ v.R c, A nb B.V W σ c b b a a * (φ (la.lab c a a) : ℂ) +
        (L v nb B.V W c b b b * (φ (la.lab c b b) : ℂ) + R v nb B.V W c b b b * (φ (la.lab c b b) : ℂ)) +
        ∑ a ∈ v.R c, C nb B.V W σ c b b a a * (φ (la.lab c a a) : ℂ)
        = ((∑ a ∈ v.R c, G nb B W c b a * φ (la.lab c a a)
            - (∑ a ∈ v.R c, G nb B W c a b) * φ (la.lab c b b) : ℝ) : ℂ) * I := by
      have : ∑ a ∈ v.R c, A nb B.V W σ c b b a a * (φ (la.lab c a a) : ℂ) +
          ∑ a ∈ v.R c, C nb B.V W σ c b b a a * (φ (la.lab c a a) : ℂ)
          = ((∑ a ∈ v.R c, G nb B W c b a * φ (la.lab c a a) : ℝ) : ℂ) * I := by
        rw [← sum_add_distrib]
        push_cast
        rw [sum_mul]
        refine sum_congr rfl fun a _ => ?_
        rw [← add_mul, hA]; ring
      rw [← add_mul, hL]
      push_cast at this ⊢
      linear_combination this
    rw [hsplit, Complex.mul_I_im, Complex.ofReal_re, sum_sub_distrib, ← sum_mul]

/-- The imaginary parts that `Func1vNElPh` gives. -/
theorem PhBaths.func1vN_im (B : PhBaths) (quad : (ℝ → ℝ) → ℝ → ℝ → ℝ → ℝ) {itype : Int}
    (hi : itype = 0 ∨ itype = 2) (E : ℝ) (l : Nat) :
    (B.func1vN quad itype E l).1.im = (if B.lo l < B.alpha E l ∧ B.alpha E l < B.omp l / B.T l then
      -(Real.pi * (B.dos l (B.T l * B.alpha E l) * bose (B.alpha E l))) else 0) ∧
    (B.func1vN quad itype E l).2.im = (if B.lo l < B.alpha E l ∧ B.alpha E l < B.omp l / B.T l then
      Real.pi * (B.dos l (B.T l * B.alpha E l) * (1 + bose (B.alpha E l))) else 0) := by
  have hne : ¬ ((2 : Int) = 0) := by decide
  unfold PhBaths.func1vN PhBaths.lo
  rcases hi with rfl | rfl
  · simp only [if_true]
    constructor <;> split <;> simp
  · simp only [if_true, hne, if_false]
    constructor <;> split <;> simp

theorem PhBaths.rate_eq (B : PhBaths) (E : ℝ) (l : Nat) : B.rate E l =
    if B.lo l < B.alpha E l ∧ B.alpha E l < B.omp l / B.T l then
      2 * Real.pi * bose (B.alpha E l) * B.dos l (B.T l * B.alpha E l)
    else if B.lo l < -B.alpha E l ∧ -B.alpha E l < B.omp l / B.T l then
      2 * Real.pi * (1 + bose (-B.alpha E l)) * B.dos l (-B.T l * B.alpha E l)
    else 0 := by
  unfold PhBaths.rate PhBaths.lo; rfl

/-- For states of different energy, twice the imaginary parts give the rate. -/
theorem PhBaths.rate_1vN (B : PhBaths) (quad : (ℝ → ℝ) → ℝ → ℝ → ℝ → ℝ) {itype : Int}
    (hi : itype = 0 ∨ itype = 2) {E : ℝ} (hE : E ≠ 0) (heps : 0 ≤ B.eps) (l : Nat) :
    -2 * (B.func1vN quad itype E l).1.im + 2 * (B.func1vN quad itype (-E) l).2.im
      = B.rate E l := by
  rw [(B.func1vN_im quad hi E l).1, (B.func1vN_im quad hi (-E) l).2, B.alpha_neg hE]
  have hlo := B.lo_nonneg l heps
  rw [B.rate_eq]
  generalize B.alpha E l = x
  by_cases c1 : B.lo l < x ∧ x < B.omp l / B.T l
  · rw [if_pos c1, if_pos c1, if_neg (by rintro ⟨h, _⟩; linarith [c1.1])]
    ring
  · rw [if_neg c1, if_neg c1]
    by_cases c2 : B.lo l < -x ∧ -x < B.omp l / B.T l
    · rw [if_pos c2, if_pos c2]
      simp only [mul_neg, neg_mul]
      ring
    · rw [if_neg c2, if_neg c2]; ring

/-- For states of equal energy. -/
theorem PhBaths.rate_1vN_zero (B : PhBaths) (quad : (ℝ → ℝ) → ℝ → ℝ → ℝ → ℝ) {itype : Int}
    (hi : itype = 0 ∨ itype = 2) (heps : 0 ≤ B.eps) (l : Nat) :
    -2 * (B.func1vN quad itype 0 l).1.im + 2 * (B.func1vN quad itype 0 l).2.im
      = B.rate 0 l + (if B.lo l < B.eps ∧ B.eps < B.omp l / B.T l then
        2 * Real.pi * (1 + bose B.eps) * B.dos l (B.T l * B.eps) else 0) := by
  rw [(B.func1vN_im quad hi 0 l).1, (B.func1vN_im quad hi 0 l).2]
  have hlo := B.lo_nonneg l heps
  have ha : B.alpha 0 l = B.eps := by
    unfold PhBaths.alpha; simp [heps]
  rw [B.rate_eq, ha]
  by_cases c1 : B.lo l < B.eps ∧ B.eps < B.omp l / B.T l
  · rw [if_pos c1, if_pos c1, if_pos c1, if_pos c1]
    ring
  · rw [if_neg c1, if_neg c1, if_neg c1, if_neg (by rintro ⟨h, _⟩; linarith), if_neg c1]
    ring

/-- The rate of `a → b` in 1vN and Redfield with the arrays made by `generate_fct`. -/
theorem CohPh.G_eq (hp : PhOk v e la el) (nb : Nat) (E : Nat → ℝ) (B : PhBaths)
    (quad : (ℝ → ℝ) → ℝ → ℝ → ℝ → ℝ) {itype : Int} {w : Nat → Nat → ℂ × ℂ}
    (hw : ∀ c b a l, b ∈ v.row c → a ∈ v.row c →
      l < nb → ∀ k, el c b a = some k → w l k = VN1Ph.value E B quad itype l b a)
    {c b a : Nat} (hb : b ∈ v.row c) (ha : a ∈ v.row c) (hne : b ≠ a) :
    CohPh.G nb B (phW el w) c b a = if (el c b a).isSome then ∑ l ∈ range nb, B.x l b a *
      (-2 * (B.func1vN quad itype (E b - E a) l).1.im
        + 2 * (B.func1vN quad itype (E a - E b) l).2.im) else 0 := by
  have hs := hp.symm c b a hb ha
  unfold CohPh.G phW
  cases hk : el c b a with
  | none =>
    rw [hk] at hs
    have hk2 : el c a b = none := by simpa using hs.symm
    simp [hk2]
  | some k =>
    rw [hk] at hs
    obtain ⟨k2, hk2⟩ := Option.isSome_iff_exists.1 hs.symm
    simp only [hk2, Option.isSome_some, if_true]
    refine sum_congr rfl fun l hl => ?_
    rw [hw c b a l hb ha (mem_range.1 hl) k hk, hw c a b l ha hb (mem_range.1 hl) k2 hk2]
    unfold VN1Ph.value
    rw [if_neg hne, if_neg (Ne.symm hne)]

/-- The jump rates of Lindblad. -/
theorem LindbladPh.G_eq (nb : Nat) (E : Nat → ℝ) (B : PhBaths) (heps : 0 ≤ B.eps)
    (hdos : ∀ l x, 0 ≤ B.dos l x) {b a : Nat} (hne : b ≠ a) :
    LindbladPh.G nb (LindbladPh.jumpAmp E B) b a
      = ∑ l ∈ range nb, B.x l b a * B.rate (E b - E a) l := by
  unfold LindbladPh.G LindbladPh.jumpAmp
  refine sum_congr rfl fun l _ => ?_
  rw [if_neg hne]
  simp only [Complex.normSq_mul, Complex.normSq_conj, Complex.normSq_ofReal]
  rw [Real.mul_self_sqrt (by have := c56_rate_nonneg B (E b - E a) l heps (hdos l); positivity)]
  unfold PhBaths.x
  ring

/-- **C57** (partial: states of the same charge with different energies; pairs that `si_elph`
leaves out must not be coupled by phonons). The phonons change the rates between populations in
the same way in the four approaches. -/
theorem c57_populations_partial (h : VOk v la) (hp : PhOk v e la el) (symq : Bool) (nb : Nat)
    (E : Nat → ℝ) (B : PhBaths) (heps : 0 ≤ B.eps) (hdos : ∀ l x, 0 ≤ B.dos l x)
    (quad : (ℝ → ℝ) → ℝ → ℝ → ℝ → ℝ) (itype : Int) (hi : itype = 0 ∨ itype = 2)
    (hE : ∀ c b a, b ∈ v.row c → a ∈ v.row c → b ≠ a → E b ≠ E a)
    (hV : ∀ c b a, b ∈ v.row c → a ∈ v.row c → el c b a = none → ∀ l, B.V l b a = 0)
    (fe : Nat → Nat → ℝ × ℝ) (te : Nat → Nat → Nat → ℂ) (T : Nat → Nat → Nat → ℂ)
    (f : Nat → Nat → Amp) :
    ∃ fp w p0 p l0 l n0 n r0 r, PauliPh.genFct e nb E B = .ok fp ∧
      VN1Ph.genFct e nb E B quad itype = .ok w ∧
      Pauli.kernel v symq fe = .ok p0 ∧ PauliPh.kernel v e nb symq fe fp = .ok p ∧
      Lindblad.kernel v symq E te = .ok l0 ∧
      LindbladPh.kernel v nb symq E te (LindbladPh.jumpAmp E B) = .ok l ∧
      VN1.kernel v symq E T f = .ok n0 ∧ VN1Ph.kernel v e nb symq E T f B.V w = .ok n ∧
      Redfield.kernel v symq E T f = .ok r0 ∧ RedfieldPh.kernel v e nb symq E T f B.V w = .ok r ∧
      ∀ i j, i < v.npauli → j < v.npauli →
        l.val i j - l0.val i j = p.val i j - p0.val i j ∧
        n.val i j - n0.val i j = p.val i j - p0.val i j ∧
        r.val i j - r0.val i j = p.val i j - p0.val i j := by
  obtain ⟨fp, p0, p, gf, gp0, gp, hp0, hpc, rowsP⟩ := PauliPh.rows_total h hp symq nb E B fe
  obtain ⟨w, gw, hw⟩ := VN1Ph.genFct_ok h hp nb E B quad itype
  obtain ⟨l0, gl0, hl0, _, rowsl0⟩ := assemble_rows h symq E (Lindblad.coup v te) _
    (fun c b bp hb hbp hi => Lindblad.coup_ok h te hb hbp hi)
  obtain ⟨l, gl, hlc, _, rowsl⟩ := assemble_rows h symq E
    (LindbladPh.coup v nb te (LindbladPh.jumpAmp E B)) _
    (fun c b bp hb hbp hi => LindbladPh.coup_ok h nb te (LindbladPh.jumpAmp E B) hb hbp hi)
  obtain ⟨n0, gn0, hn0, _, rowsn0⟩ := assemble_rows h symq E (VN1.coup v T f) _
    (fun c b bp hb hbp hi => VN1.coup_ok h T f hb hbp hi)
  obtain ⟨n, gn, hnc, _, rowsn⟩ := assemble_rows h symq E (VN1Ph.coup v e nb T f B.V w) _
    (fun c b bp hb hbp hi => VN1Ph.coup_ok h hp nb T f B.V w hb hbp hi)
  obtain ⟨r0, gr0, hr0, _, rowsr0⟩ := assemble_rows h symq E (Redfield.coup v T f) _
    (fun c b bp hb hbp hi => Redfield.coup_ok h T f hb hbp hi)
  obtain ⟨r, gr, hrc, _, rowsr⟩ := assemble_rows h symq E (RedfieldPh.coup v e nb T f B.V w) _
    (fun c b bp hb hbp hi => RedfieldPh.coup_ok h hp nb T f B.V w hb hbp hi)
  refine ⟨fp, w, p0, p, l0, l, n0, n, r0, r, gf, gw, gp0, gp, gl0, gl, gn0, gn, gr0, gr, ?_⟩
  have hle : v.npauli ≤ v.ndm0r := by have := h.np_le; have := h.ndm0r; omega
  -- a gain-loss sum only depends on the rates between different states
  have gl_congr : ∀ {G G' : Nat → Nat → ℝ} {φ : Nat → ℝ} {c b : Nat}, b ∈ v.R c →
      (∀ x ∈ v.R c, ∀ y ∈ v.R c, x ≠ y → G x y = G' x y) →
      ∑ a ∈ v.R c, (G b a * φ (la.lab c a a) - G a b * φ (la.lab c b b))
        = ∑ a ∈ v.R c, (G' b a * φ (la.lab c a a) - G' a b * φ (la.lab c b b)) := by
    intro G G' φ c b hb hG
    refine sum_congr rfl fun a ha => ?_
    by_cases hne : b = a
    · subst hne; ring
    · rw [hG b hb a ha hne, hG a ha b hb (Ne.symm hne)]
  have coh : ∀ {m0 m : Mat} {S0 S1 : (Nat → ℝ) → Nat → Nat → Nat → ℂ}
      (_ : m0.cols = v.ndm0r) (_ : m.cols = v.ndm0r)
      (_ : ∀ φ c b bp, (b, bp) ∈ combsR2 (v.row c) → la.inc c b bp = true →
        m0.app φ (la.lab c b bp)
          = (((E b - E bp : ℝ) : ℂ) * dens v la φ c b bp + S0 φ c b bp).im ∧
        (b ≠ bp → m0.app φ (v.imag (la.lab c b bp))
          = -(((E b - E bp : ℝ) : ℂ) * dens v la φ c b bp + S0 φ c b bp).re))
      (_ : ∀ φ c b bp, (b, bp) ∈ combsR2 (v.row c) → la.inc c b bp = true →
        m.app φ (la.lab c b bp)
          = (((E b - E bp : ℝ) : ℂ) * dens v la φ c b bp + (S0 φ c b bp + S1 φ c b bp)).im ∧
        (b ≠ bp → m.app φ (v.imag (la.lab c b bp))
          = -(((E b - E bp : ℝ) : ℂ) * dens v la φ c b bp + (S0 φ c b bp + S1 φ c b bp)).re))
      (_ : ∀ φ : Nat → ℝ, (∀ i, v.npauli ≤ i → φ i = 0) → ∀ c b, b ∈ v.R c →
        (S1 φ c b b).im = ∑ a ∈ v.R c, (B.total el nb E c b a * φ (la.lab c a a)
          - B.total el nb E c a b * φ (la.lab c b b))),
      ∀ i j, i < v.npauli → j < v.npauli → m.val i j - m0.val i j = p.val i j - p0.val i j := by
    intro m0 m S0 S1 hm0 hm rows0 rows hS i j hi hj
    obtain ⟨c, b, bp, hb, hbp, hin, hl⟩ := h.lab_surj i (lt_of_lt_of_le hi h.np_le)
    have hbb : b = bp := by
      by_contra hne
      have := (h.lab_off c b bp hb hbp hne hin).1
      omega
    subst hbb
    subst hl
    have hbR := (mem_R h).2 hb
    rw [m.val_eq_app (by omega), m0.val_eq_app (by omega), p.val_eq_app (by omega),
      p0.val_eq_app (by omega), rowsP _ c b hb, pop_rows h rows0 _ hbR,
      pop_rows h (S := fun φ c b bp => S0 φ c b bp + S1 φ c b bp) rows _ hbR, Complex.add_im,
      hS _ (fun k hk => if_neg (by omega)) c b hbR]
    ring
  have hxV : ∀ c x y, x ∈ v.R c → y ∈ v.R c → el c x y = none → ∀ l, B.x l x y = 0 := by
    intro c x y hx hy hn l
    have h1 := hV c x y ((mem_R h).1 hx) ((mem_R h).1 hy) hn l
    have h2 := hV c y x ((mem_R h).1 hy) ((mem_R h).1 hx) (by
      have := hp.symm c x y ((mem_R h).1 hx) ((mem_R h).1 hy)
      rw [hn] at this
      simpa using this.symm) l
    unfold PhBaths.x
    rw [h1, h2]; simp
  have hW : ∀ c, ∀ x ∈ v.R c, ∀ y ∈ v.R c, x ≠ y →
      CohPh.G nb B (phW el w) c x y = B.total el nb E c x y := by
    intro c x hx y hy hne
    rw [CohPh.G_eq hp nb E B quad hw ((mem_R h).1 hx) ((mem_R h).1 hy) hne]
    unfold PhBaths.total
    split
    · refine sum_congr rfl fun l _ => ?_
      have hE' : E x - E y ≠ 0 := sub_ne_zero.2 (hE c x y ((mem_R h).1 hx) ((mem_R h).1 hy) hne)
      rw [← B.rate_1vN quad hi hE' heps l, neg_sub]
    · rfl
  intro i j hi hj
  refine ⟨coh hl0 hlc rowsl0 rowsl ?_ i j hi hj, coh hn0 hnc rowsn0 rowsn ?_ i j hi hj,
    coh hr0 hrc rowsr0 rowsr ?_ i j hi hj⟩
  · intro φ hφ c b hb
    rw [LindbladPh.S_pop h nb _ hφ hb]
    refine gl_congr (G' := B.total el nb E c) hb fun x hx y hy hne => ?_
    rw [LindbladPh.G_eq nb E B heps hdos hne]
    unfold PhBaths.total
    cases hk : el c x y with
    | none =>
      rw [if_neg (by simp)]
      exact sum_eq_zero fun l _ => by rw [hxV c x y hx hy hk l, zero_mul]
    | some k => rw [if_pos (by simp)]
  · intro φ hφ c b hb
    rw [CohPh.S_pop h nb B (phW el w) (fun x _ => x) (fun _ => rfl) hφ hb]
    exact gl_congr (G := CohPh.G nb B (phW el w) c) (G' := B.total el nb E c) hb (hW c)
  · intro φ hφ c b hb
    rw [CohPh.S_pop h nb B (phW el w) (fun _ y => y) (fun _ => rfl) hφ hb]
    exact gl_congr (G := CohPh.G nb B (phW el w) c) (G' := B.total el nb E c) hb (hW c)

/-- **C57** is false for states of equal energy. The rate that 1vN and Redfield add between two
different states `b`, `a` of equal charge and equal energy is not the one of the Pauli approach:
emission and absorption are both counted. (The element `b = a` is treated with half of the
imaginary part, elph/neumann1.py:51-52, but not the elements between degenerate states.) -/
theorem c57_degenerate (h : VOk v la) (hp : PhOk v e la el) (symq : Bool) (nb : Nat)
    (E : Nat → ℝ) (B : PhBaths) (heps : 0 ≤ B.eps)
    (quad : (ℝ → ℝ) → ℝ → ℝ → ℝ → ℝ) (itype : Int) (hi : itype = 0 ∨ itype = 2)
    (fe : Nat → Nat → ℝ × ℝ) (T : Nat → Nat → Nat → ℂ) (f : Nat → Nat → Amp) :
    ∃ fp w p0 p n0 n, PauliPh.genFct e nb E B = .ok fp ∧
      VN1Ph.genFct e nb E B quad itype = .ok w ∧
      Pauli.kernel v symq fe = .ok p0 ∧ PauliPh.kernel v e nb symq fe fp = .ok p ∧
      VN1.kernel v symq E T f = .ok n0 ∧ VN1Ph.kernel v e nb symq E T f B.V w = .ok n ∧
      ∀ c b a, b ∈ v.row c → a ∈ v.row c → b ≠ a → E b = E a → (el c b a).isSome = true →
        n.val (la.lab c b b) (la.lab c a a) - n0.val (la.lab c b b) (la.lab c a a)
          = p.val (la.lab c b b) (la.lab c a a) - p0.val (la.lab c b b) (la.lab c a a)
            + ∑ l ∈ range nb, B.x l b a * (if B.lo l < B.eps ∧ B.eps < B.omp l / B.T l then
              2 * Real.pi * (1 + bose B.eps) * B.dos l (B.T l * B.eps) else 0) := by
  obtain ⟨fp, p0, p, gf, gp0, gp, hp0, hpc, rowsP⟩ := PauliPh.rows_total h hp symq nb E B fe
  obtain ⟨w, gw, hw⟩ := VN1Ph.genFct_ok h hp nb E B quad itype
  obtain ⟨n0, gn0, hn0, _, rowsn0⟩ := assemble_rows h symq E (VN1.coup v T f) _
    (fun c b bp hb hbp hi => VN1.coup_ok h T f hb hbp hi)
  obtain ⟨n, gn, hnc, _, rowsn⟩ := assemble_rows h symq E (VN1Ph.coup v e nb T f B.V w) _
    (fun c b bp hb hbp hi => VN1Ph.coup_ok h hp nb T f B.V w hb hbp hi)
  refine ⟨fp, w, p0, p, n0, n, gf, gw, gp0, gp, gn0, gn, ?_⟩
  have hle : v.npauli ≤ v.ndm0r := by have := h.np_le; have := h.ndm0r; omega
  obtain ⟨a1, _, _⟩ := entries_of_rows h le_rfl hp0 hpc (fun j _ c b hb => rowsP _ c b hb)
  obtain ⟨b1, _, _⟩ := entries_of_rows h hle hn0 hnc (G := CohPh.G nb B (phW el w)) (by
    intro j hj c b hb
    have hbR := (mem_R h).2 hb
    rw [pop_rows h rowsn0 _ hbR, pop_rows h (S := fun φ c b bp =>
      Coh.S v T (fun l q x b _ => (f l (la.ix1 q x b)).cur0)
          (fun l q x _ b => (f l (la.ix1 q x b)).cur1) (dens v la φ) c b bp +
          CohPh.S v nb B.V (phW el w) (fun x _ => x) (dens v la φ) c b bp) rowsn _ hbR,
      Complex.add_im,
      CohPh.S_pop h nb B (phW el w) (fun x _ => x) (fun _ => rfl) (fun k hk => if_neg (by omega)) hbR])
  intro c b a hb ha hne hE hs
  rw [a1 c b a hb ha hne, b1 c b a hb ha hne, CohPh.G_eq hp nb E B quad hw hb ha hne]
  unfold PhBaths.total
  rw [if_pos hs, if_pos hs, hE, sub_self, add_sub_cancel_left, add_sub_cancel_left,
    ← sum_add_distrib]
  refine sum_congr rfl fun l _ => ?_
  rw [B.rate_1vN_zero quad hi heps]
  ring

/-! ### Concrete cases -/

/-- A concrete builder: two orbitals, 'charge' indexing. -/
theorem elph_example : ∃ s, ElPhSI.init 2 "charge" = .ok s ∧ VOk (s.si.view 2) s.si.labOf ∧
    PhOk (s.si.view 2) (s.el.view 2) s.si.labOf s.el.elOf ∧
    (s.si.view 2).row 1 = [1, 2] ∧ (s.el.elOf 1 1 2).isSome = true := by
  have key : (ElPhSI.init 2 "charge" >>= fun s => (.ok (s.si.statesdm, s.el.elOf 1 1 2) : Py _)) =
      .ok ([[0], [1, 2], [3], []], some 4) := by decide +kernel
  obtain ⟨s, h1, h2⟩ := bind_iff.1 key
  simp only [Except.ok.injEq, Prod.mk.injEq] at h2
  obtain ⟨_, a2, a3⟩ := c58_consistent_partial (nl := 2) (nl' := 2) (ElPhReach.init h1) (by decide)
  exact ⟨s, h1, a2, a3, by simp [View.row, DM.view, h2.1], by rw [h2.2]; rfl⟩

/-- The bath of the example: coupling between the states 1 and 2, temperature one, energies up
to ten, the default `eps_elph`. -/
def exBath : PhBaths where
  T _ := 1
  omm _ := 0
  omp _ := 10
  dos _ _ := 1
  eps := 1 / 1000000
  V _ b a := if b = 1 ∧ a = 2 ∨ b = 2 ∧ a = 1 then 1 else 0

/-- **C57**: the witness. Two degenerate orbitals, one bath: the kernels disagree. -/
theorem c57_not_degenerate : ∃ (v e : View) (la : Lab) (el : Nat → Nat → Nat → Option Nat),
    VOk v la ∧ PhOk v e la el ∧ ∃ fp w p0 p n0 n, PauliPh.genFct e 1 (fun _ => 0) exBath = .ok fp ∧
      VN1Ph.genFct e 1 (fun _ => 0) exBath (fun _ _ _ _ => 0) 2 = .ok w ∧
      Pauli.kernel v true (fun _ _ => (0, 0)) = .ok p0 ∧
      PauliPh.kernel v e 1 true (fun _ _ => (0, 0)) fp = .ok p ∧
      VN1.kernel v true (fun _ => 0) (fun _ _ _ => 0) (fun _ _ => ⟨0, 0, 0, 0⟩) = .ok n0 ∧
      VN1Ph.kernel v e 1 true (fun _ => 0) (fun _ _ _ => 0) (fun _ _ => ⟨0, 0, 0, 0⟩) exBath.V w
        = .ok n ∧
      n.val (la.lab 1 1 1) (la.lab 1 2 2) - n0.val (la.lab 1 1 1) (la.lab 1 2 2)
        ≠ p.val (la.lab 1 1 1) (la.lab 1 2 2) - p0.val (la.lab 1 1 1) (la.lab 1 2 2) := by
  obtain ⟨s, _, hv, hp, hr, hs⟩ := elph_example
  obtain ⟨fp, w, p0, p, n0, n, g1, g2, g3, g4, g5, g6, hh⟩ := c57_degenerate hv hp true 1
    (fun _ => 0) exBath (by unfold exBath; norm_num) (fun _ _ _ _ => 0) 2 (Or.inr rfl)
    (fun _ _ => (0, 0)) (fun _ _ _ => 0) (fun _ _ => ⟨0, 0, 0, 0⟩)
  refine ⟨_, _, _, _, hv, hp, fp, w, p0, p, n0, n, g1, g2, g3, g4, g5, g6, ?_⟩
  rw [hh 1 1 2 (by rw [hr]; simp) (by rw [hr]; simp) (by decide) rfl hs]
  have hx : exBath.x 0 1 2 = 1 := by
    unfold PhBaths.x exBath; norm_num
  have hlo : exBath.lo 0 < exBath.eps ∧ exBath.eps < exBath.omp 0 / exBath.T 0 := by
    unfold PhBaths.lo exBath; norm_num
  have hb := bose_nonneg (x := exBath.eps) (by unfold exBath; norm_num)
  rw [sum_range_one, hx, if_pos hlo]
  have : (0 : ℝ) < 1 * (2 * Real.pi * (1 + bose exBath.eps) * exBath.dos 0 (exBath.T 0 * exBath.eps)) := by
    have h1 : exBath.dos 0 (exBath.T 0 * exBath.eps) = 1 := rfl
    rw [h1]
    have := Real.pi_pos
    positivity
  linarith

/-- The hypotheses of **C56** and **C57** with different energies. -/
example : ∃ (v e : View) (la : Lab) (el : Nat → Nat → Nat → Option Nat) (E : Nat → ℝ),
    VOk v la ∧ PhOk v e la el ∧ v.row 1 = [1, 2] ∧ 0 ≤ exBath.eps ∧ (∀ l x, 0 ≤ exBath.dos l x) ∧
    (∀ b a, b ∈ v.row 1 → a ∈ v.row 1 → b ≠ a → E b ≠ E a) ∧
    (∀ b a, b ∈ v.row 1 → a ∈ v.row 1 → E b = E a ∨ exBath.eps ≤ |E b - E a| / 1) ∧
    exBath.V 0 1 2 ≠ 0 ∧ 0 < exBath.rate (E 1 - E 2) 0 := by
  obtain ⟨s, _, hv, hp, hr, hs⟩ := elph_example
  refine ⟨_, _, _, _, fun b => b, hv, hp, hr, by unfold exBath; norm_num, fun _ _ => zero_le_one,
    ?_, ?_, by simp [exBath], ?_⟩
  · intro b a _ _ hne; exact fun h => hne (Nat.cast_injective (R := ℝ) h)
  · intro b a hb ha
    rw [hr] at hb ha
    fin_cases hb <;> fin_cases ha <;> simp [exBath] <;> norm_num
  · have ha : exBath.alpha (((1 : Nat) : ℝ) - ((2 : Nat) : ℝ)) 0 = -1 := by
      unfold PhBaths.alpha exBath; norm_num
    have hb := bose_nonneg (x := 1) one_pos
    rw [exBath.rate_eq, ha, if_neg (by rintro ⟨h1, _⟩; have := exBath.lo_nonneg 0 (by unfold exBath; norm_num); linarith),
      if_pos (by unfold PhBaths.lo exBath; norm_num)]
    have h1 : exBath.dos 0 (-exBath.T 0 * -1) = 1 := rfl
    rw [h1, neg_neg]
    have := Real.pi_pos
    positivity

end

end Verif
