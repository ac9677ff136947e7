import Verif.Lemmas.SpinBase

/-! `ssquare_eigenstates`. -/

namespace Verif
open Verif.Spec Matrix

variable {n : Nat}

/-- A complete set of eigenvectors of the total spin in a sector: the column `i` of `v` has twice the total
spin `qs i`; those with the `j`-th total spin are the `m j` columns from `a j` on. -/
structure SpinCols (n : Nat) (d : Nat) (st : Nat → Occ n) (E : Nat) (q0 : Int) (m : Nat → Nat)
    (v : Nat → Nat → ℂ) (qs : Nat → Int) (a : Nat → Nat) : Prop where
  real : ∀ p i, p < d → i < d → (v p i).im = 0
  orth : ∀ i j, i < d → j < d → ∑ p ∈ Finset.range d, starRingEnd ℂ (v p i) * v p j = if i = j then 1 else 0
  spin : ∀ p i, p < d → i < d → ∑ y ∈ Finset.range d, cQ (st p) (st y) * v y i
    = v p i * ((qs i * (qs i + 2) : ℤ) : ℂ)
  block : ∀ j, j ≤ E → a j + m j ≤ d ∧ ∀ i, i < d → (qs i = q0 + 2 * (j : Int) ↔ a j ≤ i ∧ i < a j + m j)
  all : ∀ i, i < d → ∃ j, j ≤ E ∧ qs i = q0 + 2 * (j : Int)

theorem natAbs_row {n c k : Nat} (hk : k ≤ szW n c) :
    (((-(szW n c : Int) + 2 * (k : Int)).natAbs : Nat) : Int) = ((szW n c - 2 * ssqE n c k : Nat) : Int) := by
  unfold ssqE; omega

theorem adm_row {n c k : Nat} (hn : n % 2 = 0) (hc : c ≤ n) (hk : k ≤ szW n c) :
    AdmSz n c (-(szW n c : Int) + 2 * (k : Int)) :=
  (admSz_iff hn hc _).2 ⟨k, hk, rfl⟩

theorem adm_cell {n c k j : Nat} (hk : k ≤ szW n c) (hj : j ≤ ssqE n c k) :
    AdmSsq n c (-(szW n c : Int) + 2 * (k : Int)) (((szW n c - 2 * ssqE n c k : Nat) : Int) + 2 * (j : Int)) := by
  unfold AdmSsq
  rw [natAbs_row hk]
  unfold ssqE szW at *
  omega

theorem adm_cell_iff {n c k : Nat} {q : Int} (hk : k ≤ szW n c) :
    AdmSsq n c (-(szW n c : Int) + 2 * (k : Int)) q ↔
      ∃ j, j ≤ ssqE n c k ∧ q = ((szW n c - 2 * ssqE n c k : Nat) : Int) + 2 * (j : Int) := by
  constructor
  · unfold AdmSsq
    rw [natAbs_row hk]
    intro h
    refine ⟨((q - ((szW n c - 2 * ssqE n c k : Nat) : Int)) / 2).toNat, ?_, ?_⟩ <;>
    · unfold ssqE szW at *
      omega
  · rintro ⟨j, hj, rfl⟩
    exact adm_cell hk hj

theorem ssq_cell_get {si : SI} (hev : n % 2 = 0) (hsi : SI.init n "ssq" = .ok si) {c k j : Nat}
    (hc : c ≤ n) (hk : k ≤ szW n c) (hj : j ≤ ssqE n c k) :
    si.getLst (some c) (some (-(szW n c : Int) + 2 * (k : Int)))
      (some (((szW n c - 2 * ssqE n c k : Nat) : Int) + 2 * (j : Int))) = .ok (some (ssqCell n c k j)) := by
  obtain ⟨si', i1, hinv, hix, _⟩ := init_inv n "ssq"
  rw [hsi] at i1
  cases i1
  have hix : si.indexing = .ssq := by
    rw [hix]; unfold chooseIndexing; simp [hev]
  obtain ⟨g1, g2, -⟩ := hinv.qn_ssq hix
  simp only [SI.getLst, g1, g2, hinv.nsingle, szToInd_range n c k hc]
  rw [pyGet_map_range _ _ _ (by omega)]
  simp only [py_bind_ok]
  rw [pyGet_map_range _ _ _ (by omega)]
  simp only [py_bind_ok]
  rw [show ssqE n c k = min k (szW n c - k) from rfl, ssqToInd_row n c k j hk,
    pyGet_map_range _ _ _ (by unfold ssqE at hj; omega)]
  rfl

/-- The columns with the eigenvalues `w`, in ascending order, of the total spin. -/
theorem spinCols_exist {si : SI} (hn : 1 ≤ n) (hev : n % 2 = 0) (hsi : SI.init n "ssq" = .ok si)
    {eigh : Eigh} (he : EighReal eigh) {c k : Nat} (hc : c ≤ n) (hk : k ≤ szW n c)
    {l : List Nat} {st : Nat → Occ n}
    (hl : si.getLst (some c) (some (-(szW n c : Int) + 2 * (k : Int))) none = .ok (some l))
    (hs : Sector n si c (-(szW n c : Int) + 2 * (k : Int)) l st) :
    ∃ (m : IMat) (w : List ℝ) (V : Arr) (qs : Nat → Int) (a : Nat → Nat),
      operatorSsquare c (-(szW n c : Int) + 2 * (k : Int)) si = .ok m ∧ eigh m.arr = .ok (w, V) ∧
      w.length = l.length ∧ V.dims = [l.length, l.length] ∧
      (∀ i (hi : i < w.length), round (-1 + Real.sqrt (1 + w[i])) = qs i) ∧
      (∀ i j, i ≤ j → j < l.length → qs i ≤ qs j) ∧
      SpinCols n l.length st (ssqE n c k) ((szW n c - 2 * ssqE n c k : Nat) : Int) (ssqM n c k)
        V.mat qs a ∧
      ∀ j, j ≤ ssqE n c k → (List.range l.length).filter
        (fun i => qs i = ((szW n c - 2 * ssqE n c k : Nat) : Int) + 2 * (j : Int))
          = List.range' (a j) (ssqM n c k j) := by
  have h : SpinSI n si := ⟨hn, hev, "ssq", Or.inr rfl, hsi⟩
  have hadm := adm_row hev hc hk
  obtain ⟨m, h1, h2, h3, h4⟩ := ssquare_ok h hc hadm hs
  have hval : ∀ p q, p < l.length → q < l.length →
      m.arr.val [p, q] = ((spinSquare4 (st p) (st q) : ℤ) : ℂ) := by
    intro p q hp hq
    show ((m.val p q : ℤ) : ℂ) = _
    rw [h4 p q hp hq]
  have hsym : ∀ s s' : Occ n, (spinSquare4 : Matrix (Occ n) (Occ n) ℤ) s' s = spinSquare4 s s' :=
    fun s s' => congrFun (congrFun square_transpose s) s'
  have hd : m.arr.dims = [l.length, l.length] := by
    unfold IMat.arr
    rw [Arr.ofMat_dims, h2, h3]
  have hherm : ∀ i j, i < l.length → j < l.length →
      m.arr.val [j, i] = starRingEnd ℂ (m.arr.val [i, j]) := by
    intro i j hi hj
    rw [hval i j hi hj, hval j i hj hi, hsym, map_intCast]
  have hreal : ∀ i j, i < l.length → j < l.length →
      (m.arr.val [i, j]).im = 0 ∧ m.arr.val [j, i] = m.arr.val [i, j] := by
    intro i j hi hj
    rw [hval i j hi hj, hval j i hj hi, hsym]
    exact ⟨Complex.intCast_im _, rfl⟩
  obtain ⟨w, V, e1, e2, e3, e4, e5⟩ := he.ok m.arr l.length hd hherm
  obtain ⟨e6, e7⟩ := he.real m.arr l.length w V hd hreal e1
  -- real columns
  let A : Matrix (Fin l.length) (Fin l.length) ℝ := m.real l.length
  let U : Matrix (Fin l.length) (Fin l.length) ℝ := fun p i => (V.val [p.val, i.val]).re
  have hUV : ∀ p i : Fin l.length, V.val [p.val, i.val] = ((U p i : ℝ) : ℂ) := by
    intro p i
    apply Complex.ext
    · rw [Complex.ofReal_re]
    · rw [Complex.ofReal_im, e7 p i p.2 i.2]
  have hAval : ∀ p i : Fin l.length, m.arr.val [p.val, i.val] = ((A p i : ℝ) : ℂ) := by
    intro p i
    show ((m.val p i : ℤ) : ℂ) = ((m.val p i : ℝ) : ℂ)
    push_cast; rfl
  have hAT : Aᵀ = A := by
    ext i j
    have := (hreal i j i.2 j.2).2
    rw [hAval, hAval] at this
    exact_mod_cast this
  have hU : Uᵀ * U = 1 := by
    ext i j
    rw [Matrix.mul_apply, Matrix.one_apply]
    have := e4 i j i.2 j.2
    rw [Finset.sum_range] at this
    simp only [hUV, Complex.conj_ofReal, ← Complex.ofReal_mul, ← Complex.ofReal_sum, Fin.val_inj] at this
    rw [show ∑ x, Uᵀ i x * U x j = ∑ x, U x i * U x j from rfl]
    apply Complex.ofReal_injective
    rw [this]
    split <;> simp
  let lam : Fin l.length → ℝ := fun i => w[i.val]'(by rw [e2]; exact i.2)
  have hlam : ∀ i, A *ᵥ (fun p => U p i) = lam i • fun p => U p i := by
    intro i
    ext p
    have hi : i.val < w.length := by rw [e2]; exact i.2
    have := e5 p i (w[i.val]) p.2 (List.getElem?_eq_getElem hi)
    rw [Finset.sum_range] at this
    simp only [hUV, hAval, ← Complex.ofReal_mul, ← Complex.ofReal_sum] at this
    have := Complex.ofReal_injective this
    rw [Pi.smul_apply, smul_eq_mul, mul_comm]
    exact this
  have hUne : ∀ i, (fun p => U p i) ≠ 0 := by
    intro i h0
    have := congrFun (congrFun hU i) i
    rw [Matrix.mul_apply, Matrix.one_apply, if_pos rfl] at this
    have h0' : ∀ p, U p i = 0 := fun p => congrFun h0 p
    simp only [Matrix.transpose_apply, h0', mul_zero, Finset.sum_const_zero] at this
    exact zero_ne_one this
  have hex : ∀ i : Nat, ∃ q : Int, ∀ hi : i < l.length, AdmSsq n c (-(szW n c : Int) + 2 * (k : Int)) q ∧
      lam ⟨i, hi⟩ = q * (q + 2) ∧ -1 + Real.sqrt (1 + lam ⟨i, hi⟩) = q := by
    intro i
    by_cases hi : i < l.length
    · obtain ⟨q, hq⟩ := c55_eigenvalues h hc hadm hl h1 (hUne ⟨i, hi⟩) (hlam ⟨i, hi⟩)
      exact ⟨q, fun _ => hq⟩
    · exact ⟨0, fun hh => absurd hh hi⟩
  choose qs hqs using hex
  have hmono : ∀ i j, i ≤ j → j < l.length → qs i ≤ qs j := by
    intro i j hij hj
    rcases Nat.lt_or_eq_of_le hij with hlt | rfl
    swap
    · exact le_refl _
    have hi : i < l.length := by omega
    have hle : lam ⟨i, hi⟩ ≤ lam ⟨j, hj⟩ :=
      List.pairwise_iff_getElem.1 e6 i j (by rw [e2]; exact hi) (by rw [e2]; exact hj) hlt
    have : (qs i : ℝ) ≤ qs j := by
      rw [← (hqs i hi).2.2, ← (hqs j hj).2.2]
      have := Real.sqrt_le_sqrt (add_le_add_right hle 1)
      linarith
    exact_mod_cast this
  have hblk : ∀ j : Nat, ∃ a, j ≤ ssqE n c k → a + ssqM n c k j ≤ l.length ∧
      (List.range l.length).filter
        (fun i => qs i = ((szW n c - 2 * ssqE n c k : Nat) : Int) + 2 * (j : Int))
          = List.range' a (ssqM n c k j) ∧
      ∀ i, i < l.length → (qs i = ((szW n c - 2 * ssqE n c k : Nat) : Int) + 2 * (j : Int) ↔
        a ≤ i ∧ i < a + ssqM n c k j) := by
    intro j
    by_cases hj : j ≤ ssqE n c k
    swap
    · exact ⟨0, fun h => absurd h hj⟩
    obtain ⟨a, mm, g1, g2, g3⟩ := filter_contig qs (((szW n c - 2 * ssqE n c k : Nat) : Int) + 2 * (j : Int))
      l.length hmono
    have c1 := ssq_cell_get hev hsi hc hk hj
    have hmult := c55_multiplicity hn hev hsi hc hadm (adm_cell hk hj) hl c1 h1
    have hcount := finrank_eigenspace A U hAT hU lam hlam
      ((((((szW n c - 2 * ssqE n c k : Nat) : Int) + 2 * (j : Int) : ℤ)) : ℝ) *
        ((((((szW n c - 2 * ssqE n c k : Nat) : Int) + 2 * (j : Int) : ℤ)) : ℝ) + 2))
    rw [hmult, show (ssqCell n c k j).length = ssqM n c k j by simp [ssqCell]] at hcount
    have lam_iff : ∀ {i : Nat} (hi : i < l.length), lam ⟨i, hi⟩
        = ((((((szW n c - 2 * ssqE n c k : Nat) : Int) + 2 * (j : Int) : ℤ)) : ℝ) *
        ((((((szW n c - 2 * ssqE n c k : Nat) : Int) + 2 * (j : Int) : ℤ)) : ℝ) + 2)) ↔
        qs i = ((szW n c - 2 * ssqE n c k : Nat) : Int) + 2 * (j : Int) := by
      intro i hi
      obtain ⟨g1, g2, _⟩ := hqs i hi
      rw [g2]
      unfold AdmSsq at g1
      generalize hx : (((szW n c - 2 * ssqE n c k : Nat) : Int) + 2 * (j : Int)) = x
      have hx0 : 0 ≤ x := by omega
      have hq0 : 0 ≤ qs i := by omega
      constructor
      · intro h
        have h' : qs i * (qs i + 2) = x * (x + 2) := by exact_mod_cast h
        have : (qs i - x) * (qs i + x + 2) = 0 := by linear_combination h'
        rcases mul_eq_zero.1 this with h2 | h2 <;> omega
      · intro h; rw [h]
    have hmm : mm = ssqM n c k j := by
      rw [hcount]
      have : (Finset.univ.filter fun i : Fin l.length => lam i
          = ((((((szW n c - 2 * ssqE n c k : Nat) : Int) + 2 * (j : Int) : ℤ)) : ℝ) *
        ((((((szW n c - 2 * ssqE n c k : Nat) : Int) + 2 * (j : Int) : ℤ)) : ℝ) + 2))).card
          = ((List.range l.length).filter
        (fun i => qs i = ((szW n c - 2 * ssqE n c k : Nat) : Int) + 2 * (j : Int))).length := by
        rw [← List.toFinset_card_of_nodup (List.nodup_range.filter _)]
        refine Finset.card_bij (fun i _ => i.val) ?_ (fun i _ j _ e => Fin.ext e) ?_
        · intro i hi
          simp only [Finset.mem_filter, Finset.mem_univ, true_and] at hi
          simp only [List.mem_toFinset, List.mem_filter, List.mem_range, decide_eq_true_eq]
          exact ⟨i.2, (lam_iff i.2).1 hi⟩
        · intro i hi
          simp only [List.mem_toFinset, List.mem_filter, List.mem_range, decide_eq_true_eq] at hi
          refine ⟨⟨i, hi.1⟩, ?_, rfl⟩
          simp only [Finset.mem_filter, Finset.mem_univ, true_and]
          exact (lam_iff hi.1).2 hi.2
      rw [this, g2, List.length_range']
    subst hmm
    exact ⟨a, fun _ => ⟨g1, g2, g3⟩⟩
  choose a ha using hblk
  refine ⟨m, w, V, qs, a, h1, e1, e2, e3, ?_, hmono, ⟨?_, ?_, ?_, ?_, ?_⟩, fun j hj => (ha j hj).2.1⟩
  · intro i hi
    have hi' : i < l.length := by rw [← e2]; exact hi
    have := (hqs i hi').2.2
    have e : w[i] = lam ⟨i, hi'⟩ := rfl
    rw [e, this, round_intCast]
  · exact fun p i hp hi => e7 p i hp hi
  · exact fun i j hi hj => e4 i j hi hj
  · intro p i hp hi
    have hi' : i < w.length := by rw [e2]; exact hi
    have := e5 p i _ hp (List.getElem?_eq_getElem hi')
    have e : w[i] = lam ⟨i, hi⟩ := rfl
    rw [e, (hqs i hi).2.1] at this
    show _ = V.val [p, i] * _
    rw [show (((qs i * (qs i + 2) : ℤ)) : ℂ) = ((((qs i : ℝ) * (qs i + 2) : ℝ)) : ℂ) by push_cast; rfl,
      ← this]
    refine Finset.sum_congr rfl fun y hy => ?_
    rw [hval p y hp (Finset.mem_range.1 hy)]
    rfl
  · exact fun j hj => ⟨(ha j hj).1, (ha j hj).2.2⟩
  · exact fun i hi => (adm_cell_iff hk).1 (hqs i hi).1

end Verif
