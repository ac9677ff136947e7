import Verif.Lemmas.CompiledElPhCoup
import Verif.Props.Compiled
import Verif.Props.ElPhSI
import Verif.Props.Dephasing

/-! C97: the compiled electron-phonon approaches against the Python ones. -/

namespace Verif

open Finset
open Complex (I)
open scoped ComplexConjugate

noncomputable section

/-! ### Objects -/

theorem pairs1_congr {v v' : View} (hn : v'.ncharge = v.ncharge) (hr : ∀ c, v'.row c = v.row c) :
    pairs1 v' = pairs1 v := by
  unfold pairs1
  rw [hn]
  simp only [hr]

/-- The two objects of the builder, after any history. -/
theorem elph_ready {n : Nat} {ix : String} {s : ElPhSI} (h : ElPhReach n ix s true)
    (hix : chooseIndexing n ix ≠ .ssq) (nl nl' : Nat) :
    VOk (s.si.view nl) s.si.labOf ∧ CReady s.si nl s.si.labOf s.si.labOf.can ∧
    CElReady (s.si.view nl) s.el nl' s.si.labOf s.el.elOf := by
  obtain ⟨_, hv, hp⟩ := c58_consistent_partial (nl := nl) (nl' := nl') h hix
  obtain ⟨⟨d, k, S, S', ix', e1, r1, r2, hS, hrow⟩, X, z, e2⟩ := h.inv hix
  obtain ⟨hi, hk, hd⟩ := r1.inv
  obtain ⟨hie, hke, _⟩ := r2.inv
  have hx : d.si.indexing ≠ .ssq := by rw [hd]; exact hix
  have e3 : s.si.si = d.si := by rw [e1]
  have hsame : s.el.si.indexing = d.si.indexing := by rw [e2, e3]
  have L := (hi.lab hx).dm hk
  have Le := (hie.lab (by rw [hsame]; exact hx)).dmc hke
  have hr : ∀ c, (s.si.view nl).row c = rowOf S c := by
    intro c
    have : (s.si.view nl).row c = (d.view nl).row c := by
      simp only [View.row, DM.view, e1]
      exact rowOf_pad _ k c
    rw [this, row_of_sdm nl hi.sdm]
  have hlt : ∀ {c b}, b ∈ rowOf S c → c < n + 1 := by
    intro c b hb
    by_contra hc
    rw [rowOf, List.getElem?_eq_none (by omega)] at hb
    simp at hb
  have hnc : (s.si.view nl).ncharge = n + 1 := by
    show s.si.si.ncharge = n + 1
    rw [e3]; exact hi.shape.ncharge
  have hre : ∀ c, (s.el.view nl').row c = rowOf S' c := fun c => row_of_sdm nl' hie.sdm c
  refine ⟨hv, ⟨hv.rep, by rw [e1]; exact hk, ?_, ?_⟩, ⟨hp, hke, ?_, ?_, ?_, ?_⟩⟩
  · have := pairs1_len nl hi.sizes hi.shape.ncharge hi.sdm
    rw [pairs1_congr (v := d.view nl) (by rw [hnc]; exact hi.shape.ncharge.symm)
      (fun c => by rw [hr, row_of_sdm nl hi.sdm]), this, e1]
  · intro c b bp hb hbp hinc
    rw [hr] at hb hbp
    have hbo : (s.si.view nl).bool0 b bp (c : Int) = d.getBoolDm0 b bp c := by rw [e1]; rfl
    have hla : s.si.labOf = d.labOf := by rw [e1]; rfl
    rw [hbo]
    rw [hla] at hinc
    by_cases e : b = bp
    · subst e
      obtain ⟨a, _⟩ := L.diag c b (hlt hb) hb
      simp [DM.labOf, a, okD] at hinc
    · cases hin : inclOf d.si.indexing (szOf n d.si) b bp with
      | true =>
        obtain ⟨k, x, _, _, a, _⟩ := L.off c b bp (hlt hb) hb hbp e hin
        simp [DM.labOf, a, okD] at hinc
      | false => exact (L.excl c b bp (hlt hb) hb hbp e hin).2.1
  · intro c hc
    rw [hnc] at hc
    rw [hre, hr, hrow rfl c hc]
  · rw [hnc, hie.sdm]
    have := hie.good.len
    simp; omega
  · exact pairs1_len nl' hie.sizes hie.shape.ncharge hie.sdm
  · intro k hk
    by_cases hkp : k < s.el.npauli
    · rw [Le.npauli] at hkp
      obtain ⟨c, b, hc, hb, e⟩ := posP_surj hie.good.nodup hkp
      have hb' : b ∈ (s.si.view nl).row c := by rw [hr, ← hrow rfl c hc]; exact hb
      refine ⟨c, b, b, hb', hb', ?_⟩
      have := (Le.diag c b hc hb).1
      simp only [DM.elOf, okD, this]
      rw [if_neg (by omega), e]
      simp
    · obtain ⟨c, b, a, hc, hb, ha, _, _, e⟩ := Le.surj k (by omega) hk
      refine ⟨c, b, a, by rw [hr, ← hrow rfl c hc]; exact hb, by rw [hr, ← hrow rfl c hc]; exact ha, ?_⟩
      simp only [DM.elOf, okD, e]
      rw [if_neg (by omega)]
      simp

/-! ### The theorems -/

section
variable {n : Nat} {ix : String} {s : ElPhSI} (h : ElPhReach n ix s true)
  (hix : chooseIndexing n ix ≠ .ssq) (nl nl' nb : Nat)
include h hix

/-- **C97** (Pauli). The constructors of the handlers of `si` and `si_elph` stay within their
arrays, `generate_fct` gives the numbers of the Python methods, and the parallel loop of
`generate_kern` computes the Python kernel, or without a matrix the Python vector, whatever the
order in which the iterations are executed. -/
theorem c97_pauli : ∃ kh ke, CKH.build s.si nl true = .ok kh ∧ CKH.build s.el nl' false = .ok ke ∧
    (∀ E L, CPauli.genFct kh E L = Pauli.genFct (s.si.view nl) E L) ∧
    (∀ E B, CPauliPh.genFct ke nb E B = PauliPh.genFct (s.el.view nl') nb E B) ∧
    (∀ E fe fp symq, ∃ m, PauliPh.kernel (s.si.view nl) (s.el.view nl') nb symq fe fp = .ok m ∧
      kh.Computes E (CPauliPh.coup kh ke nb fe fp) m) ∧
    ∀ E fe fp φ normRow, s.si.npauli ≤ φ.size → 0 ≤ normRow → ∃ norm y,
      kh.phi0Norm φ = .ok norm ∧ y.size = s.si.npauli ∧
      kh.ComputesFree E (CPauliPh.coup kh ke nb fe fp) φ y ∧
      (s.si.view nl).genVec s.si.npauli normRow
        (PauliPh.genKern (s.si.view nl) (s.el.view nl') nb fe fp) φ = y.cput normRow (norm - 1) := by
  obtain ⟨hv, q, r⟩ := elph_ready h hix nl nl'
  exact ⟨_, _, q.buildD, r.build hv,
    fun E L => (q.of true _ _).pauli_fct q.rep.toVMul rfl q.pairs E L,
    fun E B => r.pauli_fct hv nb E B,
    fun E fe fp symq => q.diag_kern (fun c b hb => q.pauliPh_calls r hv nb fe fp hb)
      (fun c b hb => q.pauliPh_coup r hv nb fe fp hb) (q.pauliPh_gen r hv nb fe fp) symq,
    fun E fe fp φ normRow h1 h2 => q.diag_vec (fun c b hb => q.pauliPh_calls r hv nb fe fp hb)
      (fun c b hb => q.pauliPh_coup r hv nb fe fp hb) (q.pauliPh_gen r hv nb fe fp) h2 h1⟩

/-- **C97** (1vN). -/
theorem c97_vn1 : ∃ kh ke, CKH.build s.si nl false = .ok kh ∧ CKH.build s.el nl' false = .ok ke ∧
    (∀ lib E L, kh.genFct1vN lib E L = genFct1vN (s.si.view nl) lib E L) ∧
    (∀ E B quad itype, CVN1Ph.genFct ke nb E B quad itype
      = VN1Ph.genFct (s.el.view nl') nb E B quad itype) ∧
    (∀ E T f V w symq, ∃ m, VN1Ph.kernel (s.si.view nl) (s.el.view nl') nb symq E T f V w = .ok m ∧
      kh.Computes E (CVN1Ph.coup kh ke nb T f V w) m) ∧
    ∀ E T f V w φ normRow, s.si.ndm0r ≤ φ.size → 0 ≤ normRow → ∃ norm y,
      kh.phi0Norm φ = .ok norm ∧ y.size = s.si.ndm0r ∧
      kh.ComputesFree E (CVN1Ph.coup kh ke nb T f V w) φ y ∧
      (s.si.view nl).genVec s.si.ndm0r normRow ((s.si.view nl).genKern E
        (VN1Ph.coup (s.si.view nl) (s.el.view nl') nb T f V w)) φ = y.cput normRow (norm - 1) := by
  obtain ⟨hv, q, r⟩ := elph_ready h hix nl nl'
  have o := q.of false (elems (s.si.view nl) s.si.labOf s.si.labOf.can) (pairs1 (s.si.view nl))
  have hks : ∀ T f V w c b bp, b ∈ (s.si.view nl).row c → bp ∈ (s.si.view nl).row c →
      s.si.labOf.inc c b bp = true →
      ∃ ks, VN1Ph.coup (s.si.view nl) (s.el.view nl') nb T f V w b bp (c : Nat) = .ok ks ∧
      ∀ k ∈ ks, KGood (s.si.view nl) s.si.labOf k ∧ k.target = ((c : Int), b, bp) := by
    intro T f V w c b bp hb hbp hi
    obtain ⟨ks, a1, a2, _⟩ := VN1Ph.coup_ok hv r.ph nb T f V w hb hbp hi
    exact ⟨ks, a1, a2⟩
  exact ⟨_, _, q.build, r.build hv,
    fun lib E L => o.vn1_fct q.rep.toVMul rfl q.pairs lib E L,
    fun E B quad itype => r.vn1_fct hv nb E B quad itype,
    fun E T f V w symq => q.kern
      (fun b bp c hb hbp => r.vn1_coup o q.rep.toVMul nb T f V w hb hbp) (hks T f V w) symq,
    fun E T f V w φ normRow h1 h2 => q.vec
      (fun b bp c hb hbp => r.vn1_coup o q.rep.toVMul nb T f V w hb hbp) (hks T f V w) h2 h1⟩

/-- **C97** (Redfield). The factors are those of 1vN. -/
theorem c97_redfield : ∃ kh ke, CKH.build s.si nl false = .ok kh ∧
    CKH.build s.el nl' false = .ok ke ∧
    (∀ lib E L, kh.genFct1vN lib E L = genFct1vN (s.si.view nl) lib E L) ∧
    (∀ E B quad itype, CVN1Ph.genFct ke nb E B quad itype
      = VN1Ph.genFct (s.el.view nl') nb E B quad itype) ∧
    (∀ E T f V w symq, ∃ m,
      RedfieldPh.kernel (s.si.view nl) (s.el.view nl') nb symq E T f V w = .ok m ∧
      kh.Computes E (CRedfieldPh.coup kh ke nb T f V w) m) ∧
    ∀ E T f V w φ normRow, s.si.ndm0r ≤ φ.size → 0 ≤ normRow → ∃ norm y,
      kh.phi0Norm φ = .ok norm ∧ y.size = s.si.ndm0r ∧
      kh.ComputesFree E (CRedfieldPh.coup kh ke nb T f V w) φ y ∧
      (s.si.view nl).genVec s.si.ndm0r normRow ((s.si.view nl).genKern E
        (RedfieldPh.coup (s.si.view nl) (s.el.view nl') nb T f V w)) φ
        = y.cput normRow (norm - 1) := by
  obtain ⟨hv, q, r⟩ := elph_ready h hix nl nl'
  have o := q.of false (elems (s.si.view nl) s.si.labOf s.si.labOf.can) (pairs1 (s.si.view nl))
  have hks : ∀ T f V w c b bp, b ∈ (s.si.view nl).row c → bp ∈ (s.si.view nl).row c →
      s.si.labOf.inc c b bp = true →
      ∃ ks, RedfieldPh.coup (s.si.view nl) (s.el.view nl') nb T f V w b bp (c : Nat) = .ok ks ∧
      ∀ k ∈ ks, KGood (s.si.view nl) s.si.labOf k ∧ k.target = ((c : Int), b, bp) := by
    intro T f V w c b bp hb hbp hi
    obtain ⟨ks, a1, a2, _⟩ := RedfieldPh.coup_ok hv r.ph nb T f V w hb hbp hi
    exact ⟨ks, a1, a2⟩
  exact ⟨_, _, q.build, r.build hv,
    fun lib E L => o.vn1_fct q.rep.toVMul rfl q.pairs lib E L,
    fun E B quad itype => r.vn1_fct hv nb E B quad itype,
    fun E T f V w symq => q.kern
      (fun b bp c hb hbp => r.redfield_coup o q.rep.toVMul nb T f V w hb hbp) (hks T f V w) symq,
    fun E T f V w φ normRow h1 h2 => q.vec
      (fun b bp c hb hbp => r.redfield_coup o q.rep.toVMul nb T f V w hb hbp) (hks T f V w) h2 h1⟩

end

/-! ### Lindblad -/

/-- The columns of the populations agree if the right-hand sides agree for states without
coherences. -/
theorem pop_columns {v : View} {la : Lab} (h : VOk v la) {E : Nat → ℝ} {symq : Bool}
    {c1 c2 : Nat → Nat → Int → Py (List KCall)} {S1 S2 : (Nat → ℝ) → Nat → Nat → Nat → ℂ}
    (hc1 : ∀ c b bp, b ∈ v.row c → bp ∈ v.row c → la.inc c b bp = true →
      ∃ ks, c1 b bp c = .ok ks ∧ (∀ k ∈ ks, KGood v la k ∧ k.target = ((c : Int), b, bp)) ∧
        ∀ φ, (ks.map fun k => k.term v la φ).sum = S1 φ c b bp)
    (hc2 : ∀ c b bp, b ∈ v.row c → bp ∈ v.row c → la.inc c b bp = true →
      ∃ ks, c2 b bp c = .ok ks ∧ (∀ k ∈ ks, KGood v la k ∧ k.target = ((c : Int), b, bp)) ∧
        ∀ φ, (ks.map fun k => k.term v la φ).sum = S2 φ c b bp)
    (hS : ∀ φ : Nat → ℝ, (∀ k, v.npauli ≤ k → φ k = 0) → ∀ c b bp, b ∈ v.row c → bp ∈ v.row c →
      S1 φ c b bp = S2 φ c b bp) :
    ∃ m1 m2, v.assemble v.ndm0r symq (v.genKern E c1) = .ok m1 ∧
      v.assemble v.ndm0r symq (v.genKern E c2) = .ok m2 ∧
      ∀ i j, i < v.ndm0r → j < v.npauli → m1.val i j = m2.val i j := by
  obtain ⟨m1, g1, hm1, _, rows1⟩ := h.rep.assemble_rows symq E c1 S1 hc1
  obtain ⟨m2, g2, hm2, _, rows2⟩ := h.rep.assemble_rows symq E c2 S2 hc2
  refine ⟨m1, m2, g1, g2, fun i j hi hj => ?_⟩
  have hnp := h.np_le
  have hnr := h.ndm0r
  rw [m1.val_eq_app (by omega), m2.val_eq_app (by omega)]
  obtain ⟨φ, hφ⟩ : ∃ φ : Nat → ℝ, φ = fun k => if k = j then 1 else 0 := ⟨_, rfl⟩
  have h0 : ∀ k, v.npauli ≤ k → φ k = 0 := by
    intro k hk; rw [hφ]; simp only; rw [if_neg (by omega)]
  rw [← hφ]
  by_cases hi0 : i < v.ndm0
  · obtain ⟨c, b, bp, hb, hbp, hin, hu, rfl⟩ := h.rep.uni_surj i hi0
    rw [(rows1 φ c b bp hb hbp hin hu).1, (rows2 φ c b bp hb hbp hin hu).1, hS φ h0 c b bp hb hbp]
  · obtain ⟨c, b, bp, hb, hbp, hin, hu, e⟩ := h.rep.uni_surj (i + v.npauli - v.ndm0) (by omega)
    have hne : b ≠ bp := by
      rintro rfl
      have := h.lab_diag c b hb
      omega
    have ei : i = v.imag (la.lab c b bp) := by
      unfold View.imag; rw [e]; omega
    rw [ei, (rows1 φ c b bp hb hbp hin hu).2 hne, (rows2 φ c b bp hb hbp hin hu).2 hne,
      hS φ h0 c b bp hb hbp]

section
variable {n : Nat} {ix : String} {s : ElPhSI} (h : ElPhReach n ix s true)
  (hix : chooseIndexing n ix ≠ .ssq) (nl nl' nb : Nat)
include h hix

/-- **C97** (Lindblad, partial: see `c97_lindblad_false` for what is false). The constructors stay
within their arrays. The jump amplitudes are those of the Python class for all pairs of states that
`si_elph` labels, and zero for the others, which the Python class does not leave out. The loop
computes a kernel whose columns of the populations are those of the Python kernel. -/
theorem c97_lindblad_partial : ∃ kh ke, CKH.build s.si nl false = .ok kh ∧
    CKH.build s.el nl' false = .ok ke ∧
    (∀ E L, CLindblad.genFct kh E L = Lindblad.genFct (s.si.view nl) E L) ∧
    (∀ E B, ∃ t, CLindbladPh.genFct ke nb E B = .ok t ∧
      ∀ l c b a, l < nb → b ∈ (s.si.view nl).row c → a ∈ (s.si.view nl).row c →
        t l b a = if s.el.getIndDm0 b a c = .ok (-1) then 0 else LindbladPh.jumpAmp E B l b a) ∧
    ∀ E te t symq, ∃ m m', LindbladPh.kernel (s.si.view nl) nb symq E te t = .ok m ∧
      kh.Computes E (CLindbladPh.coup kh nb te t) m' ∧
      ∀ i j, i < s.si.ndm0r → j < s.si.npauli → m'.val i j = m.val i j := by
  obtain ⟨hv, q, r⟩ := elph_ready h hix nl nl'
  have o := q.of false (elems (s.si.view nl) s.si.labOf s.si.labOf.can) (pairs1 (s.si.view nl))
  refine ⟨_, _, q.build, r.build hv,
    fun E L => o.lindblad_fct q.rep.toVMul rfl q.pairs E L, ?_, ?_⟩
  · intro E B
    obtain ⟨t, g, ht⟩ := CLindbladPh.genFct_ok hv r nb E B
    refine ⟨t, g, fun l c b a hl hb ha => ?_⟩
    rw [ht l c b a hl hb ha]
    have e := r.ph.ind0 c b a hb ha
    rw [show s.el.getIndDm0 b a c = _ from e]
    cases s.el.elOf c b a with
    | none => simp
    | some k =>
      rw [if_pos (by rfl), if_neg]
      simp
  · intro E te t symq
    obtain ⟨m', m, g', g, hcol⟩ := pop_columns hv (E := E) (symq := symq)
      (fun c b bp hb hbp hi => CLindbladPh.pcoup_ok hv nb te t hb hbp hi)
      (fun c b bp hb hbp hi => LindbladPh.coup_ok hv nb te t hb hbp hi)
      (fun φ h0 c b bp hb hbp => by
        congr 1
        apply CLindbladPh.S_pop
        intro a ap ha hap hne
        have ha := List.mem_toFinset.1 ha
        have hap := List.mem_toFinset.1 hap
        unfold dens
        split
        · rename_i hi
          have := hv.lab_off c a ap ha hap hne hi
          have hnp := hv.np_le
          rw [h0 _ this.1, h0 _ (show (s.si.view nl).npauli ≤ (s.si.view nl).imag (s.si.labOf.lab c a ap) by
            unfold View.imag; omega)]
          simp [hne]
          rfl
        · rfl)
    obtain ⟨m'', e1, e2⟩ := q.kern (E := E) (ccoup := CLindbladPh.coup _ nb te t)
      (pcoup := CLindbladPh.pcoup (s.si.view nl) nb te t)
      (fun b bp c hb _ => CLindbladPh.coup_eq o q.rep.toVMul nb te t b bp (hv.row_lt hb))
      (fun c b bp hb hbp hi => by
        obtain ⟨ks, a1, a2, _⟩ := CLindbladPh.pcoup_ok hv nb te t hb hbp hi
        exact ⟨ks, a1, a2⟩) symq
    have e1' : (s.si.view nl).assemble (s.si.view nl).ndm0r symq
      ((s.si.view nl).genKern E (CLindbladPh.pcoup (s.si.view nl) nb te t)) = .ok m'' := e1
    rw [g'] at e1'
    cases e1'
    exact ⟨m, m', g, e2, hcol⟩

end

theorem dephBath_rate : 0 < dephBath.rate 0 0 := by
  have he : dephBath.eps = 1 / 1000000 := rfl
  have hb : 0 < bose (1 / 1000000) := by
    unfold bose
    exact one_div_pos.2 (sub_pos.2 (Real.one_lt_exp_iff.2 (by norm_num)))
  have hlo : dephBath.lo 0 < dephBath.eps ∧ dephBath.eps < dephBath.omp 0 / dephBath.T 0 := by
    unfold PhBaths.lo dephBath; norm_num
  have hd : ∀ x, dephBath.dos 0 x = 1 := fun _ => rfl
  have ha : dephBath.alpha 0 0 = dephBath.eps := by
    unfold PhBaths.alpha dephBath; norm_num
  rw [dephBath.rate_eq, ha, if_pos hlo, hd, he]
  have := Real.pi_pos
  positivity

/-- **C97** is false for Lindblad: the compiled class multiplies with `tLbbp[l, bp, a, q]` instead
of `tLbbp[l, bp, ap, q]`. Two degenerate orbitals, no leads, a bath that couples to the two
orbitals with strengths 1/2 and 1 and does not move electrons. The jump amplitudes agree, but
according to the compiled kernel the real part of the coherence between the states 1 and 2
(position 4) changes the total population of the states with one electron (positions 1 and 2).
In the Python kernel it does not. -/
theorem c97_lindblad_false : ∃ s kh ke t m m', ElPhSI.init 2 "charge" = .ok s ∧
    CKH.build s.si 2 false = .ok kh ∧ CKH.build s.el 2 false = .ok ke ∧
    s.si.statesdm = [[0], [1, 2], [3], []] ∧ s.si.getIndDm0 1 1 1 = .ok 1 ∧
    s.si.getIndDm0 2 2 1 = .ok 2 ∧ s.si.getIndDm0 1 2 1 = .ok 4 ∧
    CLindbladPh.genFct ke 1 (fun _ => 0) dephBath = .ok t ∧
    (∀ b a, b ∈ [1, 2] → a ∈ [1, 2] → t 0 b a = LindbladPh.jumpAmp (fun _ => 0) dephBath 0 b a) ∧
    LindbladPh.kernel (s.si.view 2) 1 true (fun _ => 0) (fun _ _ _ => 0) t = .ok m ∧
    kh.Computes (fun _ => 0) (CLindbladPh.coup kh 1 (fun _ _ _ => 0) t) m' ∧
    m.val 1 4 + m.val 2 4 = 0 ∧ 0 < m'.val 1 4 + m'.val 2 4 := by
  have key : (ElPhSI.init 2 "charge" >>= fun s => (.ok (s.si.statesdm, [s.si.npauli, s.si.ndm0],
      [okD (-1) (s.si.getIndDm0 1 1 1), okD (-1) (s.si.getIndDm0 2 2 1),
      okD (-1) (s.si.getIndDm0 1 2 1)], s.si.labOf.can 1 1 2) : Py _)) =
      .ok ([[0], [1, 2], [3], []], [4, 5], [1, 2, 4], true) := by decide +kernel
  obtain ⟨s, h1, h2⟩ := bind_iff.1 key
  simp only [Except.ok.injEq, Prod.mk.injEq, List.cons.injEq, and_true] at h2
  obtain ⟨k1, ⟨k2, k3⟩, ⟨k4, k5, k6⟩, k7⟩ := h2
  obtain ⟨hv, q, r⟩ := elph_ready (ElPhReach.init h1) (by decide) 2 2
  have o := q.of false (elems (s.si.view 2) s.si.labOf s.si.labOf.can) (pairs1 (s.si.view 2))
  have hr : (s.si.view 2).row 1 = [1, 2] := by simp [View.row, DM.view, k1]
  have hR : (s.si.view 2).R 1 = {1, 2} := by unfold View.R; rw [hr]; rfl
  have m1 : 1 ∈ (s.si.view 2).row 1 := by rw [hr]; simp
  have m2 : 2 ∈ (s.si.view 2).row 1 := by rw [hr]; simp
  have ok_of : ∀ {x : Py Int} {k : Int}, k ≠ -1 → okD (-1) x = k → x = .ok k := by
    intro x k hk e
    cases x with
    | ok y => simp only [okD] at e; rw [e]
    | error _ => simp only [okD] at e; exact absurd e.symm hk
  have l1 := ok_of (by decide) k4
  have l2 := ok_of (by decide) k5
  have l3 := ok_of (by decide) k6
  have i12 : s.si.labOf.inc 1 1 2 = true := by simp [DM.labOf, okD, l3]
  have i21 : s.si.labOf.inc 1 2 1 = true := by rw [← hv.inc_symm 1 1 2 m1 m2]; exact i12
  have i11 := hv.inc_diag 1 1 m1
  have i22 := hv.inc_diag 1 2 m2
  have c21 : s.si.labOf.can 1 2 1 = false := by
    rw [hv.can_off 1 1 2 m1 m2 (by decide) i12, k7]; rfl
  have b11 : s.si.labOf.lab 1 1 1 = 1 := by simp [DM.labOf, okD, l1]
  have b22 : s.si.labOf.lab 1 2 2 = 2 := by simp [DM.labOf, okD, l2]
  have b12 : s.si.labOf.lab 1 1 2 = 4 := by simp [DM.labOf, okD, l3]
  have b21 : s.si.labOf.lab 1 2 1 = 4 := by rw [← hv.lab_symm 1 1 2 m1 m2 i12]; exact b12
  have np : (s.si.view 2).npauli = 4 := k2
  have n0 : (s.si.view 2).ndm0 = 5 := k3
  have im4 : (s.si.view 2).imag 4 = 5 := by unfold View.imag; rw [np, n0]
  have nr : (s.si.view 2).ndm0r = 6 := by rw [hv.ndm0r, np, n0]
  -- the state
  obtain ⟨φ, hφ⟩ : ∃ φ : Nat → ℝ, φ = fun k => if k = 4 then 1 else 0 := ⟨_, rfl⟩
  have d11 : dens (s.si.view 2) s.si.labOf φ 1 1 1 = 0 := by
    simp [dens, i11, b11, hφ]; rfl
  have d22 : dens (s.si.view 2) s.si.labOf φ 1 2 2 = 0 := by
    simp [dens, i22, b22, hφ]; rfl
  have d12 : dens (s.si.view 2) s.si.labOf φ 1 1 2 = 1 := by
    simp [dens, i12, b12, im4, hφ]; rfl
  have d21 : dens (s.si.view 2) s.si.labOf φ 1 2 1 = 1 := by
    simp [dens, i21, b21, im4, hφ]; rfl
  -- the amplitudes
  obtain ⟨t, gt, ht⟩ := CLindbladPh.genFct_ok hv r 1 (fun _ => 0) dephBath
  have v11 : dephBath.V 0 1 1 = 1 / 2 := by simp [dephBath]
  have v22 : dephBath.V 0 2 2 = 1 := by simp [dephBath]
  have v12 : dephBath.V 0 1 2 = 0 := by simp [dephBath]
  have v21 : dephBath.V 0 2 1 = 0 := by simp [dephBath]
  obtain ⟨x, hx⟩ : ∃ x : ℝ, x = Real.sqrt (0.5 * dephBath.rate 0 0) := ⟨_, rfl⟩
  have hx0 : 0 < x := by
    rw [hx]; apply Real.sqrt_pos.2; have := dephBath_rate; linarith
  have j12 : LindbladPh.jumpAmp (fun _ => 0) dephBath 0 1 2 = 0 := by
    unfold LindbladPh.jumpAmp
    rw [if_neg (by decide), v12, v21]; simp
  have j21 : LindbladPh.jumpAmp (fun _ => 0) dephBath 0 2 1 = 0 := by
    unfold LindbladPh.jumpAmp
    rw [if_neg (by decide), v12, v21]; simp
  have j11 : LindbladPh.jumpAmp (fun _ => 0) dephBath 0 1 1 = (((x / 2 : ℝ) : ℂ), ((x / 2 : ℝ) : ℂ)) := by
    unfold LindbladPh.jumpAmp
    rw [if_pos rfl, v11, ← hx]
    rw [show (x : ℂ) * (1 / 2) = ((x / 2 : ℝ) : ℂ) by push_cast; ring, Complex.conj_ofReal]
  have j22 : LindbladPh.jumpAmp (fun _ => 0) dephBath 0 2 2 = ((x : ℂ), (x : ℂ)) := by
    unfold LindbladPh.jumpAmp
    rw [if_pos rfl, v22, ← hx, mul_one, Complex.conj_ofReal]
  have t11 : t 0 1 1 = (((x / 2 : ℝ) : ℂ), ((x / 2 : ℝ) : ℂ)) := by
    rw [ht 0 1 1 1 one_pos m1 m1, if_pos (r.ph.diag 1 1 m1), j11]
  have t22 : t 0 2 2 = ((x : ℂ), (x : ℂ)) := by
    rw [ht 0 1 2 2 one_pos m2 m2, if_pos (r.ph.diag 1 2 m2), j22]
  have t12 : t 0 1 2 = 0 := by rw [ht 0 1 1 2 one_pos m1 m2, j12]; simp
  have t21 : t 0 2 1 = 0 := by rw [ht 0 1 2 1 one_pos m2 m1, j21]; simp
  -- the kernels
  obtain ⟨m, g, hc, _, rows⟩ := assemble_rows hv true (fun _ => 0)
    (LindbladPh.coup (s.si.view 2) 1 (fun _ _ _ => 0) t) _
    (fun c b bp hb hbp hi => LindbladPh.coup_ok hv 1 _ t hb hbp hi)
  obtain ⟨m', g', hc', _, rows'⟩ := assemble_rows hv true (fun _ => 0)
    (CLindbladPh.pcoup (s.si.view 2) 1 (fun _ _ _ => 0) t) _
    (fun c b bp hb hbp hi => CLindbladPh.pcoup_ok hv 1 _ t hb hbp hi)
  obtain ⟨m'', e1, e2⟩ := q.kern (E := fun _ => 0) (ccoup := CLindbladPh.coup _ 1 (fun _ _ _ => 0) t)
    (pcoup := CLindbladPh.pcoup (s.si.view 2) 1 (fun _ _ _ => 0) t)
    (fun b bp c hb _ => CLindbladPh.coup_eq o q.rep.toVMul 1 _ t b bp (hv.row_lt hb))
    (fun c b bp hb hbp hi => by
      obtain ⟨ks, a1, a2, _⟩ := CLindbladPh.pcoup_ok hv 1 (fun _ _ _ => 0) t hb hbp hi
      exact ⟨ks, a1, a2⟩) true
  have e1' : (s.si.view 2).assemble (s.si.view 2).ndm0r true
    ((s.si.view 2).genKern (fun _ => 0) (CLindbladPh.pcoup (s.si.view 2) 1 (fun _ _ _ => 0) t))
      = .ok m'' := e1
  rw [g'] at e1'
  cases e1'
  have SL : ∀ ρ c b bp, Lindblad.S (s.si.view 2) (fun _ _ _ => 0) ρ c b bp = 0 := by
    intro ρ c b bp
    simp [Lindblad.S, Lindblad.K]
  have K12 : LindbladPh.K (s.si.view 2) 1 t 1 1 2 = 0 := by
    unfold LindbladPh.K; rw [hR]; simp [t12, t21]
  have K21 : LindbladPh.K (s.si.view 2) 1 t 1 2 1 = 0 := by
    unfold LindbladPh.K; rw [hR]; simp [t12, t21]
  have sum2 : ∀ F : Nat → ℂ, ∑ a ∈ ({1, 2} : Finset Nat), F a = F 1 + F 2 := by
    intro F; exact sum_pair (by decide)
  have p1 : (1, 1) ∈ combsR2 ((s.si.view 2).row 1) := by rw [hr]; decide
  have p2 : (2, 2) ∈ combsR2 ((s.si.view 2).row 1) := by rw [hr]; decide
  have a1 : m.val 1 4 = 0 := by
    have := (rows φ 1 1 1 p1 i11).1
    rw [b11, SL] at this
    rw [m.val_eq_app (by rw [hc, nr]; omega), ← hφ, this]
    unfold LindbladPh.S LindbladPh.J
    simp only [hR, sum2, d11, d12, d21, d22, K12, K21, sum_range_one, t11, t12]
    simp
  have a2 : m.val 2 4 = 0 := by
    have := (rows φ 1 2 2 p2 i22).1
    rw [b22, SL] at this
    rw [m.val_eq_app (by rw [hc, nr]; omega), ← hφ, this]
    unfold LindbladPh.S LindbladPh.J
    simp only [hR, sum2, d11, d12, d21, d22, K12, K21, sum_range_one, t22, t21]
    simp
  have a1' : m'.val 1 4 = x * x / 2 := by
    have := (rows' φ 1 1 1 p1 i11).1
    rw [b11, SL] at this
    rw [m'.val_eq_app (by rw [hc', nr]; omega), ← hφ, this]
    unfold CLindbladPh.S CLindbladPh.J
    simp only [hR, sum2, d11, d12, d21, d22, K12, K21, sum_range_one, t11, t12]
    simp only [Complex.conj_ofReal, ← Complex.ofReal_mul, ← Complex.ofReal_add]
    simp [-Complex.ofReal_div, -Complex.ofReal_mul, -Complex.ofReal_add]
    ring
  have a2' : m'.val 2 4 = 2 * (x * x) := by
    have := (rows' φ 1 2 2 p2 i22).1
    rw [b22, SL] at this
    rw [m'.val_eq_app (by rw [hc', nr]; omega), ← hφ, this]
    unfold CLindbladPh.S CLindbladPh.J
    simp only [hR, sum2, d11, d12, d21, d22, K12, K21, sum_range_one, t22, t21]
    simp only [Complex.conj_ofReal, ← Complex.ofReal_mul, ← Complex.ofReal_add]
    simp [-Complex.ofReal_div, -Complex.ofReal_mul, -Complex.ofReal_add]
    ring
  refine ⟨s, _, _, t, m, m', h1, q.build, r.build hv, k1, l1, l2, l3, gt, ?_, g, e2, by rw [a1, a2, add_zero], ?_⟩
  · intro b a hb ha
    simp only [List.mem_cons, List.not_mem_nil, or_false] at hb ha
    rcases hb with rfl | rfl <;> rcases ha with rfl | rfl
    · rw [t11, j11]
    · rw [t12, j12]
    · rw [t21, j21]
    · rw [t22, j22]
  · rw [a1', a2']
    positivity

/-- A builder that meets the hypotheses of the theorems: two orbitals, 'charge' indexing. -/
example : ∃ s, ElPhReach 2 "charge" s true ∧ chooseIndexing 2 "charge" ≠ .ssq ∧
    ∃ kh ke, CKH.build s.si 2 false = .ok kh ∧ CKH.build s.el 2 false = .ok ke ∧
      ∀ E T f V w, ∃ m, VN1Ph.kernel (s.si.view 2) (s.el.view 2) 1 true E T f V w = .ok m ∧
        kh.Computes E (CVN1Ph.coup kh ke 1 T f V w) m := by
  obtain ⟨s, _, _, _, _, _, h1, _⟩ := c97_lindblad_false
  obtain ⟨kh, ke, b1, b2, _, _, a, _⟩ := c97_vn1 (ElPhReach.init h1) (by decide) 2 2 1
  exact ⟨s, ElPhReach.init h1, by decide, kh, ke, b1, b2, fun E T f V w => a E T f V w true⟩

end

end Verif
