import Verif.Lemmas.EigStates
import Verif.Spec.SameIndexing
import Verif.Props.SystemSsq

/-! C81: with `symmetry='spin'`, 'ssq' and 'charge' indexing give the same results for the same parameters. -/

namespace Verif
open Verif.Spec Matrix
open scoped ComplexConjugate

variable {n : Nat}

noncomputable section

section
variable {v w : View} {la la' : Lab} {uni : Nat → Nat → Nat → Bool} {Z Q A : Nat → Int} (h : MultLab v la uni Z Q A)
  (hw : VOk w la') (hs : SameStates v w la la') {E E' : Nat → ℝ} {U : Nat → Nat → ℂ} (hB : EigenbasisTo w la' E E' U)

include h hw hs hB in
/-- One unknown per multiplet, then other eigenstates. -/
theorem SameReduced.trans {m m1 m' : Mat} {cur cur1 cur' : Vec → Py (List CEv)}
    (h1 : SameReduced v w la la' Z Q A m m1 cur cur1) (h2 : SameUpTo w la' U m1 m' cur1 cur') :
    SameSystem v w la la' U m m' cur cur' := by
  have conv : ∀ {f : Nat → ℝ} {g : Nat → ℝ} {ρ' : Nat → Nat → Nat → ℂ}, SameDens v w la la' f g →
      (NewDens w U (dens v la f) ρ' ↔ NewDens w U (dens w la' g) ρ') := by
    intro f g ρ' hd
    have e : ∀ q b bp, rot (w.row q).toFinset U (dens w la' g q) b bp = rot (w.row q).toFinset U (dens v la f q) b bp := by
      intro q b bp
      refine rot_congr b bp fun y hy yp hyp _ _ => ?_
      exact hd q y ((hs.row q y).1 (List.mem_toFinset.1 hy)) yp ((hs.row q yp).1 (List.mem_toFinset.1 hyp))
    constructor
    · intro k q b hb bp hbp
      rw [k q b hb bp hbp, e]
    · intro k q b hb bp hbp
      rw [k q b hb bp hbp, e]
  refine ⟨?_, ?_, ?_, ?_, ?_, ?_⟩
  · intro φ
    obtain ⟨φ1, -, h3⟩ := h1.exist φ
    obtain ⟨φ', h4, h5⟩ := h2.exist φ1
    exact ⟨φ', h4, (conv h3).2 h5⟩
  · intro φ χ φ' k1 k2
    refine (h.toVRep.dens_ext).1 fun q y hy yp hyp => ?_
    have z : ∀ b ∈ w.row q, ∀ bp ∈ w.row q, rot (w.row q).toFinset U
        (fun y yp => dens v la φ.val q y yp + (-1) * dens v la χ.val q y yp) b bp = 0 := by
      intro b hb bp hbp
      rw [rot_add, rot_smul, ← k1 q b hb bp hbp, ← k2 q b hb bp hbp]
      ring
    have := rot_zero hB z ((hs.row q y).2 hy) ((hs.row q yp).2 hyp)
    linear_combination this
  · intro φ φ' k
    obtain ⟨φ1, -, h3⟩ := h1.exist φ
    exact (conv (h1.step φ φ1 h3)).2 (h2.step φ1 φ' ((conv h3).1 k))
  · intro φ φ' k
    obtain ⟨φ1, -, h3⟩ := h1.exist φ
    exact (h1.zero φ φ1 h3).trans (h2.zero φ1 φ' ((conv h3).1 k))
  · obtain ⟨nv, nw, g1, g2, g3⟩ := h1.norm
    refine ⟨nv, nw, g1, g2, fun φ φ' k => ?_⟩
    obtain ⟨φ1, -, h3⟩ := h1.exist φ
    rw [g3 φ φ1 h3]
    have hle : w.npauli ≤ w.ndm0r := by have := hw.np_le; have := hw.ndm0r; omega
    obtain ⟨x, g, -, e⟩ := genNormVec_ok hw w.ndm0r hle
    cases Except.ok.inj (g2.symm.trans g)
    have key : ∀ f : Nat → ℝ, ∑ i ∈ Finset.range w.ndm0r, nw.val i * f i = ∑ i ∈ Finset.range w.npauli, f i := by
      intro f
      simp only [e, ite_mul, one_mul, zero_mul]
      rw [← Finset.sum_filter]
      refine Finset.sum_congr ?_ fun _ _ => rfl
      ext i
      simp only [Finset.mem_filter, Finset.mem_range]
      omega
    rw [key, key, h2.trace φ1 φ' ((conv h3).1 k)]
  · intro φ φ' s1 s2 k
    obtain ⟨φ1, s3, h3⟩ := h1.exist φ
    obtain ⟨evs, evs1, g1, g2, g3⟩ := h1.cur φ φ1 s1 s3 h3
    obtain ⟨evs1', evs', g4, g5, g6⟩ := h2.cur φ1 φ' s3 s2 ((conv h3).1 k)
    cases Except.ok.inj (g2.symm.trans g4)
    refine ⟨evs, evs', g1, g5, fun l hl => ?_⟩
    have hl' : l < w.nleads := by rw [hs.nleads]; exact hl
    rw [(g6 l hl').1, (g6 l hl').2]
    exact g3 l hl

end

/-! ### The quantum dot with 'charge' indexing -/

/-- 'ssq' and 'charge' indexing number the states of a charge by the same range. -/
theorem chargelst_same {si si' : SI} (hev : n % 2 = 0) (hsi : SI.init n "ssq" = .ok si) (hsi' : SI.init n "charge" = .ok si') :
    si.chargelst = si'.chargelst := by
  obtain ⟨s, h1, hinv, hch, hr⟩ := init_inv n "ssq"
  obtain ⟨s', h1', hinv', hch', hr'⟩ := init_inv n "charge"
  cases Except.ok.inj (hsi.symm.trans h1)
  cases Except.ok.inj (hsi'.symm.trans h1')
  rw [(hinv.sz (.inr (by rw [hch]; simp [chooseIndexing, hev]))).2.2.2.2.2,
    (hinv'.ch (by rw [hch']; simp [chooseIndexing])).2.2, hr, hr']

/-- The dot with 'charge' indexing is constructed and diagonalised. -/
theorem charge_states {si : SI} (hn : 1 ≤ n) (hsi : SI.init n "charge" = .ok si) {eigh : Eigh} (he : EighOk eigh)
    {nss : Option Nat} {hermHs hermC mLessN : Bool} (hamSsqQ : Bool) {hs0 : Param (Nat × Nat)} {cs0 : CoulombArg}
    (hs : List ((Fin n × Fin n) × ℂ)) (cs : List ((Fin n × Fin n × Fin n × Fin n) × ℂ))
    (hhs : makeHsingleDict nss hermHs hs0 false = hopKeys hs) (hcs : makeCoulombDict nss hermC mLessN cs0 = coulKeys cs)
    (hH : (hopOp hermHs hs + coulOp hermC mLessN cs)ᴴ = hopOp hermHs hs + coulOp hermC mLessN cs) :
    ∃ qd vals vecs Ea P ψ, QD.init si nss hermHs hermC mLessN hamSsqQ hs0 cs0 = .ok qd ∧
      qd.diagonalise eigh = .ok (vals, .charge vecs, Ea) ∧
      (∀ c ≤ n, ∃ m, vecs[c]? = some m ∧ m.dims = [(chargeRow si c).length, (chargeRow si c).length]) ∧
      constructFullPmtr si (.charge vecs) = .ok P ∧
      (∀ a b (s : Occ n), b < 2 ^ n → si.getState (a : Nat) = .ok (ofOcc s) → P.val [a, b] = ψ b s) ∧
      EigStates (fun c => if c ≤ n then chargeRow si c else []) (hopOp hermHs hs + coulOp hermC mLessN cs) ψ (enOf Ea) := by
  obtain ⟨s, h1, hinv, hch, hrem⟩ := init_inv n "charge"
  cases Except.ok.inj (hsi.symm.trans h1)
  have hix : si.indexing = .charge := by rw [hch]; simp [chooseIndexing]
  have hc : Consistent n si := consistent_of_inv hn hinv
  have hN : si.nmany = 2 ^ n := by rw [← hinv.ilen]; exact nmany_init hinv hrem
  have hr : ReachedSI n si := ⟨"charge", [], by unfold SI.run; rw [hsi]; rfl, by simp, .inl rfl⟩
  have hrow : ∀ c ≤ n, ∀ l, si.getLst (some (c : Int)) none none = .ok (some l) → l = chargeRow si c := by
    intro c hcn l hl
    unfold SI.getLst at hl
    simp only [(hinv.chargeRow_ok hcn).1, py_bind_ok, py_pure] at hl
    exact (Option.some.inj (Except.ok.inj hl)).symm
  have blk : ∀ c, ∃ M : Arr, c ≤ n → (∃ lst, si.getLst (some (c : Int)) none none = .ok (some lst) ∧
      ∃ M1, constructHamCoulomb si hermC mLessN (coulKeys cs) lst none = .ok M1 ∧
        constructHamHopping si hermHs (hopKeys hs) lst (some M1) = .ok M) ∧
      M.dims = [(chargeRow si c).length, (chargeRow si c).length] ∧
      ∀ p q (hp : p < (chargeRow si c).length) (hq : q < (chargeRow si c).length) (s' s : Occ n),
        si.getState ((chargeRow si c)[p] : Nat) = .ok (ofOcc s') →
        si.getState ((chargeRow si c)[q] : Nat) = .ok (ofOcc s) →
        M.val [p, q] = (hopOp hermHs hs + coulOp hermC mLessN cs) s' s := by
    intro c
    by_cases hcn : c ≤ n
    swap
    · exact ⟨Arr.zeros [], fun h => absurd h hcn⟩
    obtain ⟨lst, g1, g2⟩ := closed_charge hc c hcn
    obtain ⟨M1, k1, k2, k3⟩ := c11_list hc hermC mLessN cs SameCharge
      (fun m p k l _ s a b c d e f => count_coul m p k l s a b c d e f) lst g2 none (by simp)
    obtain ⟨M2, m1, m2, m3⟩ := c10_list hc hermHs hs SameCharge
      (fun e _ s a b c => count_hop s a b c) lst g2 (some M1) (by rintro a ⟨⟩; exact k2)
    cases hrow c hcn lst g1
    refine ⟨M2, fun _ => ⟨⟨_, g1, M1, k1, m1⟩, m2, ?_⟩⟩
    intro p q hp hq s' s hs' hs1
    rw [m3 p q hp hq s' s hs' hs1]
    simp only [Option.elim_some]
    rw [k3 p q hp hq s' s hs' hs1]
    simp only [Option.elim_none, zero_add, Matrix.add_apply]
    rw [add_comm]
  choose ham hham using blk
  obtain ⟨qd, hqd⟩ : ∃ qd, QD.init si nss hermHs hermC mLessN hamSsqQ hs0 cs0 = .ok qd := by
    refine blocks_progress _ _ _ (hamSectors_nodup _ _) _ ?_
    intro b hb
    simp only [hamSectors, List.mem_flatMap, hinv.ncharge, List.mem_range, hix, List.mem_cons, List.not_mem_nil,
      or_false] at hb
    obtain ⟨c, hcn, rfl⟩ := hb
    obtain ⟨⟨lst, g1, M1, k1, m1⟩, -⟩ := hham c (by omega)
    refine ⟨ham c, ?_⟩
    unfold QD.hamBlock
    simp only [g1, hhs, hcs, py_bind_ok, k1, m1]
  obtain ⟨inv, s1, s2, s3, s4, s5, s6⟩ := init_inv' hqd
  obtain ⟨e0, -, -⟩ := (blocks_iff _ _ _ (hamSectors_nodup _ _) _ _).1 hqd
  have e1 : qd.hsingle = hopKeys hs := by rw [e0]; exact hhs
  have e2 : qd.coulomb = coulKeys cs := by rw [e0]; exact hcs
  obtain ⟨st, hf⟩ := hc.full
  have hHerm : ∀ s' s, (hopOp hermHs hs + coulOp hermC mLessN cs) s s' =
      conj ((hopOp hermHs hs + coulOp hermC mLessN cs) s' s) := by
    intro s' s
    conv_lhs => rw [← hH]
    rw [Matrix.conjTranspose_apply]
    rfl
  have hlt : ∀ {c b}, c ≤ n → b ∈ chargeRow si c → b < si.nmany := by
    intro c b hcn hb
    rw [← hinv.ilen]
    exact (((hinv.chargeRow_ok hcn).2.2 b).1 hb).1
  obtain ⟨vals, vecs, Ea, P, f1, f2, f3, f4⟩ := c54_charge (n := n) (qd := qd) (by rw [s1]; exact hr)
    (by rw [s1]; exact .inr hix) he ham (by
      rw [s1]
      intro c hcn
      obtain ⟨⟨lst, g1, M1, k1, m1⟩, d1, v1⟩ := hham c hcn
      obtain ⟨M, u1, u2⟩ := inv.blocks (c, none, 0) (by
        rw [s1, hamSectors, List.mem_flatMap]
        exact ⟨c, by rw [hinv.ncharge, List.mem_range]; omega, by simp [hix]⟩)
      have hM : M = ham c := by
        unfold QD.hamBlock at u2
        simp only [s1, g1, s3, s4, s5, e1, e2, py_bind_ok, k1, m1] at u2
        exact (Except.ok.inj u2).symm
      subst hM
      refine ⟨u1, d1, ?_⟩
      intro i j hi hj
      have gi := hf.get _ (hlt hcn (List.getElem_mem hi))
      have gj := hf.get _ (hlt hcn (List.getElem_mem hj))
      rw [v1 j i hj hi _ _ gj gi, v1 i j hi hj _ _ gi gj, hHerm])
  rw [s1] at f2 f3 f4
  have D := f4 (Arr.ofMat si.nmany si.nmany fun b a => if b < si.nmany ∧ a < si.nmany then
      (hopOp hermHs hs + coulOp hermC mLessN cs) (st b) (st a) else 0) (by
    refine ⟨Arr.ofMat_dims _ _ _, ?_, ?_⟩
    · intro c hcm i j hi hj
      have hcn : c ≤ n := by rw [List.mem_range] at hcm; omega
      have x1 := hlt hcn (List.getElem_mem hi)
      have x2 := hlt hcn (List.getElem_mem hj)
      show (if _ then _ else _) = _
      rw [if_pos ⟨x1, x2⟩, (hham c hcn).2.2 i j hi hj _ _ (hf.get _ x1) (hf.get _ x2)]
    · intro b a hba
      show (if _ then _ else _) = _
      by_cases hin : b < si.nmany ∧ a < si.nmany
      swap
      · rw [if_neg hin]
      rw [if_pos hin]
      obtain ⟨xb, yb⟩ := hinv.state_charge (hf.get b hin.1)
      obtain ⟨xa, ya⟩ := hinv.state_charge (hf.get a hin.2)
      rw [ofOcc_sum] at ya yb
      have hne : Occ.count (st b) ≠ Occ.count (st a) := by
        intro he
        refine hba ⟨Occ.count (st a), ?_, ?_, ?_⟩
        · rw [List.mem_range, ← ya]
          have := charge_le (hinv.ilt xa)
          omega
        · exact ((hinv.chargeRow_ok (by rw [← he, ← yb]; exact charge_le (hinv.ilt xb))).2.2 b).2 ⟨xb, by rw [yb, he]⟩
        · exact ((hinv.chargeRow_ok (by rw [← ya]; exact charge_le (hinv.ilt xa))).2.2 a).2 ⟨xa, ya⟩
      have h1 : hopOp hermHs hs (st b) (st a) = 0 := by
        by_contra h; exact hne (hopOp_count _ _ _ _ h)
      have h2 : coulOp hermC mLessN cs (st b) (st a) = 0 := by
        by_contra h; exact hne (coulOp_count _ _ _ _ _ h)
      rw [Matrix.add_apply, h1, h2, add_zero])
  have hinj : ∀ a b, a < si.nmany → b < si.nmany → st a = st b → a = b := by
    intro a b ha hb e
    rcases hf.has (st b) with ⟨_, h2⟩ | ⟨c, _, _, h3⟩
    · exact absurd rfl (h2 b hb)
    · rw [(h3 a ha).1 e, (h3 b hb).1 rfl]
  have hψ : ∀ a b, a < si.nmany →
      (∑ x ∈ Finset.range si.nmany, if st x = st a then P.val [x, b] else 0) = P.val [a, b] := by
    intro a b ha
    rw [Finset.sum_eq_single a]
    · rw [if_pos rfl]
    · intro x hx hxa
      exact if_neg fun e => hxa (hinj x a (Finset.mem_range.1 hx) ha e)
    · intro h
      exact absurd (Finset.mem_range.2 ha) h
  have hsum : ∀ f : Occ n → ℂ, ∑ p ∈ Finset.range si.nmany, f (st p) = ∑ s, f s := full_bij hf hN
  have hex : ∀ s : Occ n, ∃ a < si.nmany, st a = s := by
    intro s
    by_contra hno
    push Not at hno
    have := hsum fun u => if u = s then 1 else 0
    rw [Finset.sum_eq_zero (fun p hp => if_neg (hno p (Finset.mem_range.1 hp)))] at this
    simp at this
  obtain ⟨Q, q1, q2⟩ := pmtr_charge hinv (.inr hix) f2
  cases Except.ok.inj (q1.symm.trans f3)
  refine ⟨qd, vals, vecs, Ea, P, fun b s => ∑ x ∈ Finset.range si.nmany, if st x = s then P.val [x, b] else 0, hqd, f1, f2,
    f3, ?_, ?_, ?_, ?_⟩
  · intro a b s hb hs
    obtain ⟨xa, -⟩ := hinv.state_charge hs
    have ha : a < si.nmany := by rw [← hinv.ilen]; exact xa
    have : s = st a := ofOcc_injective (Except.ok.inj (hs.symm.trans (hf.get a ha)))
    subst this
    exact (hψ a b ha).symm
  · intro a b ha hb
    rw [← D.unitary a b (by rw [hN]; exact ha) (by rw [hN]; exact hb), ip_eq_sum, ← hsum]
    refine Finset.sum_congr rfl fun x hx => ?_
    rw [hψ x a (Finset.mem_range.1 hx), hψ x b (Finset.mem_range.1 hx)]
  · intro b hb
    funext s
    obtain ⟨a, ha, rfl⟩ := hex s
    have hbE : Ea[b]? = some (enOf Ea b) := by
      have : b < Ea.length := by rw [D.length, hN]; exact hb
      rw [enOf, List.getD_eq_getElem?_getD, List.getElem?_eq_getElem this]
      rfl
    have := D.eigen a b _ ha hbE
    rw [Pi.smul_apply, hψ a b ha, smul_eq_mul, mul_comm, ← this, Matrix.mulVec, dotProduct, ← hsum]
    refine Finset.sum_congr rfl fun x hx => ?_
    have hx := Finset.mem_range.1 hx
    rw [hψ x b hx]
    congr 1
    exact (if_pos ⟨ha, hx⟩).symm
  · intro c b hb s hne
    obtain ⟨a, ha, rfl⟩ := hex s
    rw [hψ a b ha] at hne
    by_cases hcn : c ≤ n
    swap
    · rw [if_neg hcn] at hb
      simp at hb
    rw [if_pos hcn] at hb
    by_contra hcne
    refine hne (q2.outside a b ?_)
    rintro ⟨c', hc', h3, h4⟩
    have hc'n : c' ≤ n := by rw [List.mem_range] at hc'; omega
    obtain ⟨_, x1⟩ := ((hinv.chargeRow_ok hc'n).2.2 a).1 h3
    obtain ⟨_, x2⟩ := ((hinv.chargeRow_ok hc'n).2.2 b).1 h4
    obtain ⟨_, x3⟩ := ((hinv.chargeRow_ok hcn).2.2 b).1 hb
    obtain ⟨_, x4⟩ := hinv.state_charge (hf.get a ha)
    rw [ofOcc_sum] at x4
    omega

/-! ### The two calculations -/

theorem mem_considered {S : List (List Nat)} {c b : Nat} : Considered n S c b ↔ c ≤ n ∧ b ∈ rowOf S c := Iff.rfl

/-- The lists of states by charge contain whole multiplets. -/
theorem chargelst_complete {si : SI} (hsi : SIInv n si) (hix : si.indexing = .ssq) {ix : String} {d : DM}
    {S : List (List Nat)} (h : Reach .dm n ix d S) (hixd : d.si.indexing = .ssq) : Complete n d.si si.chargelst := by
  obtain ⟨hi, hk, _⟩ := h.inv
  obtain ⟨k, ⟨s, hs, e⟩, _⟩ := hi.si
  have q2 : d.si.indQn = s.indQn := by rw [e]
  have q3 : s.indexing = .ssq := by rw [e] at hixd; exact hixd
  have q4 : ∀ b, d.si.indQn.get? b = si.indQn.get? b := fun b => by rw [q2, ssq_qn_eq hs q3 hsi hix b]
  have e1 : d.si.spinZ = si.spinZ := by funext b; unfold SI.spinZ; rw [q4]
  have e2 : d.si.spinS = si.spinS := by funext b; unfold SI.spinS; rw [q4]
  have e3 : d.si.multNo = si.multNo := by funext b; unfold SI.multNo; rw [q4]
  intro c b hcb
  obtain ⟨h1, h2⟩ := mem_considered.1 hcb
  obtain ⟨g1, -, g3⟩ := hsi.ssq_mult hix h1 h2
  rw [q4, e1, e2, e3]
  refine ⟨g1, fun z hz => ?_⟩
  obtain ⟨b', f1, f2⟩ := g3 z hz
  exact ⟨b', mem_considered.2 ⟨h1, f1⟩, by rw [q4]; exact f2⟩

/-- **C81**: for all parameters of the dot and of the tunnelling given for one spin with `symmetry='spin'`, all steps of
both calculations succeed, with 'ssq' indexing and with 'charge' indexing, each with its own routine for the
eigenvectors. The eigenstates of the two are connected by a unitary matrix `U`, and the equations and currents of 1vN,
Redfield and Lindblad say the same about every density matrix that is the same for all projections of a spin. -/
theorem c81_indexing {si si' : SI} (hn : 1 ≤ n) (hev : n % 2 = 0) (hsi : SI.init n "ssq" = .ok si)
    (hsi' : SI.init n "charge" = .ok si') {eigh eigh' : Eigh} (he : EighReal eigh) (he' : EighOk eigh')
    {hermC mLessN : Bool} (hamSsqQ hamSsqQ' : Bool) {hs : Param (Nat × Nat)} {cs : CoulombArg}
    (h : SpinInput n true hermC mLessN hs cs) (hr : RealInput hermC mLessN hs cs)
    {k : Nat} {ts0 : Param (Nat × Nat)} (hv : ts0.Valid)
    (hk : ∀ x ∈ (makeTleadsDict none ts0 false).map Prod.fst, x.1 < k ∧ x.2 < n / 2) :
    ∃ qd lt vals vecs Ea T qd' lt' vals' vecs' Ea' T' U,
      QD.init si (some (n / 2)) true hermC mLessN hamSsqQ hs cs = .ok qd ∧
      LeadsTun.init si (2 * k) (some (k, n / 2)) ts0 = .ok lt ∧
      qd.diagonalise eigh = .ok (vals, .ssq vecs, Ea) ∧ rotateTba si (2 * k) lt.tba0 (.ssq vecs) none = .ok T ∧
      QD.init si' (some (n / 2)) true hermC mLessN hamSsqQ' hs cs = .ok qd' ∧
      LeadsTun.init si' (2 * k) (some (k, n / 2)) ts0 = .ok lt' ∧
      qd'.diagonalise eigh' = .ok (vals', .charge vecs', Ea') ∧
      rotateTba si' (2 * k) lt'.tba0 (.charge vecs') none = .ok T' ∧
      ∀ {d d' : DM} {L L' : Leads} {v w : View} {E E' : Nat → ℝ},
        Reach .dm n "ssq" d si.chargelst → Reach .dm n "charge" d' si'.chargelst →
        L.Tba = tbaOf (2 * k) (2 ^ n) T → L' = { L with Tba := tbaOf (2 * k) (2 ^ n) T' } → SameLeads L k →
        v = d.view (2 * k) → w = d'.view (2 * k) → (E = fun b => Ea.getD b 0) → (E' = fun b => Ea'.getD b 0) →
        EigenbasisTo w d'.labOf E E' U ∧ ∀ (symq : Bool) (lib : NumLib),
        (∃ f f' m m', genFct1vN v lib E L = .ok f ∧ genFct1vN w lib E' L' = .ok f' ∧
          VN1.kernel v symq E L.Tba f = .ok m ∧ VN1.kernel w symq E' L'.Tba f' = .ok m' ∧
          SameSystem v w d.labOf d'.labOf U m m'
            (fun φ => List.map (·.ev) <$> VN1.genCurrent v L.Tba f φ)
            (fun φ => List.map (·.ev) <$> VN1.genCurrent w L'.Tba f' φ)) ∧
        (∃ f f' m m', genFct1vN v lib E L = .ok f ∧ genFct1vN w lib E' L' = .ok f' ∧
          Redfield.kernel v symq E L.Tba f = .ok m ∧ Redfield.kernel w symq E' L'.Tba f' = .ok m' ∧
          SameSystem v w d.labOf d'.labOf U m m'
            (fun φ => List.map (·.ev) <$> Redfield.genCurrent v L.Tba f φ)
            (fun φ => List.map (·.ev) <$> Redfield.genCurrent w L'.Tba f' φ)) ∧
        ∃ t t' m m', Lindblad.genFct v E L = .ok t ∧ Lindblad.genFct w E' L' = .ok t' ∧
          Lindblad.kernel v symq E t = .ok m ∧ Lindblad.kernel w symq E' t' = .ok m' ∧
          SameSystem v w d.labOf d'.labOf U m m' (Lindblad.genCurrent v E t) (Lindblad.genCurrent w E' t') := by
  obtain ⟨qd, H, C, vals, vecs, Ea, P, ψ, a1, a2, a3, a4, a5, a6, -, -, a7, a8, a9⟩ :=
    c76_spin hn hev hsi he hamSsqQ h hr
  have eq := (init_inv' a1).2.1
  rw [eq] at a5 a6
  obtain ⟨e0, -, -⟩ := (blocks_iff _ _ _ (hamSectors_nodup _ _) _ _).1 a1
  have h1 : makeHsingleDict (some (n / 2)) true hs false = hopKeys H := by rw [← a2, e0]
  have h2 : makeCoulombDict (some (n / 2)) hermC mLessN cs = coulKeys C := by rw [← a3, e0]
  obtain ⟨qd', vals', vecs', Ea', P', ψ', b1, b2, b3, b4, b5, b6⟩ :=
    charge_states hn hsi' he' hamSsqQ' H C h1 h2 a8.herm
  obtain ⟨ts, t1, t2, t3⟩ := c79_tleads (n := n) hv hk
  obtain ⟨T0, T, c1, c2, c3, c4⟩ := c79_symm hn hev hsi a9 a5 a6 a7 t2 t3
  obtain ⟨s, i1, hinv, hch, hrem⟩ := init_inv n "ssq"
  cases Except.ok.inj (hsi.symm.trans i1)
  obtain ⟨s', i1', hinv', hch', hrem'⟩ := init_inv n "charge"
  cases Except.ok.inj (hsi'.symm.trans i1')
  have hix : si.indexing = .ssq := by rw [hch]; simp [chooseIndexing, hev]
  have hix' : si'.indexing = .charge := by rw [hch']; simp [chooseIndexing]
  have hc' : Consistent n si' := consistent_of_inv hn hinv'
  have hN' : si'.nmany = 2 ^ n := by rw [← hinv'.ilen]; exact nmany_init hinv' hrem'
  have hr' : ReachedSI n si' := ⟨"charge", [], by unfold SI.run; rw [hsi']; rfl, by simp, .inl rfl⟩
  have arr : ∀ {x : SI}, x.nsingle = n → ∃ a, makeTleadsArray (2 * k) x.nsingle (tunKeys ts) = .ok a := by
    intro x hx
    refine tleadsArray_ok (tunKeys ts) ?_
    intro e he
    obtain ⟨e', h', rfl⟩ := List.mem_map.1 he
    exact ⟨t2 e' h', by rw [hx]; exact e'.1.2.2⟩
  obtain ⟨ar, har⟩ := arr hinv.nsingle
  obtain ⟨ar', har'⟩ := arr hinv'.nsingle
  obtain ⟨T0', P1, T', g1, g2, g3, g4, g5⟩ := c16_tba hr' hc' hix' (2 * k) ts t2 b3
  cases Except.ok.inj (g2.symm.trans b4)
  obtain ⟨T1, u1, -, u2⟩ := c12_tba hc' (2 * k) ts t2
  cases Except.ok.inj (u1.symm.trans g1)
  have hval' : ∀ l b a, l < 2 * k → b < 2 ^ n → a < 2 ^ n → T'.val [l, b, a] = ip (ψ' b) (tunOp l ts *ᵥ ψ' a) := by
    intro l b a hl hb ha
    rw [g4.2 l b a hl (by rw [hN']; exact hb) (by rw [hN']; exact ha)]
    exact rotated_ip hc' hN' b5 (fun p q hp hq s' s => u2 l p q hp hq s' s) hb ha
  have hcl := chargelst_same hev hsi hsi'
  refine ⟨qd, ⟨si, 2 * k, some (k, n / 2), tunKeys ts, ar, T0⟩, vals, vecs, Ea, T, qd',
    ⟨si', 2 * k, some (k, n / 2), tunKeys ts, ar', T0'⟩, vals', vecs', Ea', T', fun b y => ip (ψ' b) (ψ y), a1, ?_, a4, c2, b1,
    ?_, b2, g3, ?_⟩
  · unfold LeadsTun.init
    simp only [t1, har, c1, py_bind_ok]
    rfl
  · unfold LeadsTun.init
    simp only [t1, har', g1, py_bind_ok]
    rfl
  intro d d' L L' v w E E' r1 r2 hL hL' hsame ev ew eE eE'
  have hd : d.si.indexing = .ssq := by rw [r1.inv.2.2]; simp [chooseIndexing, hev]
  have hd' : d'.si.indexing = .charge := by rw [r2.inv.2.2]; simp [chooseIndexing]
  have hlen : si'.chargelst.length = n + 1 := (hinv'.qn_charge (.inr hix')).1
  have hout : ∀ c, n + 1 ≤ c → si'.chargelst[c]?.getD [] = [] := fun c hc => by
    rw [List.getElem?_eq_none (by omega)]; rfl
  have hC := chargelst_complete hinv hix r1 hd
  have hrow : ∀ q, w.row q = if q ≤ n then chargeRow si' q else [] := by
    rw [ew]; exact view_row_all hinv' r2 hlen
  obtain ⟨o1, o2, o3⟩ := c75_objects (nleads := 2 * k) r1 hd hC (by rw [hcl]; exact hout) r2 (by rw [hd']; simp)
    (by rw [hd']; simp) hout (by rw [hcl]; simp)
  have o4 := c4 "ssq" d si.chargelst L r1 hd hC (by rw [hcl]; exact hout) hL hsame
  have o5 := RTD.all_coherences (nleads := 2 * k) r2 (by rw [hd']; simp) (by rw [hd']; simp) hlen
  rw [← ev] at o1 o3 o4
  rw [← ew] at o2 o3 o5
  rw [← eE] at o4 a9
  have hNr : ∀ b, b < 2 ^ n ↔ ∃ q, b ∈ w.row q := by
    intro b
    constructor
    · intro hb
      have hb' : b < si'.i.length := by rw [hinv'.ilen, hN']; exact hb
      have hcc := charge_le (hinv'.ilt hb')
      exact ⟨_, by rw [hrow, if_pos hcc]; exact ((hinv'.chargeRow_ok hcc).2.2 b).2 ⟨hb', rfl⟩⟩
    · rintro ⟨q, hq⟩
      rw [hrow] at hq
      by_cases hqn : q ≤ n
      · rw [if_pos hqn] at hq
        obtain ⟨hb', -⟩ := ((hinv'.chargeRow_ok hqn).2.2 b).1 hq
        rw [hinv'.ilen, hN'] at hb'
        exact hb'
      · rw [if_neg hqn] at hq
        simp at hq
  have S1 : EigStates w.row (hopOp true H + coulOp hermC mLessN C) ψ E := by
    refine ⟨a9.orth, a9.eig, ?_⟩
    intro c b hb s hne
    have hbv := (o3.row c b).1 hb
    obtain ⟨rows, -⟩ := reach_spinRows (nleads := 2 * k) hinv hix r1 hd hC (by rw [hcl]; exact hout)
    rw [← ev] at rows
    obtain ⟨α, g, -⟩ := rows.qn c b hbv
    exact ((a9.qn _ _ _ _ _ g).2.1 s hne).1
  have S2 : EigStates w.row (hopOp true H + coulOp hermC mLessN C) ψ' E' := by
    rw [show w.row = fun c => if c ≤ n then chargeRow si' c else [] from funext hrow, eE']
    exact b6
  have tval : ∀ {X : Arr} {φ : Nat → Occ n → ℂ},
      (∀ l b a, l < 2 * k → b < 2 ^ n → a < 2 ^ n → X.val [l, b, a] = ip (φ b) (tunOp l ts *ᵥ φ a)) →
      ∀ l b a, b < 2 ^ n → a < 2 ^ n →
        tbaOf (2 * k) (2 ^ n) X l b a = if l < 2 * k then ip (φ b) (tunOp l ts *ᵥ φ a) else 0 := by
    intro X φ hX l b a hb ha
    unfold tbaOf
    by_cases hl : l < 2 * k
    · rw [if_pos ⟨hl, hb, ha⟩, if_pos hl, hX l b a hl hb ha]
    · rw [if_neg (fun h => hl h.1), if_neg hl]
  obtain ⟨B1, B2⟩ := basis_of_states o5 hNr a8.herm S1 S2 (tval c3) (tval hval')
  rw [← hL] at B2
  have hH' : ∀ l b c, tbaOf (2 * k) (2 ^ n) T' l b c = conj (tbaOf (2 * k) (2 ^ n) T' l c b) := by
    rw [hN'] at g5
    exact tbaOf_herm g5
  subst hL'
  refine ⟨B1, fun symq lib => ⟨?_, ?_, ?_⟩⟩
  · obtain ⟨f, f1, m, m1, p1, p2, p3, p4, p5⟩ := c75_1vN o1 o2 o3 o4 symq lib
    obtain ⟨f1', f', m1', m', q1, q2, q3, q4, q5⟩ := c81_1vN o2 B1 symq lib L o4.herm hH' B2
    cases Except.ok.inj (q1.symm.trans p2)
    cases Except.ok.inj (q3.symm.trans p4)
    exact ⟨f, f', m, m', p1, q2, p3, q4, p5.trans o1 o2 o3 B1 q5⟩
  · obtain ⟨f, f1, m, m1, p1, p2, p3, p4, p5⟩ := c75_redfield o1 o2 o3 o4 symq lib
    obtain ⟨f1', f', m1', m', q1, q2, q3, q4, q5⟩ := c81_redfield o2 B1 symq lib L o4.herm hH' B2
    cases Except.ok.inj (q1.symm.trans p2)
    cases Except.ok.inj (q3.symm.trans p4)
    exact ⟨f, f', m, m', p1, q2, p3, q4, p5.trans o1 o2 o3 B1 q5⟩
  · obtain ⟨f, f1, m, m1, p1, p2, p3, p4, p5⟩ := c75_lindblad o1 o2 o3 o4 symq
    obtain ⟨f1', f', m1', m', q1, q2, q3, q4, q5⟩ := c81_lindblad o2 B1 symq L B2
    cases Except.ok.inj (q1.symm.trans p2)
    cases Except.ok.inj (q3.symm.trans p4)
    exact ⟨f, f', m, m', p1, q2, p3, q4, p5.trans o1 o2 o3 B1 q5⟩

/-- One level with spin, coupled to two leads: the hypotheses of `c81_indexing`. With 'ssq' indexing there are three
unknowns, with 'charge' indexing six. -/
example : ∃ si si' eigh d d', SI.init 2 "ssq" = .ok si ∧ SI.init 2 "charge" = .ok si' ∧ EighReal eigh ∧ EighOk eigh ∧
    SpinInput 2 true false true (.dict [((0, 0), 1)]) (.dict [((0, 0, 0, 0), 2)]) ∧
    RealInput false true (.dict [((0, 0), 1)]) (.dict [((0, 0, 0, 0), 2)]) ∧
    (Param.dict [((0, 0), Complex.I), ((1, 0), 2)]).Valid ∧
    (∀ x ∈ (makeTleadsDict none (.dict [((0, 0), Complex.I), ((1, 0), 2)]) false).map Prod.fst, x.1 < 2 ∧ x.2 < 2 / 2) ∧
    Reach .dm 2 "ssq" d si.chargelst ∧ Reach .dm 2 "charge" d' si'.chargelst ∧
    (∀ T : Arr, SameLeads ⟨fun l => if l % 2 = 0 then 1 else -1, fun _ => 1, fun _ => -10, fun _ => 10,
      tbaOf 4 4 T, 0, 100⟩ 2) ∧ d.ndm0r = 3 ∧ d'.ndm0r = 6 := by
  have key : (DM.init .dm 2 "ssq" >>= fun d => .ok d.ndm0r) = .ok 3 := by decide +kernel
  have key' : (DM.init .dm 2 "charge" >>= fun d' => .ok d'.ndm0r) = .ok 6 := by decide +kernel
  obtain ⟨si, h1, _⟩ := init_inv 2 "ssq"
  obtain ⟨si', h1', _⟩ := init_inv 2 "charge"
  obtain ⟨⟨d, h2, h2'⟩, -⟩ := c74_total (n := 2) rfl
  obtain ⟨d', h4, _⟩ := view_example
  obtain ⟨eigh, he⟩ := exists_eighReal
  rw [h2] at key
  rw [h4] at key'
  simp only [py_bind_ok, Except.ok.injEq] at key key'
  refine ⟨si, si', eigh, d, d', h1, h1', he, he.ok, ?_, ?_, ?_, ?_, Reach.init h1 h2, Reach.init h1' h4, ?_, key, key'⟩
  · refine ⟨?_, ?_, ?_, ?_, ?_, ?_, ?_, ?_⟩ <;>
      simp [Param.Valid, CoulombArg.Valid, makeHsingleDict, makeCoulombDict, UpKey]
  · refine ⟨?_, ?_, ?_⟩ <;> simp [makeHsingleDict, makeCoulombDict, map_ofNat]
  · simp [Param.Valid]
  · simp [makeTleadsDict]
  · intro T i _
    simp

end

end Verif
