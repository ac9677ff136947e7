import Verif.Props.DiagSsq
import Verif.Props.Diag
import Verif.Props.SpinHam
import Verif.Lemmas.EighReal
import Verif.Props.RotateSsq

/-! C76 for quantum dots given by their parameters. -/

namespace Verif
open Verif.Spec Matrix Function

variable {n : Nat}

/-- The interaction conserves the spin projection: as many electrons with spin up are created as are
annihilated. -/
def SpinKept (m p k l : Fin n) : Prop :=
  (if (m : Nat) < n / 2 then 1 else 0) + (if (p : Nat) < n / 2 then 1 else 0)
    = (if (k : Nat) < n / 2 then 1 else 0) + if (l : Nat) < n / 2 then 1 else 0

theorem spin_coul (m p k l : Fin n) (s : Occ n) (hk : s k = true) (hl : s l = true) (hkl : k ≠ l)
    (hm : update (update s k false) l false m = false)
    (hp : update (update s k false) l false p = false) (hmp : m ≠ p) (hsp : SpinKept m p k l) :
    SameSpin s (coulTarget m p k l s) := by
  have hc := count_coul m p k l s hk hl hkl hm hp hmp
  refine ⟨hc, ?_⟩
  rw [twoSz_eq, twoSz_eq, hc]
  unfold coulTarget
  rw [up_update _ p true (by rw [update_of_ne (Ne.symm hmp)]; simpa using hp),
    up_update _ m true (by simpa using hm), up_update _ l false (by rw [update_of_ne (Ne.symm hkl)]; simpa using hl),
    up_update _ k false (by simpa using hk)]
  unfold SpinKept at hsp
  simp only [if_true, Bool.false_eq_true, if_false]
  split_ifs at hsp ⊢ <;> omega

/-- C76 for a quantum dot with parameters: after any calls of `add` and `change`, if the
second-quantised Hamiltonian of the stored parameters conserves charge and spin, `diagonalise`
computes a basis of its eigenstates ordered in spin multiplets. -/
theorem c76_dot {si : SI} (hn : 1 ≤ n) (hev : n % 2 = 0) (hsi : SI.init n "ssq" = .ok si)
    {eigh : Eigh} (he : EighReal eigh)
    {nss : Option Nat} {hermHs hermC mLessN hamSsqQ : Bool} {hs0 : Param (Nat × Nat)} {cs0 : CoulombArg} {qd0 qd : QD}
    (h0 : QD.init si nss hermHs hermC mLessN hamSsqQ hs0 cs0 = .ok qd0)
    (calls : List DotCall) (hv : ∀ c ∈ calls, c.Valid) (hrun : qd0.run calls = .ok qd)
    (hs : List ((Fin n × Fin n) × ℂ)) (cs : List ((Fin n × Fin n × Fin n × Fin n) × ℂ))
    (hhs : qd.hsingle = hopKeys hs) (hcs : qd.coulomb = coulKeys cs)
    (hsp : ∀ e ∈ hs, SameSpecies e.1.1 e.1.2)
    (hspc : ∀ m p k l U, ((m, p, k, l), U) ∈ cs → SpinKept m p k l)
    (hH : SpinConserving (hopOp hermHs hs + coulOp hermC mLessN cs)) :
    ∃ vals vecs Ea P ψ, qd.diagonalise eigh = .ok (vals, .ssq vecs, Ea) ∧ SsqVecs n qd.si vecs ∧
      constructFullPmtr qd.si (.ssq vecs) = .ok P ∧ Ea.length = 2 ^ n ∧ P.dims = [2 ^ n, 2 ^ n] ∧
      (∀ a b (s : Occ n), b < 2 ^ n → si.getState (a : Nat) = .ok (ofOcc s) → P.val [a, b] = ψ b s) ∧
      SpinBasis si (hopOp hermHs hs + coulOp hermC mLessN cs) ψ fun b => Ea.getD b 0 := by
  obtain ⟨i0, s1, s2, s3, s4, s5, s6⟩ := init_inv' h0
  obtain ⟨inv, t1, t2, t3, t4, t5, t6⟩ := run_inv i0 calls hv hrun
  have e1 := t1.trans s1
  obtain ⟨hc, hN, hix, hns⟩ := SpinSI.facts ⟨hn, hev, "ssq", Or.inr rfl, hsi⟩
  obtain ⟨si', h1, hinv, hch, hr⟩ := init_inv n "ssq"
  rw [hsi] at h1
  cases h1
  have hssq : si.indexing = .ssq := by rw [hch]; simp [chooseIndexing, hev]
  have := c76_basis (qd := qd) hn hev (by rw [e1]; exact hsi) he hH (by
    intro c hcn
    obtain ⟨lst, g1, g2⟩ := closed_sz hc hix c (-((c % 2 : Nat) : Int)) hcn (by unfold AdmSz; omega)
    obtain ⟨M1, k1, k2, k3⟩ := c11_list hc hermC mLessN cs SameSpin
      (fun m p k l ⟨U, hU⟩ s a b c d e f => spin_coul m p k l s a b c d e f (hspc m p k l U hU)) lst g2 none (by simp)
    obtain ⟨M2, m1, m2, m3⟩ := c10_list hc hermHs hs SameSpin
      (fun e he s a b c => spin_hop s a b c (hsp e he)) lst g2 (some M1) (by rintro a ⟨⟩; exact k2)
    obtain ⟨ham, u1, u2⟩ := inv.blocks (c, some (-((c % 2 : Nat) : Int)), szToInd (-((c % 2 : Nat) : Int)) c n) (by
      rw [e1, hamSectors, List.mem_flatMap]
      refine ⟨c, by rw [hinv.ncharge, List.mem_range]; omega, ?_⟩
      simp only [hssq, hns, List.mem_map]
      refine ⟨_, ?_, rfl⟩
      split
      · rw [szrange_eq n c hcn, List.mem_map]
        have hk0 := lowK_ok hev hcn
        exact ⟨lowK n c, by rw [List.mem_range]; omega, by omega⟩
      · simp)
    have hham : ham = M2 := by
      unfold QD.hamBlock at u2
      simp only [e1, g1, t3.trans s3, t4.trans s4, t5.trans s5, hhs, hcs, py_bind_ok, k1, m1] at u2
      exact (Except.ok.inj u2).symm
    subst hham
    refine ⟨ham, lst, u1, by rw [e1]; exact g1, m2, ?_⟩
    rw [e1]
    intro p q hp hq s' s hs' hs1
    rw [m3 p q hp hq s' s hs' hs1]
    simp only [Option.elim_some]
    rw [k3 p q hp hq s' s hs' hs1]
    simp only [Option.elim_none, zero_add, Matrix.add_apply]
    rw [add_comm])
  obtain ⟨vals, vecs, Ea, P, ψ, f1, f2, f3, f4, f5, f6, f7⟩ := this
  exact ⟨vals, vecs, Ea, P, ψ, f1, f2, f3, f4, f5, by rw [← e1]; exact f6, by rw [← e1]; exact f7⟩

theorem SpinKept.of_species {m p k l : Fin n} (h1 : SameSpecies m l) (h2 : SameSpecies p k) : SpinKept m p k l := by
  unfold SameSpecies at h1 h2
  unfold SpinKept
  split_ifs <;> omega

/-- The construction of the quantum dot does not raise when the parameters conserve the spin projection. -/
theorem dot_ssq_succeeds {si : SI} (hn : 1 ≤ n) (hev : n % 2 = 0) (hsi : SI.init n "ssq" = .ok si)
    {nss : Option Nat} {hermHs hermC mLessN : Bool} (hamSsqQ : Bool) {hs0 : Param (Nat × Nat)} {cs0 : CoulombArg}
    (hs : List ((Fin n × Fin n) × ℂ)) (cs : List ((Fin n × Fin n × Fin n × Fin n) × ℂ))
    (hhs : makeHsingleDict nss hermHs hs0 false = hopKeys hs) (hcs : makeCoulombDict nss hermC mLessN cs0 = coulKeys cs)
    (hsp : ∀ e ∈ hs, SameSpecies e.1.1 e.1.2)
    (hspc : ∀ m p k l U, ((m, p, k, l), U) ∈ cs → SpinKept m p k l) :
    ∃ qd, QD.init si nss hermHs hermC mLessN hamSsqQ hs0 cs0 = .ok qd := by
  obtain ⟨hc, hN, hix, hns⟩ := SpinSI.facts ⟨hn, hev, "ssq", Or.inr rfl, hsi⟩
  obtain ⟨si', h1, hinv, hch, hr⟩ := init_inv n "ssq"
  rw [hsi] at h1
  cases h1
  have hssq : si.indexing = .ssq := by rw [hch]; simp [chooseIndexing, hev]
  refine blocks_progress _ _ _ (hamSectors_nodup _ _) _ ?_
  intro b hb
  simp only [hamSectors, List.mem_flatMap, hinv.ncharge, List.mem_range, hssq, hns, List.mem_map] at hb
  obtain ⟨c, hcn, sz, hsz, rfl⟩ := hb
  have hadm : AdmSz n c sz := by
    split at hsz
    · rw [szrange_eq n c (by omega), List.mem_map] at hsz
      obtain ⟨k, hk, rfl⟩ := hsz
      rw [List.mem_range] at hk
      unfold AdmSz
      have : szW n c = min c (n - c) := rfl
      omega
    · simp only [List.mem_cons, List.not_mem_nil, or_false] at hsz
      subst hsz
      unfold AdmSz; omega
  obtain ⟨lst, g1, g2⟩ := closed_sz hc hix c sz (by omega) hadm
  obtain ⟨M1, k1, k2, k3⟩ := c11_list hc hermC mLessN cs SameSpin
    (fun m p k l ⟨U, hU⟩ s a b c d e f => spin_coul m p k l s a b c d e f (hspc m p k l U hU)) lst g2 none (by simp)
  obtain ⟨M2, m1, m2, m3⟩ := c10_list hc hermHs hs SameSpin
    (fun e he s a b c => spin_hop s a b c (hsp e he)) lst g2 (some M1) (by rintro a ⟨⟩; exact k2)
  refine ⟨M2, ?_⟩
  unfold QD.hamBlock
  simp only [g1, hhs, hcs, py_bind_ok, k1, m1]

/-- C76 with `symmetry='spin'`: for all parameters given for one spin, the construction of the quantum dot and
its diagonalisation succeed and yield a basis of eigenstates of the Hamiltonian `T` of the parameters of both
spins, ordered in spin multiplets. -/
theorem c76_spin {si : SI} (hn : 1 ≤ n) (hev : n % 2 = 0) (hsi : SI.init n "ssq" = .ok si)
    {eigh : Eigh} (he : EighReal eigh) {hermC mLessN : Bool} (hamSsqQ : Bool) {hs : Param (Nat × Nat)} {cs : CoulombArg}
    (h : SpinInput n true hermC mLessN hs cs) (hr : RealInput hermC mLessN hs cs) :
    ∃ qd H C vals vecs Ea P ψ, QD.init si (some (n / 2)) true hermC mLessN hamSsqQ hs cs = .ok qd ∧
      qd.hsingle = hopKeys H ∧ qd.coulomb = coulKeys C ∧
      qd.diagonalise eigh = .ok (vals, .ssq vecs, Ea) ∧ SsqVecs n qd.si vecs ∧
      constructFullPmtr qd.si (.ssq vecs) = .ok P ∧ Ea.length = 2 ^ n ∧ P.dims = [2 ^ n, 2 ^ n] ∧
      (∀ a b (s : Occ n), b < 2 ^ n → si.getState (a : Nat) = .ok (ofOcc s) → P.val [a, b] = ψ b s) ∧
      SpinConserving (hopOp true H + coulOp hermC mLessN C) ∧
      SpinBasis si (hopOp true H + coulOp hermC mLessN C) ψ fun b => Ea.getD b 0 := by
  obtain ⟨H, C, e1, e2, e3, e4, e5⟩ := c78_conserving h hr
  have hk : ∀ m p k l U, ((m, p, k, l), U) ∈ C → SpinKept m p k l := fun m p k l U hm =>
    SpinKept.of_species (e4 m p k l U hm).1 (e4 m p k l U hm).2
  obtain ⟨qd, hqd⟩ := dot_ssq_succeeds hn hev hsi hamSsqQ H C e1 e2 e3 hk
  obtain ⟨f1, -, -⟩ := (blocks_iff _ _ _ (hamSectors_nodup _ _) _ _).1 hqd
  have g1 : qd.hsingle = hopKeys H := by rw [f1]; exact e1
  have g2 : qd.coulomb = coulKeys C := by rw [f1]; exact e2
  obtain ⟨vals, vecs, Ea, P, ψ, r⟩ := c76_dot hn hev hsi he hqd [] (by simp) rfl H C g1 g2 e3 hk e5
  obtain ⟨r1, r2, r3, r4, r5, r6, r7⟩ := r
  exact ⟨qd, H, C, vals, vecs, Ea, P, ψ, hqd, g1, g2, r1, r2, r3, r4, r5, r6, e5, r7⟩

/-- Two orbitals of each spin. -/
example : ∃ si eigh, SI.init 4 "ssq" = .ok si ∧ EighReal eigh ∧
    SpinInput 4 true false true (.dict [((0, 0), 1), ((1, 1), -1), ((0, 1), Complex.I)])
      (.dict [((0, 0, 0, 0), 8), ((1, 1, 1, 1), 8), ((0, 1, 1, 0), 5)]) ∧
    RealInput false true (.dict [((0, 0), 1), ((1, 1), -1), ((0, 1), Complex.I)])
      (.dict [((0, 0, 0, 0), 8), ((1, 1, 1, 1), 8), ((0, 1, 1, 0), 5)]) := by
  obtain ⟨si, h1, -⟩ := init_inv 4 "ssq"
  obtain ⟨eigh, he⟩ := exists_eighReal
  exact ⟨si, eigh, h1, he, spinInput_two⟩

/-! ### Cases of C77 -/

/-- One orbital of each spin: the states 0, 1, 2 are empty, spin down and spin up. -/
theorem two_orbitals_ssq : ∃ si, SI.init 2 "ssq" = .ok si ∧ ReachedSI 2 si ∧ si.indexing = .ssq ∧ si.nmany = 4 ∧
    si.getState ((0 : Nat) : Int) = .ok [0, 0] ∧ si.getState ((1 : Nat) : Int) = .ok [0, 1] ∧
    si.getState ((2 : Nat) : Int) = .ok [1, 0] ∧ si.getState ((3 : Nat) : Int) = .ok [1, 1] := by
  have h1 : (SI.init 2 "ssq" >>= fun si => do
      let s0 ← si.getState ((0 : Nat) : Int)
      let s1 ← si.getState ((1 : Nat) : Int)
      let s2 ← si.getState ((2 : Nat) : Int)
      let s3 ← si.getState ((3 : Nat) : Int)
      pure (s0, s1, s2, s3)) = .ok ([0, 0], [0, 1], [1, 0], [1, 1]) := by decide +kernel
  have h2 : (SI.init 2 "ssq" >>= fun si => pure (si.indexing, si.nmany)) = .ok (.ssq, 4) := by
    decide +kernel
  obtain ⟨si, hsi, h1⟩ := bind_iff.1 h1
  rw [hsi] at h2
  obtain ⟨s0, e0, h1⟩ := bind_iff.1 h1
  obtain ⟨s1, e1, h1⟩ := bind_iff.1 h1
  obtain ⟨s2, e2, h1⟩ := bind_iff.1 h1
  obtain ⟨s3, e3, h1⟩ := bind_iff.1 h1
  have h5 := Except.ok.inj h1
  have h6 := Except.ok.inj h2
  simp only [Prod.mk.injEq] at h5 h6
  obtain ⟨a5, a6, a7, a8⟩ := h5
  subst a5 a6 a7 a8
  refine ⟨si, hsi, ⟨"ssq", [], ?_, by simp, ?_⟩, h6.1, h6.2, e0, e1, e2, e3⟩
  · unfold SI.run
    rw [hsi]
    rfl
  · simp

/-- The eigenvectors of an Anderson impurity. -/
theorem anderson_vecs {si : SI} (hsi : SI.init 2 "ssq" = .ok si) : ∃ v, SsqVecs 2 si v := by
  obtain ⟨eigh, he⟩ := exists_eighReal
  obtain ⟨qd, H, C, vals, vecs, Ea, P, ψ, a1, -, -, -, a2, -⟩ := c76_spin (n := 2) (by omega) (by omega) hsi he false
    (hermC := false) (mLessN := true) (hs := .dict [((0, 0), 1)]) (cs := .dict [((0, 0, 0, 0), 2)])
    (by refine ⟨?_, ?_, ?_, ?_, ?_, ?_, ?_, ?_⟩ <;>
      simp [Param.Valid, CoulombArg.Valid, makeHsingleDict, makeCoulombDict, UpKey])
    (by refine ⟨?_, ?_, ?_⟩ <;> simp [makeHsingleDict, makeCoulombDict, map_ofNat])
  rw [(init_inv' a1).2.1] at a2
  exact ⟨vecs, a2⟩

/-- A case of `c77_tba`: lead 0 couples the empty and the spin-up state. -/
example : ∃ (si : SI) (T0 : Arr) (v : List (List (List Arr))), ReachedSI 2 si ∧ si.indexing = .ssq ∧
    T0.dims = [2, si.nmany, si.nmany] ∧ Herm 2 si.nmany T0 ∧ T0.val [0, 2, 0] = 1 ∧
    (∀ l b a, l < 2 → b < si.nmany → a < si.nmany → T0.val [l, b, a] ≠ 0 →
      ∀ s' s, si.getState (b : Int) = .ok s' → si.getState (a : Int) = .ok s →
        AddsSpin 2 2 l s s' ∨ AddsSpin 2 2 l s' s) ∧ SsqVecs 2 si v := by
  obtain ⟨si, hsi, hr, hix, hN, g0, g1, g2, g3⟩ := two_orbitals_ssq
  obtain ⟨v, hv⟩ := anderson_vecs hsi
  refine ⟨si, twoStates 2 0, v, hr, hix, by rw [hN]; rfl, by rw [hN]; exact twoStates_herm 2 0,
    by simp [twoStates], ?_, hv⟩
  intro l b a _ _ _ hne s' s hs' hs
  have h : ([l, b, a] : List Nat) = [0, 2, 0] ∨ ([l, b, a] : List Nat) = [0, 0, 2] := by
    by_contra h
    exact hne (if_neg h)
  simp only [List.cons.injEq, and_true] at h
  rcases h with ⟨rfl, rfl, rfl⟩ | ⟨rfl, rfl, rfl⟩
  · cases hs'.symm.trans g2
    cases hs.symm.trans g0
    exact .inl (by unfold AddsSpin; decide)
  · cases hs'.symm.trans g0
    cases hs.symm.trans g2
    exact .inr (by unfold AddsSpin; decide)

/-- A case of `c77_drops`: lead 0 couples the empty and the spin-down state; the amplitude is lost. -/
example : ∃ si T0 v T, ReachedSI 2 si ∧ si.indexing = .ssq ∧ T0.dims = [2, si.nmany, si.nmany] ∧
    Herm 2 si.nmany T0 ∧ SsqVecs 2 si v ∧ T0.val [0, 1, 0] = 1 ∧ rotateTba si 2 T0 (.ssq v) none = .ok T ∧
    T.val [0, 1, 0] = 0 := by
  obtain ⟨si, hsi, hr, hix, hN, g0, g1, g2, g3⟩ := two_orbitals_ssq
  obtain ⟨v, hv⟩ := anderson_vecs hsi
  have hd : (twoStates 1 0).dims = [2, si.nmany, si.nmany] := by rw [hN]; rfl
  have hh : Herm 2 si.nmany (twoStates 1 0) := by rw [hN]; exact twoStates_herm 1 0
  obtain ⟨T, eT, hT⟩ := c77_drops hr hix hd hh hv
  refine ⟨si, twoStates 1 0, v, T, hr, hix, hd, hh, hv, by simp [twoStates], eT, ?_⟩
  refine hT 0 1 0 _ _ g1 g0 ?_ ?_
  · unfold AddsSpin
    decide
  · unfold AddsSpin
    decide

/-- A case of `c77_vbbp`: a bath that couples the spin-up state to itself. -/
example : ∃ (si : SI) (T0 : Arr) (v : List (List (List Arr))), ReachedSI 2 si ∧ si.indexing = .ssq ∧
    T0.dims = [2, si.nmany, si.nmany] ∧ T0.val [0, 2, 2] = 1 ∧
    (∀ l b a, l < 2 → b < si.nmany → a < si.nmany → T0.val [l, b, a] ≠ 0 →
      ∀ s' s, si.getState (b : Int) = .ok s' → si.getState (a : Int) = .ok s →
        s'.sum = s.sum ∧ twoSz 2 s' = twoSz 2 s) ∧ SsqVecs 2 si v := by
  obtain ⟨si, hsi, hr, hix, hN, g0, g1, g2, g3⟩ := two_orbitals_ssq
  obtain ⟨v, hv⟩ := anderson_vecs hsi
  refine ⟨si, twoStates 2 2, v, hr, hix, by rw [hN]; rfl, by simp [twoStates], ?_, hv⟩
  intro l b a _ _ _ hne s' s hs' hs
  have h : ([l, b, a] : List Nat) = [0, 2, 2] ∨ ([l, b, a] : List Nat) = [0, 2, 2] := by
    by_contra h
    exact hne (if_neg h)
  simp only [List.cons.injEq, and_true, or_self] at h
  obtain ⟨rfl, rfl, rfl⟩ := h
  cases hs'.symm.trans hs
  exact ⟨rfl, rfl⟩

end Verif
