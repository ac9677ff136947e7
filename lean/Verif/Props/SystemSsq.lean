import Verif.Lemmas.TunSsq
import Verif.Props.DotSsq
import Verif.Props.MultipletKern

/-! C79: with `symmetry='spin'` the system that the approaches see is symmetric under rotations of the spin. -/

namespace Verif
open Verif.Spec Matrix

variable {n : Nat}

noncomputable section

section
variable {si : SI} (hsi : SIInv n si) (hix : si.indexing = .ssq)
include hsi hix

theorem ssq_row_of {b c : Nat} {z q : Int} {α : Nat} (h : HasQn si b c z q α) : c ≤ n ∧ b ∈ rowOf si.chargelst c := by
  obtain ⟨c', k, j, α', g1, g2, g3, g4, g5⟩ := hsi.ssq_key hix h
  simp only [List.cons.injEq, Nat.cast_inj, and_true] at g4
  obtain ⟨rfl, -, -, -⟩ := g4
  exact ⟨g1, ((hsi.rowOf_mem g1).2 b).2 (hsi.ssq_get hix g1 g2 g3 g5).2⟩

/-- The quantum numbers are determined by the number of orbitals. -/
theorem ssq_qn_eq {s : SI} (hs : SIInv n s) (hixs : s.indexing = .ssq) (b : Nat) :
    si.indQn.get? b = s.indQn.get? b := by
  have key : ∀ {s s' : SI}, SIInv n s → s.indexing = .ssq → SIInv n s' → s'.indexing = .ssq → ∀ x,
      s.indQn.get? b = some x → s'.indQn.get? b = some x := by
    intro s s' h1 h2 h3 h4 x hx
    obtain ⟨c, k, q, α, g1, g2, g3, rfl, g5⟩ := h1.ssq_key h2 hx
    exact (h3.ssq_get h4 g1 g2 g3 g5).1
  exact Option.ext fun x => ⟨key hsi hix hs hixs x, key hs hixs hsi hix x⟩

theorem ssq_spinRows {v : View} (hm : Mult v si.spinZ si.spinS si.multNo)
    (hq : ∀ c, ∀ b ∈ v.row c, si.indQn.get? b = some [(c : Int), si.spinZ b, si.spinS b, si.multNo b]) :
    SpinRows n si v := by
  refine ⟨hm, ?_, ?_, ?_, ?_⟩
  · intro c b hb
    have h := hq c b hb
    obtain ⟨c', k, q, α, g1, g2, g3, g4, g5⟩ := hsi.ssq_key hix h
    simp only [List.cons.injEq, and_true] at g4
    exact ⟨α, by rw [HasQn, ← g4.2.2.2]; exact h, g4.2.2.2⟩
  · intro b b' c z q α h1 h2
    have f1 := ((dictsOk_of_inv hsi).inverse _ _).2 h1
    have f2 := ((dictsOk_of_inv hsi).inverse _ _).2 h2
    rw [f1] at f2
    simpa using f2
  · intro b c z q α h hz
    obtain ⟨h1, h2⟩ := ssq_row_of hsi hix h
    obtain ⟨e1, e2, e3⟩ := SI.spin_of h
    obtain ⟨-, g2, g3⟩ := hsi.ssq_mult hix h1 h2
    rw [e2, e3] at g3
    rw [e1, e2] at g2
    obtain ⟨b', -, f⟩ := g3 (z + 2) (by unfold Proj at g2 ⊢; omega)
    exact ⟨b', f⟩
  · intro b c z q α h
    obtain ⟨h1, h2⟩ := ssq_row_of hsi hix h
    obtain ⟨e1, e2, e3⟩ := SI.spin_of h
    have g2 := (hsi.ssq_mult hix h1 h2).2.1
    rw [e1, e2] at g2
    unfold Proj at g2
    omega

end

/-- Objects of class `StateIndexingDM` with 'ssq' indexing consider states with the quantum numbers of the table. -/
theorem reach_spinRows {si : SI} (hsi : SIInv n si) (hix : si.indexing = .ssq) {nleads : Nat} {ix : String} {d : DM}
    {S : List (List Nat)} (h : Reach .dm n ix d S) (hixd : d.si.indexing = .ssq) (hc : Complete n d.si S)
    (hS : ∀ c, n + 1 ≤ c → S[c]?.getD [] = []) :
    SpinRows n si (d.view nleads) ∧ d.si.spinZ = si.spinZ ∧ d.si.spinS = si.spinS ∧ d.si.multNo = si.multNo := by
  obtain ⟨hi, hk, _⟩ := h.inv
  obtain ⟨k, ⟨s, hs, e⟩, _⟩ := hi.si
  have q2 : d.si.indQn = s.indQn := by rw [e]
  have q3 : s.indexing = .ssq := by rw [e] at hixd; exact hixd
  have q4 : ∀ b, d.si.indQn.get? b = si.indQn.get? b := fun b => by rw [q2, ssq_qn_eq hs q3 hsi hix b]
  have e1 : d.si.spinZ = si.spinZ := by funext b; unfold SI.spinZ; rw [q4]
  have e2 : d.si.spinS = si.spinS := by funext b; unfold SI.spinS; rw [q4]
  have e3 : d.si.multNo = si.multNo := by funext b; unfold SI.multNo; rw [q4]
  have hv := view_ssq (nleads := nleads) h hixd hc hS
  refine ⟨ssq_spinRows hsi hix (by rw [← e1, ← e2, ← e3]; exact hv.toMult) ?_, e1, e2, e3⟩
  intro c b hb
  have hcons : Considered n S c b := by
    have e : (S ++ [[]])[c]?.getD [] = S[c]?.getD [] := by
      rcases Nat.lt_trichotomy c S.length with hc | hc | hc
      · rw [List.getElem?_append_left hc]
      · subst hc; simp
      · rw [List.getElem?_eq_none (by simp; omega), List.getElem?_eq_none (by omega)]
    have hb' : b ∈ S[c]?.getD [] := by
      have := hb
      simp only [View.row, DM.view, hi.sdm, e] at this
      exact this
    refine ⟨?_, hb'⟩
    by_contra hlt
    rw [hS c (by omega)] at hb'
    simp at hb'
  rw [← q4, ← e1, ← e2, ← e3]
  exact (hc c b hcons).1

/-- The two spin directions of each lead have equal parameters. -/
def SameLeads (L : Leads) (k : Nat) : Prop :=
  ∀ i < k, L.mu (k + i) = L.mu i ∧ L.T (k + i) = L.T i ∧ L.Dm (k + i) = L.Dm i ∧ L.Dp (k + i) = L.Dp i

/-- C79: if the tunnelling amplitudes and the parameters of the leads do not depend on the spin, the rotated
amplitudes of the eigenstates that 'ssq' indexing constructs obey the commutation relations of a spinor with the
spin of the multiplets, for every complete set of considered states. -/
theorem c79_symm {si : SI} (hn : 1 ≤ n) (hev : n % 2 = 0) (hsi : SI.init n "ssq" = .ok si)
    {H : Matrix (Occ n) (Occ n) ℂ} {ψ : Nat → Occ n → ℂ} {E : Nat → ℝ} (hB : SpinBasis si H ψ E)
    {vecs : List (List (List Arr))} (hv : SsqVecs n si vecs) {P : Arr} (hp : constructFullPmtr si (.ssq vecs) = .ok P)
    (hP : ∀ a b (s : Occ n), b < 2 ^ n → si.getState (a : Nat) = .ok (ofOcc s) → P.val [a, b] = ψ b s)
    {k : Nat} {ts : List ((Nat × Fin n) × ℂ)} (hts : ∀ e ∈ ts, e.1.1 < 2 * k) (ht : SpinTun n k ts) :
    ∃ T0 T, constructTba si (2 * k) (tunKeys ts) none = .ok T0 ∧ rotateTba si (2 * k) T0 (.ssq vecs) none = .ok T ∧
      (∀ l b a, l < 2 * k → b < 2 ^ n → a < 2 ^ n → T.val [l, b, a] = ip (ψ b) (tunOp l ts *ᵥ ψ a)) ∧
      ∀ (ix : String) (d : DM) (S : List (List Nat)) (L : Leads), Reach .dm n ix d S → d.si.indexing = .ssq →
        Complete n d.si S → (∀ c, n + 1 ≤ c → S[c]?.getD [] = []) → L.Tba = tbaOf (2 * k) (2 ^ n) T → SameLeads L k →
        SpinSymm (d.view (2 * k)) d.si.spinZ d.si.spinS d.si.multNo E L k := by
  obtain ⟨hc, hN, hix, hns⟩ := SpinSI.facts ⟨hn, hev, "ssq", Or.inr rfl, hsi⟩
  obtain ⟨si', h1, hinv, hch, hr⟩ := init_inv n "ssq"
  rw [hsi] at h1
  cases h1
  have hssq : si.indexing = .ssq := by rw [hch]; simp [chooseIndexing, hev]
  obtain ⟨T0, eT0, dT0, vT0⟩ := c12_tba hc (2 * k) ts hts
  have hh : Herm (2 * k) si.nmany T0 := fun l b a _ hb ha => c12_hermitian hc (2 * k) ts hts T0 eT0 l a b ha hb
  obtain ⟨P', T, f1, -, f3, f4, f5⟩ := c77_tba (n := n) (si := si) (L := 2 * k) (T0 := T0) (v := vecs)
    ⟨"ssq", [], by unfold SI.run; rw [hsi]; rfl, by simp, by simp⟩ hssq dT0 hh (by
      intro l b a hl hb ha hne s' s hs' hs
      obtain ⟨u', g1, -⟩ := hc.state b hb
      obtain ⟨u, g2, -⟩ := hc.state a ha
      cases hs'.symm.trans g1
      cases hs.symm.trans g2
      rw [vT0 l b a hb ha u' u g1 g2] at hne
      exact tun_spin hev ht hl hne) hv
  rw [hp] at f1
  cases f1
  have hval : ∀ l b a, l < 2 * k → b < 2 ^ n → a < 2 ^ n → T.val [l, b, a] = ip (ψ b) (tunOp l ts *ᵥ ψ a) := by
    intro l b a hl hb ha
    rw [f4.2 l b a hl (by rw [hN]; exact hb) (by rw [hN]; exact ha)]
    exact rotated_ip hc hN hP (fun p q hp hq s' s => vT0 l p q hp hq s' s) hb ha
  refine ⟨T0, T, eT0, f3, hval, ?_⟩
  intro ix d S L hR hixd hC hS hL hsame
  obtain ⟨rows, z1, z2, z3⟩ := reach_spinRows (nleads := 2 * k) hinv hssq hR hixd hC hS
  rw [z1, z2, z3]
  have hlt : ∀ {c b}, b ∈ (d.view (2 * k)).row c → b < 2 ^ n := fun hb => spin_lt hB rows hb
  have hsec : ∀ {c b}, b ∈ (d.view (2 * k)).row c → ∃ z, InSec c z (ψ b) := by
    intro c b hb
    obtain ⟨α, g, -⟩ := rows.qn c b hb
    exact ⟨_, (hB.qn _ _ _ _ _ g).2.1⟩
  have hcre : ∀ l, l < 2 * k → ∀ q, ∀ y ∈ (d.view (2 * k)).row (q + 1), ∀ a ∈ (d.view (2 * k)).row q,
      L.Tba l y a = ip (ψ y) (creOp ts l *ᵥ ψ a) := by
    intro l hl q y hy a ha
    obtain ⟨z, h1⟩ := hsec hy
    obtain ⟨z', h2⟩ := hsec ha
    rw [hL, tbaOf, if_pos ⟨hl, hlt hy, hlt ha⟩, hval l y a hl (hlt hy) (hlt ha), ip_tun h1 h2]
  refine ⟨?_, rfl, hsame, ?_, ?_, ?_, ?_, ?_⟩
  · intro c b hb y hy e1 e2
    obtain ⟨α, g1, g2⟩ := rows.qn c b hb
    obtain ⟨β, g3, g4⟩ := rows.qn c y hy
    have : β = α := by rw [← e2, g2] at g4; exact_mod_cast g4.symm
    subst this
    rw [← e1] at g3
    exact hB.energy b y c _ _ _ _ g1 g3
  · intro l b c
    rw [hL]
    rw [hN] at f5
    exact tbaOf_herm f5 l b c
  · intro i hi q x hx b hb
    rw [comm_up hB rows hx hb (creOp ts i) (fun y hy => hcre i (by omega) q y hy b hb)
      (fun y hy => hcre i (by omega) q x hx y hy), plus_tunUp hev ht hi]
    simp [ip]
  · intro i hi q x hx b hb
    rw [comm_up hB rows hx hb (creOp ts (k + i)) (fun y hy => hcre (k + i) (by omega) q y hy b hb)
      (fun y hy => hcre (k + i) (by omega) q x hx y hy), plus_tunDn hev ht hi, hcre i (by omega) q x hx b hb]
  · intro i hi q x hx b hb
    rw [comm_dn hB rows hx hb (creOp ts i) (fun y hy => hcre i (by omega) q y hy b hb)
      (fun y hy => hcre i (by omega) q x hx y hy), minus_tunUp hev ht hi, hcre (k + i) (by omega) q x hx b hb]
  · intro i hi q x hx b hb
    rw [comm_dn hB rows hx hb (creOp ts (k + i)) (fun y hy => hcre (k + i) (by omega) q y hy b hb)
      (fun y hy => hcre (k + i) (by omega) q x hx y hy), minus_tunDn hev ht hi]
    simp [ip]

/-! ### Tunnelling given with `symmetry='spin'` -/

theorem ts_fin {m : Nat} {t : Dict (Nat × Nat) ℂ} {k : Nat} (h : ∀ x ∈ t.map Prod.fst, x.1 < k ∧ x.2 < m) :
    ∃ l : List ((Nat × Fin m) × ℂ), tunKeys l = t ∧ ∀ e ∈ l, e.1.1 < k := by
  induction t with
  | nil => exact ⟨[], rfl, by simp⟩
  | cons e t ih =>
    obtain ⟨l, hl, hk⟩ := ih fun x hx => h x (by rw [List.map_cons, List.mem_cons]; exact .inr hx)
    obtain ⟨h1, h2⟩ := h e.1 (by simp)
    refine ⟨((e.1.1, ⟨e.1.2, h2⟩), e.2) :: l, by rw [tunKeys, List.map_cons]; exact congrArg _ hl, ?_⟩
    intro e' he'
    rcases List.mem_cons.1 he' with rfl | he'
    · exact h1
    · exact hk e' he'

/-- The entries of both spins. -/
def dblTun (k : Nat) (D : List ((Nat × Fin (n / 2)) × ℂ)) : List ((Nat × Fin n) × ℂ) :=
  (D.map fun e => ((e.1.1, up e.1.2), e.2)) ++ D.map fun e => ((e.1.1 + k, dn e.1.2), e.2)

theorem dblTun_spin {k : Nat} {D : List ((Nat × Fin (n / 2)) × ℂ)} (hD : ∀ e ∈ D, e.1.1 < k) :
    SpinTun n k (dblTun k D) := by
  have hud : ∀ i j : Fin (n / 2), (up i : Fin n) ≠ dn j := by
    intro i j h
    have := congrArg Fin.val h
    simp only [up, dn] at this
    omega
  have z : ∀ {P : (Nat × Fin (n / 2)) × ℂ → Prop} [DecidablePred P], (∀ e ∈ D, ¬ P e) →
      (D.map fun e => if P e then e.2 else 0).sum = 0 := by
    intro P _ h
    refine List.sum_eq_zero fun x hx => ?_
    obtain ⟨e, he, rfl⟩ := List.mem_map.1 hx
    exact if_neg (h e he)
  have ea : ∀ l i, amp (dblTun k D) l i = (D.map fun e => if e.1.1 = l ∧ up e.1.2 = i then e.2 else 0).sum
      + (D.map fun e => if e.1.1 + k = l ∧ dn e.1.2 = i then e.2 else 0).sum := by
    intro l i
    simp only [amp, dblTun, List.map_append, List.sum_append, List.map_map, Function.comp_def, Prod.mk.injEq]
  refine ⟨?_, ?_, ?_⟩
  · intro i hi j
    rw [ea, ea, z (fun e he h => by have := hD e he; omega), z (P := fun e => e.1.1 + k = i ∧ _)
      (fun e he h => by omega), zero_add, add_zero]
    congr 1
    refine List.map_congr_left fun e _ => ?_
    refine if_congr ?_ rfl rfl
    rw [up_inj, dn_inj]
    exact ⟨fun ⟨a, b⟩ => ⟨by omega, b⟩, fun ⟨a, b⟩ => ⟨by omega, b⟩⟩
  · intro i hi j
    rw [ea, z (fun e he h => hud _ _ h.2), z (fun e he h => by omega), add_zero]
  · intro i hi j
    rw [ea, z (fun e he h => by have := hD e he; omega), z (fun e he h => hud _ _ h.2.symm), add_zero]

/-- Amplitudes given with `symmetry='spin'`, for the leads `0, ..., k-1` and the orbitals `0, ..., n/2-1` with spin
up, are expanded to amplitudes that do not depend on the spin. -/
theorem c79_tleads {k : Nat} {ts0 : Param (Nat × Nat)} (hv : ts0.Valid)
    (hk : ∀ x ∈ (makeTleadsDict none ts0 false).map Prod.fst, x.1 < k ∧ x.2 < n / 2) :
    ∃ ts : List ((Nat × Fin n) × ℂ), makeTleadsDict (some (k, n / 2)) ts0 false = tunKeys ts ∧
      (∀ e ∈ ts, e.1.1 < 2 * k) ∧ SpinTun n k ts := by
  have e1 : makeTleadsDict (some (k, n / 2)) ts0 false =
      spinDict (fun x => (x.1 + k, x.2 + n / 2)) (makeTleadsDict none ts0 false) := by
    cases ts0 <;> rfl
  obtain ⟨D, hD, hDk⟩ := ts_fin hk
  refine ⟨dblTun k D, ?_, ?_, dblTun_spin hDk⟩
  · rw [e1, pair_expand (tleads_nodup none hv false) hk, ← hD]
    simp only [dblTun, tunKeys, List.map_append, List.map_map]
    congr 1
    refine List.map_congr_left fun e _ => ?_
    simp [dn, Nat.add_comm]
  · intro e he
    rcases List.mem_append.1 he with he | he
    · obtain ⟨e', h, rfl⟩ := List.mem_map.1 he
      have := hDk e' h
      simp only
      omega
    · obtain ⟨e', h, rfl⟩ := List.mem_map.1 he
      have := hDk e' h
      simp only
      omega

theorem tleadsArray_ok {L m : Nat} (t : Dict (Nat × Nat) ℂ) (h : ∀ e ∈ t, e.1.1 < L ∧ e.1.2 < m) :
    ∃ a, makeTleadsArray L m t = .ok a := by
  unfold makeTleadsArray
  suffices H : ∀ a : Arr, a.dims = [L, m] → ∃ a', t.foldlM (fun a e => a.put [e.1.1, e.1.2] e.2) a = .ok a' from H _ rfl
  induction t with
  | nil => intro a _; exact ⟨a, rfl⟩
  | cons e t ih =>
    intro a ha
    rw [List.foldlM_cons]
    have : a.put [e.1.1, e.1.2] e.2 = .ok { a with val := Function.update a.val [e.1.1, e.1.2] e.2 } := by
      unfold Arr.put
      obtain ⟨h1, h2⟩ := h e (by simp)
      rw [if_pos (by rw [ha]; exact .cons h1 (.cons h2 .nil))]
    rw [this, py_bind_ok]
    exact ih (fun e he => h e (by simp [he])) _ ha

/-- **C79**: for all parameters of the dot and of the tunnelling given for one spin with `symmetry='spin'`, the dot and
the leads are constructed, the dot is diagonalised and the amplitudes are rotated without an error, and the approaches
see a system that is symmetric under rotations of the spin. -/
theorem c79_spin {si : SI} (hn : 1 ≤ n) (hev : n % 2 = 0) (hsi : SI.init n "ssq" = .ok si)
    {eigh : Eigh} (he : EighReal eigh) {hermC mLessN : Bool} (hamSsqQ : Bool) {hs : Param (Nat × Nat)} {cs : CoulombArg}
    (h : SpinInput n true hermC mLessN hs cs) (hr : RealInput hermC mLessN hs cs)
    {k : Nat} {ts0 : Param (Nat × Nat)} (hv : ts0.Valid)
    (hk : ∀ x ∈ (makeTleadsDict none ts0 false).map Prod.fst, x.1 < k ∧ x.2 < n / 2) :
    ∃ qd lt vals vecs Ea T, QD.init si (some (n / 2)) true hermC mLessN hamSsqQ hs cs = .ok qd ∧
      LeadsTun.init si (2 * k) (some (k, n / 2)) ts0 = .ok lt ∧
      qd.diagonalise eigh = .ok (vals, .ssq vecs, Ea) ∧ rotateTba si (2 * k) lt.tba0 (.ssq vecs) none = .ok T ∧
      ∀ (ix : String) (d : DM) (S : List (List Nat)) (L : Leads), Reach .dm n ix d S → d.si.indexing = .ssq →
        Complete n d.si S → (∀ c, n + 1 ≤ c → S[c]?.getD [] = []) → L.Tba = tbaOf (2 * k) (2 ^ n) T → SameLeads L k →
        SpinSymm (d.view (2 * k)) d.si.spinZ d.si.spinS d.si.multNo (fun b => Ea.getD b 0) L k := by
  obtain ⟨qd, H, C, vals, vecs, Ea, P, ψ, a1, -, -, a2, a3, a4, -, -, a5, -, a6⟩ := c76_spin hn hev hsi he hamSsqQ h hr
  have eq := (init_inv' a1).2.1
  rw [eq] at a3 a4
  obtain ⟨ts, b1, b2, b3⟩ := c79_tleads (n := n) hv hk
  obtain ⟨T0, T, c1, c2, -, c3⟩ := c79_symm hn hev hsi a6 a3 a4 a5 b2 b3
  obtain ⟨si', h1, hinv, -, -⟩ := init_inv n "ssq"
  rw [hsi] at h1
  cases h1
  obtain ⟨arr, harr⟩ := tleadsArray_ok (L := 2 * k) (m := si.nsingle) (tunKeys ts) (by
    intro e he
    obtain ⟨e', h', rfl⟩ := List.mem_map.1 he
    exact ⟨b2 e' h', by rw [hinv.nsingle]; exact e'.1.2.2⟩)
  refine ⟨qd, ⟨si, 2 * k, some (k, n / 2), tunKeys ts, arr, T0⟩, vals, vecs, Ea, T, a1, ?_, a2, c2, c3⟩
  unfold LeadsTun.init
  simp only [b1, harr, c1, py_bind_ok]
  rfl

/-- **C79** and C75 together: for the system of `c79_spin` the equations and currents of 1vN, Redfield and Lindblad with
'ssq' indexing, which have one unknown per pair of multiplets, say the same as those with 'Lin' or 'charge' indexing
for the same eigenstates, which have one unknown per pair of states. -/
theorem c79_reduced {si : SI} (hn : 1 ≤ n) (hev : n % 2 = 0) (hsi : SI.init n "ssq" = .ok si)
    {eigh : Eigh} (he : EighReal eigh) {hermC mLessN : Bool} (hamSsqQ : Bool) {hs : Param (Nat × Nat)} {cs : CoulombArg}
    (h : SpinInput n true hermC mLessN hs cs) (hr : RealInput hermC mLessN hs cs)
    {k : Nat} {ts0 : Param (Nat × Nat)} (hv : ts0.Valid)
    (hk : ∀ x ∈ (makeTleadsDict none ts0 false).map Prod.fst, x.1 < k ∧ x.2 < n / 2) :
    ∃ qd lt vals vecs Ea T, QD.init si (some (n / 2)) true hermC mLessN hamSsqQ hs cs = .ok qd ∧
      LeadsTun.init si (2 * k) (some (k, n / 2)) ts0 = .ok lt ∧
      qd.diagonalise eigh = .ok (vals, .ssq vecs, Ea) ∧ rotateTba si (2 * k) lt.tba0 (.ssq vecs) none = .ok T ∧
      ∀ {ix ix' : String} {d d' : DM} {S S' : List (List Nat)} {L : Leads} {v w : View} {E : Nat → ℝ},
        Reach .dm n ix d S → d.si.indexing = .ssq → Complete n d.si S → (∀ c, n + 1 ≤ c → S[c]?.getD [] = []) →
        Reach .dm n ix' d' S' → d'.si.indexing ≠ .ssq → d'.si.indexing ≠ .sz → (∀ c, n + 1 ≤ c → S'[c]?.getD [] = []) →
        (∀ c b : Nat, b ∈ S'[c]?.getD [] ↔ b ∈ S[c]?.getD []) →
        L.Tba = tbaOf (2 * k) (2 ^ n) T → SameLeads L k → v = d.view (2 * k) → w = d'.view (2 * k) →
        (E = fun b => Ea.getD b 0) → ∀ (symq : Bool) (lib : NumLib),
        (∃ f f' m m', genFct1vN v lib E L = .ok f ∧ genFct1vN w lib E L = .ok f' ∧
          VN1.kernel v symq E L.Tba f = .ok m ∧ VN1.kernel w symq E L.Tba f' = .ok m' ∧
          SameReduced v w d.labOf d'.labOf d.si.spinZ d.si.spinS d.si.multNo m m'
            (fun φ => List.map (·.ev) <$> VN1.genCurrent v L.Tba f φ)
            (fun φ => List.map (·.ev) <$> VN1.genCurrent w L.Tba f' φ)) ∧
        (∃ f f' m m', genFct1vN v lib E L = .ok f ∧ genFct1vN w lib E L = .ok f' ∧
          Redfield.kernel v symq E L.Tba f = .ok m ∧ Redfield.kernel w symq E L.Tba f' = .ok m' ∧
          SameReduced v w d.labOf d'.labOf d.si.spinZ d.si.spinS d.si.multNo m m'
            (fun φ => List.map (·.ev) <$> Redfield.genCurrent v L.Tba f φ)
            (fun φ => List.map (·.ev) <$> Redfield.genCurrent w L.Tba f' φ)) ∧
        ∃ t t' m m', Lindblad.genFct v E L = .ok t ∧ Lindblad.genFct w E L = .ok t' ∧
          Lindblad.kernel v symq E t = .ok m ∧ Lindblad.kernel w symq E t' = .ok m' ∧
          SameReduced v w d.labOf d'.labOf d.si.spinZ d.si.spinS d.si.multNo m m' (Lindblad.genCurrent v E t)
            (Lindblad.genCurrent w E t') := by
  obtain ⟨qd, lt, vals, vecs, Ea, T, a1, a2, a3, a4, a5⟩ := c79_spin hn hev hsi he hamSsqQ h hr hv hk
  refine ⟨qd, lt, vals, vecs, Ea, T, a1, a2, a3, a4, ?_⟩
  intro ix ix' d d' S S' L v w E b1 b2 b3 b4 b5 b6 b7 b8 b9 b10 b11 ev ew eE symq lib
  obtain ⟨o1, o2, o3⟩ := c75_objects (nleads := 2 * k) b1 b2 b3 b4 b5 b6 b7 b8 b9
  have o4 := a5 ix d S L b1 b2 b3 b4 b10 b11
  rw [← ev] at o1 o3 o4
  rw [← ew] at o2 o3
  rw [← eE] at o4
  exact ⟨c75_1vN o1 o2 o3 o4 symq lib, c75_redfield o1 o2 o3 o4 symq lib, c75_lindblad o1 o2 o3 o4 symq⟩

/-- One level with spin, coupled to two leads: the hypotheses of `c79_spin` and `c79_reduced`. With 'ssq' indexing there
are three unknowns, with 'charge' indexing six. -/
example : ∃ si eigh d d' S S', SI.init 2 "ssq" = .ok si ∧ EighReal eigh ∧
    SpinInput 2 true false true (.dict [((0, 0), 1)]) (.dict [((0, 0, 0, 0), 2)]) ∧
    RealInput false true (.dict [((0, 0), 1)]) (.dict [((0, 0, 0, 0), 2)]) ∧
    (Param.dict [((0, 0), Complex.I), ((1, 0), 2)]).Valid ∧
    (∀ x ∈ (makeTleadsDict none (.dict [((0, 0), Complex.I), ((1, 0), 2)]) false).map Prod.fst, x.1 < 2 ∧ x.2 < 2 / 2) ∧
    Reach .dm 2 "ssq" d S ∧ d.si.indexing = .ssq ∧ Complete 2 d.si S ∧ (∀ c, 2 + 1 ≤ c → S[c]?.getD [] = []) ∧
    Reach .dm 2 "charge" d' S' ∧ d'.si.indexing ≠ .ssq ∧ d'.si.indexing ≠ .sz ∧
    (∀ c, 2 + 1 ≤ c → S'[c]?.getD [] = []) ∧ (∀ c b : Nat, b ∈ S'[c]?.getD [] ↔ b ∈ S[c]?.getD []) ∧
    (∀ T : Arr, SameLeads ⟨fun l => if l % 2 = 0 then 1 else -1, fun _ => 1, fun _ => -10, fun _ => 10,
      tbaOf 4 4 T, 0, 100⟩ 2) ∧ d.ndm0r = 3 ∧ d'.ndm0r = 6 := by
  have key : (SI.init 2 "ssq" >>= fun si => DM.init .dm 2 "ssq" >>= fun d =>
      .ok (si.chargelst, d.si.chargelst, decide (d.si.indexing = .ssq), d.ndm0r)) =
      .ok ([[0], [1, 2], [3]], [[0], [1, 2], [3]], true, 3) := by decide +kernel
  have key' : (SI.init 2 "charge" >>= fun si' => DM.init .dm 2 "charge" >>= fun d' =>
      .ok (si'.chargelst, decide (d'.si.indexing = .ssq), decide (d'.si.indexing = .sz), d'.ndm0r)) =
      .ok ([[0], [1, 2], [3]], false, false, 6) := by decide +kernel
  obtain ⟨si, h1, _⟩ := init_inv 2 "ssq"
  obtain ⟨si', h1', _⟩ := init_inv 2 "charge"
  obtain ⟨⟨d, h2, h2'⟩, h3⟩ := c74_total (n := 2) rfl
  obtain ⟨d', h4, _⟩ := view_example
  obtain ⟨eigh, he⟩ := exists_eighReal
  rw [h1, h2] at key
  rw [h1', h4] at key'
  simp only [py_bind_ok, Except.ok.injEq, Prod.mk.injEq, decide_eq_false_iff_not, decide_eq_true_eq] at key key'
  obtain ⟨k1, k2, k4, k5⟩ := key
  obtain ⟨k9, k10, k11, k12⟩ := key'
  have r := Reach.init h1 h2
  have hc := (h3 d _ r).1
  rw [k2, ← k1] at hc
  have ho : ∀ c, 2 + 1 ≤ c → ([[0], [1, 2], [3]] : List (List Nat))[c]?.getD [] = [] := fun c hc => by
    rw [List.getElem?_eq_none (by simpa using hc)]; rfl
  refine ⟨si, eigh, d, d', si.chargelst, si'.chargelst, h1, he, ?_, ?_, ?_, ?_, r, k4, hc, by rw [k1]; exact ho,
    Reach.init h1' h4, k10, k11, by rw [k9]; exact ho, by intro c b; rw [k1, k9], ?_, k5, k12⟩
  · refine ⟨?_, ?_, ?_, ?_, ?_, ?_, ?_, ?_⟩ <;>
      simp [Param.Valid, CoulombArg.Valid, makeHsingleDict, makeCoulombDict, UpKey]
  · refine ⟨?_, ?_, ?_⟩ <;> simp [makeHsingleDict, makeCoulombDict, map_ofNat]
  · simp [Param.Valid]
  · simp [makeTleadsDict]
  · intro T i _
    simp

end

end Verif
