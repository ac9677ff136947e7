import Verif.Props.PhasesRTD
import Verif.Props.BasisDiag

/-!
C69 from the parameters of the dot: if states of equal charge have different energies, two routines for the
eigenvectors differ in phases only, and Pauli and RTD give the same result with both.
-/

namespace Verif

open Finset Spec
open scoped ComplexConjugate

noncomputable section

theorem norm_unit {z : ℂ} (h : z * conj z = 1) : ‖z‖ = 1 := by
  rw [Complex.mul_conj'] at h
  have : ‖z‖ ^ 2 = 1 := by exact_mod_cast h
  nlinarith [norm_nonneg z]

/-- A change of the basis that mixes no states is a change of phases. -/
theorem phases_of_basis {v : View} {la : Lab} {E : Nat → ℝ} {U : Nat → Nat → ℂ} {w : Nat → ℂ}
    {T T' : Nat → Nat → Nat → ℂ} (hb : Eigenbasis v la E U) (hT : NewTba v U w T T')
    (hE : ∀ q, ∀ b ∈ v.row q, ∀ y ∈ v.row q, E b = E y → b = y) (tl : Nat → Nat → ℂ) :
    ∃ u, Phases v u w (fun _ => 1) T T' tl fun l n => w l * tl l n := by
  classical
  have off : ∀ {q b y}, b ∈ v.row q → y ∈ v.row q → b ≠ y → U b y = 0 := by
    intro q b y h1 h2 hne
    by_contra h3
    exact hne (hE q b h1 y h2 (hb.energy q b h1 y h2 h3))
  have dg : ∀ {q b}, b ∈ v.row q → ‖U b b‖ = 1 := by
    intro q b hbq
    have := hb.unitary q b hbq b hbq
    rw [if_pos rfl, sum_eq_single b] at this
    · exact norm_unit (by rw [mul_comm]; exact this)
    · intro x hx hne
      rw [off (List.mem_toFinset.1 hx) hbq hne, mul_zero]
    · intro hx
      exact absurd (List.mem_toFinset.2 hbq) hx
  let u : Nat → ℂ := fun b => if ∃ q, b ∈ v.row q then U b b else 1
  have hu : ∀ {q b}, b ∈ v.row q → u b = U b b := fun hbq => if_pos ⟨_, hbq⟩
  have one : ∀ {q b} (f : Nat → ℂ), b ∈ v.row q → (∀ y ∈ v.row q, y ≠ b → f y = 0) →
      ∑ y ∈ (v.row q).toFinset, f y = f b := by
    intro q b f hbq h0
    apply sum_eq_single b
    · intro x hx hne
      exact h0 x (List.mem_toFinset.1 hx) hne
    · intro hx
      exact absurd (List.mem_toFinset.2 hbq) hx
  refine ⟨u, ?_, fun l => norm_unit (hT.phase l), fun _ => norm_one, ?_, ?_, fun _ _ => by ring⟩
  · intro b
    by_cases hbq : ∃ q, b ∈ v.row q
    · obtain ⟨q, hq⟩ := hbq
      rw [hu hq]
      exact dg hq
    · simp only [u, if_neg hbq, norm_one]
  · intro l q c b hc hbr
    rw [hT.up l q c hc b hbr, one (b := c) _ hc, one (b := b) _ hbr, hu hc, hu hbr]
    · ring
    · intro y hy hne
      rw [off hbr hy hne.symm, map_zero, mul_zero]
    · intro y hy hne
      refine sum_eq_zero fun z _ => ?_
      rw [off hc hy hne.symm, zero_mul, zero_mul]
  · intro l q c b hc hbr
    rw [hT.down l q c hc b hbr, one (b := b) _ hbr, one (b := c) _ hc, hu hc, hu hbr]
    · ring
    · intro y hy hne
      rw [off hc hy hne.symm, map_zero, mul_zero]
    · intro y hy hne
      refine sum_eq_zero fun z _ => ?_
      rw [off hbr hy hne.symm, zero_mul, zero_mul]

/-- **C69** from the parameters of the dot and of the tunnelling to the results, with 'charge' indexing and all states
considered, after any removals of Fock states: let `eigh` and `eigh'` be two routines that return ascending eigenvalues
and orthonormal eigenvectors, let the amplitudes of lead `l` in the second calculation have an additional phase `w l`, and
let states of equal charge have different energies. The transition rates of Pauli and Lindblad, the kernel of RTD and all
currents are the same. -/
theorem c69_eigh {n : Nat} {si : SI} (hr : ReachedSI n si) (hc : Consistent n si) (hix : si.indexing = .charge)
    {indexing : String} {d : DM} (hd : Reach .dm n indexing d si.chargelst) (hdi : d.si = { si with statesChanged := d.si.statesChanged })
    {eigh eigh' : Eigh} (ho : EighOk eigh) (ho' : EighOk eigh') (hes : EighSorted eigh) (hes' : EighSorted eigh')
    {nss : Option Nat} {mLessN hamSsqQ : Bool} {hs0 : Param (Nat × Nat)} {cs0 : CoulombArg} {qd0 qd : QD}
    (h0 : QD.init si nss true true mLessN hamSsqQ hs0 cs0 = .ok qd0)
    (calls : List DotCall) (hv : ∀ c ∈ calls, c.Valid) (hrun : qd0.run calls = .ok qd)
    (hs : List ((Fin n × Fin n) × ℂ)) (cs : List ((Fin n × Fin n × Fin n × Fin n) × ℂ))
    (hhs : qd.hsingle = hopKeys hs) (hcs : qd.coulomb = coulKeys cs)
    (hreal : ∀ e ∈ hs, e.1.1 = e.1.2 → star e.2 = e.2)
    (hU : ∀ m p k l U, ((m, p, k, l), U) ∈ cs → m = l → p = k → star U = U)
    (hkl : mLessN = true → ∀ m p k l U, ((m, p, k, l), U) ∈ cs → l > k → m = l ∧ p = k)
    (nl : Nat) (ts : List ((Nat × Fin n) × ℂ)) (hts : ∀ e ∈ ts, e.1.1 < nl)
    (w : Nat → ℂ) (hw : ∀ l, w l * conj (w l) = 1) :
    ∃ (T0 T0' T T' : Arr) (vals : Vals) (vecs vecs' : List Arr) (Ea : List ℝ),
      constructTba si nl (tunKeys ts) none = .ok T0 ∧ constructTba si nl (tunKeys (phased w ts)) none = .ok T0' ∧
      qd.diagonalise eigh = .ok (vals, .charge vecs, Ea) ∧ qd.diagonalise eigh' = .ok (vals, .charge vecs', Ea) ∧
      rotateTba si nl T0 (.charge vecs) none = .ok T ∧ rotateTba si nl T0' (.charge vecs') none = .ok T' ∧
      ((∀ q, ∀ b ∈ (d.view nl).row q, ∀ y ∈ (d.view nl).row q, enOf Ea b = enOf Ea y → b = y) →
        (∀ L : Leads, L.Tba = tbaOf nl si.nmany T →
          Pauli.genFct (d.view nl) (enOf Ea) (L.withTba (tbaOf nl si.nmany T')) = Pauli.genFct (d.view nl) (enOf Ea) L) ∧
        ∀ (s : RTD.In) (off symq : Bool), s.v = d.view nl → s.E = enOf Ea → s.L.Tba = tbaOf nl si.nmany T →
          let s' := s.withTba (tbaOf nl si.nmany T') fun l n => w l * s.tl l n
          (do let f ← Pauli.genFct s'.v s'.E s'.L
              let st ← RTD.genKern s' f off (RTD.fresh s'.v symq)
              pure st.kern) =
            (do let f ← Pauli.genFct s.v s.E s.L
                let st ← RTD.genKern s f off (RTD.fresh s.v symq)
                pure st.kern) ∧
          ∀ LN φ,
            (do let f ← Pauli.genFct s'.v s'.E s'.L
                let st ← RTD.genKern s' f off (RTD.fresh s'.v symq)
                RTD.genCurrent s' LN st.acc φ) =
            (do let f ← Pauli.genFct s.v s.E s.L
                let st ← RTD.genKern s f off (RTD.fresh s.v symq)
                RTD.genCurrent s LN st.acc φ)) := by
  obtain ⟨T0, T0', T, T', vals, vecs, vecs', Ea, U, g1, g1', f1, f1', g3, g3', hok, hall, b1, b2, g5, g5'⟩ :=
    eigh_basis hr hc hix hd hdi ho ho' hes hes' h0 calls hv hrun hs cs hhs hcs hreal hU hkl nl ts hts w hw
  refine ⟨T0, T0', T, T', vals, vecs, vecs', Ea, g1, g1', f1, f1', g3, g3', fun hE => ⟨?_, ?_⟩⟩
  · intro L hL
    rw [← hL] at b2
    obtain ⟨u, hu⟩ := phases_of_basis b1 b2 hE fun _ _ => 0
    exact c69_pauli hok hu _
  · intro s off symq h1 h2 h3
    rw [← h3] at b2
    rw [← h2] at b1
    rw [← h1] at hok hall b1 b2
    obtain ⟨u, hu⟩ := phases_of_basis b1 b2 (by rw [h1, h2]; exact hE) s.tl
    exact RTD.c69_rtd hok hu off symq fun _ => hall

/-- Two orthonormal vectors are no eigenvectors to the same energy if the matrix is not diagonal. -/
theorem two_energies {h1 h2 a b a' b' e : ℂ} (h : h2 ≠ 0) (k1 : h1 * a + h2 * b = a * e) (k2 : h1 * a' + h2 * b' = a' * e)
    (u1 : conj a * a + conj b * b = 1) (u2 : conj a * a' + conj b * b' = 0) (u3 : conj a' * a' + conj b' * b' = 1) :
    False := by
  have u2' := congrArg conj u2
  simp only [map_add, map_mul, Complex.conj_conj, map_zero] at u2'
  have hdet : h2 * (a * b' - a' * b) = 0 := by linear_combination a * k2 - a' * k1
  have hdet := (mul_eq_zero.1 hdet).resolve_left h
  refine one_ne_zero (α := ℂ) ?_
  calc (1 : ℂ) = (conj a * a + conj b * b) * (conj a' * a' + conj b' * b') -
      (conj a * a' + conj b * b') * (a * conj a' + b * conj b') := by rw [u1, u2, u3]; ring
    _ = (a * b' - a' * b) * (conj a * conj b' - conj a' * conj b) := by ring
    _ = 0 := by rw [hdet, zero_mul]

/-- A case of `c69_eigh`: two orbitals with a hopping amplitude; the two states with one electron have different
energies. -/
example : ∃ (si : SI) (d : DM) (eigh eigh' : Eigh) (qd0 qd : QD), ReachedSI 2 si ∧ Consistent 2 si ∧
    si.indexing = .charge ∧ Reach .dm 2 "charge" d si.chargelst ∧ d.si = { si with statesChanged := d.si.statesChanged } ∧
    EighOk eigh ∧ EighOk eigh' ∧ EighSorted eigh ∧ EighSorted eigh' ∧ eigh ≠ eigh' ∧
    QD.init si none true true true true (.dict (hopKeys (n := 2) [((0, 1), Complex.I)])) (.dict (coulKeys (n := 2) [])) = .ok qd0 ∧
    qd0.run [.add (.dict (hopKeys (n := 2) [((0, 0), 1)])) (.dict [])] = .ok qd ∧
    qd.hsingle = hopKeys (n := 2) [((0, 1), Complex.I), ((0, 0), 1)] ∧ qd.coulomb = coulKeys (n := 2) [] ∧
    ∃ vals vecs Ea, qd.diagonalise eigh = .ok (vals, .charge vecs, Ea) ∧
      ∀ q, ∀ b ∈ (d.view 2).row q, ∀ y ∈ (d.view 2).row q, enOf Ea b = enOf Ea y → b = y := by
  obtain ⟨si, d, eigh, eigh', qd0, qd, hrun, hr, hc, hix, hd, hds, t1, t2, t3, t4, t5, g1, g2, g3, g4⟩ := eigh_case [] (.inl rfl)
  refine ⟨si, d, eigh, eigh', qd0, qd, hr, hc, hix, hd, hds, t1, t2, t3, t4, t5, g1, g2, g3, g4, ?_⟩
  obtain ⟨e1, ham, hham⟩ := dot_ham hr hc (.inr hix) g1 _ (by simp [DotCall.Valid, Param.Valid, CoulombArg.Valid, hopKeys]) g2 _ _ g3 g4
    (by simp) (by simp) (by simp)
  subst e1
  have hrow : qd.si.chargelst = [[0], [1, 2], [3]] ∧ qd.si.nmany = 4 ∧ qd.si.getState 1 = .ok [0, 1] ∧ qd.si.getState 2 = .ok [1, 0] := by
    have h : (SI.run 2 "charge" [] >>= fun si => pure (si.chargelst, si.nmany, si.getState 1, si.getState 2)) =
      .ok ([[0], [1, 2], [3]], 4, .ok [0, 1], .ok [1, 0]) := by decide +kernel
    rw [hrun] at h
    simpa using Except.ok.inj h
  obtain ⟨r1, r2, r3, r4⟩ := hrow
  have row1 : chargeRow qd.si 1 = [1, 2] := by rw [chargeRow, r1]; rfl
  obtain ⟨vals, vecs, Ea, P, f1, f2, f3, f4⟩ := c54_charge hr (.inr hix) t1 ham fun c hcn =>
    ⟨(hham c hcn).1, (hham c hcn).2.1, (hham c hcn).2.2.1⟩
  refine ⟨vals, vecs, Ea, f1, ?_⟩
  have hinv := hr.inv
  have hgetH : ∀ c ≤ 2, ((List.range 3).map ham)[c]? = some (ham c) := by
    intro c hc
    rw [List.getElem?_map, List.getElem?_range (by omega)]
    rfl
  obtain ⟨H, -, hH⟩ := pmtr_charge hinv (.inr hix) (v := (List.range 3).map ham)
    (fun c hc => ⟨_, hgetH c hc, (hham c hc).2.1⟩)
  have hH : BlockDiag qd.si.nmany (List.range 3) (chargeRow qd.si) ham H := by
    refine ⟨hH.dims, ?_, hH.outside⟩
    intro c hc i j hi hj
    rw [hH.inside c hc i j hi hj, List.getD_eq_getElem?_getD, hgetH c (by rw [List.mem_range] at hc; omega)]
    rfl
  have hD := f4 H hH
  obtain ⟨Q, q1, q2⟩ := pmtr_charge hinv (.inr hix) f2
  cases Except.ok.inj (q1.symm.trans f3)
  have hlen := (hinv.qn_charge (.inr hix)).1
  have hrow := fun q => view_row_all (nleads := 2) hinv hd hlen q
  have out : ∀ b a, ((b = 0 ∨ b = 3) ∧ (a = 1 ∨ a = 2) ∨ (a = 0 ∨ a = 3) ∧ (b = 1 ∨ b = 2)) →
      ¬ ∃ s ∈ List.range 3, b ∈ chargeRow qd.si s ∧ a ∈ chargeRow qd.si s := by
    rintro b a h ⟨s, s1, s2, s3⟩
    rw [chargeRow, r1] at s2 s3
    rw [List.mem_range] at s1
    interval_cases s <;> simp at s2 s3 <;> omega
  have h12 : H.val [1, 2] ≠ 0 := by
    have e := hH.inside 1 (by simp) 0 1 (by rw [row1]; decide) (by rw [row1]; decide)
    simp only [row1] at e
    change H.val [1, 2] = _ at e
    rw [e, (hham 1 (by omega)).2.2.2 0 1 (by rw [row1]; decide) (by rw [row1]; decide) ![false, true] ![true, false]
      (by simp only [row1]; exact r3) (by simp only [row1]; exact r4), Matrix.add_apply]
    have e2 : (coulOp true true ([] : List ((Fin 2 × Fin 2 × Fin 2 × Fin 2) × ℂ))) ![false, true] ![true, false] = 0 := rfl
    rw [e2, add_zero, hopOp, sum_apply]
    simp only [List.map_cons, List.map_nil, List.sum_cons, List.sum_nil, hopTerm_apply]
    rw [hop_mono (show (0 : Fin 2) ≠ 1 by decide) _ _, hop_mono (show (0 : Fin 2) ≠ 1 by decide) _ _,
      number_mono 0 _ _]
    have e3 : (if (![true, false] : Occ 2) 0 = true ∧ (![true, false] : Occ 2) 1 = false then
        some (sgn (![true, false] : Occ 2) 0 * sgn (![true, false] : Occ 2) 1 * if (0 : Fin 2) > 1 then 1 else -1,
          Function.update (Function.update (![true, false] : Occ 2) 0 false) 1 true) else none) =
        some (1, ![false, true]) := by decide
    simp only [e3]
    simp
  rw [r2] at hD
  have main : enOf Ea 1 ≠ enOf Ea 2 := by
    intro he
    have ge : ∀ b, b < 4 → Ea[b]? = some (enOf Ea b) := by
      intro b hb
      have : b < Ea.length := by rw [hD.length]; exact hb
      rw [enOf, List.getD_eq_getElem?_getD, List.getElem?_eq_getElem this]
      rfl
    have z : ∀ b, (b = 1 ∨ b = 2) → P.val [0, b] = 0 ∧ P.val [3, b] = 0 := fun b hb =>
      ⟨q2.outside 0 b (out 0 b (by tauto)), q2.outside 3 b (out 3 b (by tauto))⟩
    have k1 := hD.eigen 1 1 _ (by omega) (ge 1 (by omega))
    have k2 := hD.eigen 1 2 _ (by omega) (ge 2 (by omega))
    have u1 := hD.unitary 1 1 (by omega) (by omega)
    have u2 := hD.unitary 1 2 (by omega) (by omega)
    have u3 := hD.unitary 2 2 (by omega) (by omega)
    rw [← he] at k2
    simp only [sum_range_succ, range_zero, sum_empty, zero_add, (z 1 (.inl rfl)).1, (z 1 (.inl rfl)).2, (z 2 (.inr rfl)).1,
      (z 2 (.inr rfl)).2, mul_zero, add_zero, map_zero] at k1 k2 u1 u2 u3
    rw [if_pos trivial] at u1 u3
    rw [if_neg (by decide)] at u2
    exact two_energies h12 k1 k2 u1 u2 u3
  intro q b hb y hy he
  rw [hrow] at hb hy
  by_cases hq : q ≤ 2
  · rw [if_pos hq, chargeRow, r1] at hb hy
    interval_cases q <;> simp at hb hy
    · omega
    · rcases hb with rfl | rfl <;> rcases hy with rfl | rfl
      · rfl
      · exact absurd he main
      · exact absurd he.symm main
      · rfl
    · omega
  · rw [if_neg hq] at hb
    simp at hb

end

end Verif
