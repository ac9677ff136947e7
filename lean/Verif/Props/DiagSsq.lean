import Verif.Lemmas.DiagSsq
import Verif.Props.RotateSsq

/-! C76: the diagonalisation for 'ssq' indexing. -/

namespace Verif
open Verif.Spec Matrix

variable {n : Nat}

section
variable {si : SI} (h : SIInv n si) (hix : si.indexing = .ssq) (hN : si.nmany = 2 ^ n)
include h hix

theorem ssq_hasQn {b c : Nat} {z q : Int} {α : Nat} (hb : HasQn si b c z q α) :
    ∃ k j, c ≤ n ∧ k ≤ szW n c ∧ j ≤ ssqE n c k ∧ z = -(szW n c : Int) + 2 * (k : Int) ∧
      q = (szW n c : Int) - 2 * ((ssqE n c k - j : Nat) : Int) ∧ (ssqCell n c k j)[α]? = some b := by
  obtain ⟨c', k, j, α', g1, g2, g3, g4, g5⟩ := h.ssq_key hix hb
  simp only [List.cons.injEq, Nat.cast_inj, and_true] at g4
  obtain ⟨rfl, rfl, rfl, rfl⟩ := g4
  refine ⟨k, j, g1, g2, g3, rfl, ?_, g5⟩
  unfold ssqE at *
  omega

theorem ssq_qn_lt {b : Nat} {key : QN} (hb : si.indQn.get? b = some key) : b < si.nmany := by
  have := ((dictsOk_of_inv h).domain b).1 ⟨key, hb⟩
  exact this

theorem ssq_loc {b : Nat} (hb : b < si.nmany) : ∃ c k j α : Nat, c ≤ n ∧ k ≤ szW n c ∧ j ≤ ssqE n c k ∧
    (ssqCell n c k j)[α]? = some b := by
  obtain ⟨key, hkey⟩ := ((dictsOk_of_inv h).domain b).2 hb
  obtain ⟨c, k, j, α, g1, g2, g3, -, g5⟩ := h.ssq_key hix hkey
  exact ⟨c, k, j, α, g1, g2, g3, g5⟩

theorem ssq_loc_unique {b c k j α c' k' j' α' : Nat} (hc : c ≤ n) (hk : k ≤ szW n c) (hj : j ≤ ssqE n c k)
    (hb : (ssqCell n c k j)[α]? = some b) (hc' : c' ≤ n) (hk' : k' ≤ szW n c') (hj' : j' ≤ ssqE n c' k')
    (hb' : (ssqCell n c' k' j')[α']? = some b) : c = c' ∧ k = k' ∧ j = j' ∧ α = α' := by
  have e1 := (h.ssq_get hix hc hk hj hb).1
  have e2 := (h.ssq_get hix hc' hk' hj' hb').1
  rw [e1] at e2
  simp only [Option.some.injEq, List.cons.injEq, Nat.cast_inj, and_true] at e2
  obtain ⟨rfl, e2, e3, rfl⟩ := e2
  have : k = k' := by omega
  subst this
  exact ⟨rfl, rfl, by omega, rfl⟩

end

/-- The loops over charges, projections and total spins. -/
theorem foldlM_ssq {β : Type} (n : Nat) (f : β → Nat → Int → Int → Py β) (p : β) :
    (List.range (n + 1)).foldlM (fun p (c : Nat) => (szrange c n).foldlM (fun p sz =>
        (ssqrange c sz n).foldlM (fun p q => f p c sz q) p) p) p
      = ((szSectors n).flatMap fun s => (List.range (ssqE n s.1 s.2 + 1)).map fun j => (s, j)).foldlM
        (fun p (u : (Nat × Nat) × Nat) => f p u.1.1 (-(szW n u.1.1 : Int) + 2 * u.1.2)
          (((szW n u.1.1 - 2 * ssqE n u.1.1 u.1.2 : Nat) : Int) + 2 * (u.2 : Int))) p := by
  rw [foldlM_sz n (fun p c sz => (ssqrange c sz n).foldlM (fun p q => f p c sz q) p),
    ← foldlM_nested (fun p (s : Nat × Nat) (j : Nat) => f p s.1 (-(szW n s.1 : Int) + 2 * s.2)
          (((szW n s.1 - 2 * ssqE n s.1 s.2 : Nat) : Int) + 2 * (j : Int)))]
  refine foldlM_congr ?_
  rintro q ⟨c, k⟩ hs
  obtain ⟨hc, hk⟩ := mem_szSectors.1 hs
  dsimp only at hc hk ⊢
  rw [ssqrange_sz n c k hc hk, List.foldlM_map]
  rfl

theorem Cells.spinBasis {si : SI} (hev : n % 2 = 0) (h : SIInv n si) (hix : si.indexing = .ssq)
    (hN : si.nmany = 2 ^ n) {H : Matrix (Occ n) (Occ n) ℂ} {cells : Nat → Nat → Nat → List ℝ × Arr}
    {φ : Nat → Nat → Nat → Nat → Occ n → ℂ} (hC : Cells n si H cells φ) {ψ : Nat → Occ n → ℂ} {E : Nat → ℝ}
    (hψ : ∀ c k j α b, c ≤ n → k ≤ szW n c → j ≤ ssqE n c k → (ssqCell n c k j)[α]? = some b → ψ b = φ c k j α)
    (hE : ∀ c k j α b, c ≤ n → k ≤ szW n c → j ≤ ssqE n c k → (ssqCell n c k j)[α]? = some b →
      E b = (cells c k j).1.getD α 0) : SpinBasis si H ψ E := by
  have hlt : ∀ {c k j α b : Nat}, (ssqCell n c k j)[α]? = some b → α < ssqM n c k j := by
    intro c k j α b hb
    have := (List.getElem?_eq_some_iff.1 hb).1
    simpa [ssqCell] using this
  refine ⟨?_, ?_, ?_, ?_, ?_, ?_, ?_⟩
  · intro a b ha hb
    obtain ⟨c, k, j, α, g1, g2, g3, g4⟩ := ssq_loc h hix (by rw [hN]; exact ha)
    obtain ⟨c', k', j', α', f1, f2, f3, f4⟩ := ssq_loc h hix (by rw [hN]; exact hb)
    rw [hψ c k j α a g1 g2 g3 g4, hψ c' k' j' α' b f1 f2 f3 f4]
    have J := hC.joint c k j g1 g2 g3
    have J' := hC.joint c' k' j' f1 f2 f3
    have e1 := hlt g4
    have e2 := hlt f4
    by_cases hcz : c ≠ c' ∨ (-(szW n c : Int) + 2 * (k : Int)) ≠ -(szW n c' : Int) + 2 * (k' : Int)
    · rw [ip_sec_ne (J.sec α e1) (J'.sec α' e2) hcz, if_neg]
      rintro rfl
      obtain ⟨rfl, rfl, -, -⟩ := ssq_loc_unique h hix g1 g2 g3 g4 f1 f2 f3 f4
      simp at hcz
    · push Not at hcz
      obtain ⟨rfl, hz⟩ := hcz
      have : k = k' := by omega
      subst this
      by_cases hj : j = j'
      · subst hj
        rw [J.orth α α' e1 e2]
        refine if_congr ⟨?_, ?_⟩ rfl rfl
        · rintro rfl
          rw [g4] at f4
          exact Option.some.inj f4
        · rintro rfl
          exact (ssq_loc_unique h hix g1 g2 g3 g4 f1 f2 f3 f4).2.2.2
      · rw [ip_spin_ne (J.spin α e1) (J'.spin α' e2) (by unfold ssqE at *; omega) (by unfold ssqE at *; omega)
          (by omega), if_neg]
        rintro rfl
        exact hj (ssq_loc_unique h hix g1 g2 g3 g4 f1 f2 f3 f4).2.2.1
  · intro b hb
    obtain ⟨c, k, j, α, g1, g2, g3, g4⟩ := ssq_loc h hix (by rw [hN]; exact hb)
    rw [hψ c k j α b g1 g2 g3 g4, hE c k j α b g1 g2 g3 g4]
    exact (hC.joint c k j g1 g2 g3).eig α (hlt g4)
  · intro b hb
    obtain ⟨c, k, j, α, g1, g2, g3, g4⟩ := ssq_loc h hix (by rw [hN]; exact hb)
    exact ⟨c, _, _, α, (h.ssq_get hix g1 g2 g3 g4).1⟩
  · intro b c z q α hb
    obtain ⟨k, j, g1, g2, g3, rfl, rfl, g6⟩ := ssq_hasQn h hix hb
    have J := hC.joint c k j g1 g2 g3
    rw [hψ c k j α b g1 g2 g3 g6]
    exact ⟨by rw [← hN]; exact ssq_qn_lt h hix hb, J.sec α (hlt g6), J.spin α (hlt g6)⟩
  · intro b b' c z q α hb hb'
    obtain ⟨k, j, g1, g2, g3, rfl, rfl, g6⟩ := ssq_hasQn h hix hb
    obtain ⟨k', j', f1, f2, f3, f4, f5, f6⟩ := ssq_hasQn h hix hb'
    have : k' = k + 1 := by omega
    subst this
    rw [hψ c k j α b g1 g2 g3 g6, hψ c (k + 1) j' α b' f1 f2 f3 f6,
      hC.step c k j j' g1 f2 g3 f3 (by omega) α (hlt g6)]
    unfold raise
    have hl := lad_ne (q := (szW n c : Int) - 2 * ((ssqE n c k - j : Nat) : Int))
      (z := -(szW n c : Int) + 2 * (k : Int)) (by unfold ssqE at *; omega) (by unfold ssqE at *; omega)
    rw [smul_smul]
    unfold lad at hl ⊢
    rw [Complex.ofReal_div, show ((2 : ℝ) : ℂ) = 2 by norm_num, div_mul_div_cancel₀' hl, div_self (by norm_num),
      one_smul]
  · intro b c q α hb
    obtain ⟨k, j, g1, g2, g3, g4, g5, g6⟩ := ssq_hasQn h hix hb
    have J := hC.joint c k j g1 g2 g3
    rw [hψ c k j α b g1 g2 g3 g6]
    have s1 := J.sec α (hlt g6)
    have s2 := J.spin α (hlt g6)
    rw [← g4] at s1
    rw [← g5] at s2
    refine ip_self_eq_zero ?_
    rw [ip_adj, ← cM_eq, down_up_spin hev s1 s2, sub_self]
    simp [ip]
  · intro b b' c z z' q α hb hb'
    obtain ⟨k, j, g1, g2, g3, g4, g5, g6⟩ := ssq_hasQn h hix hb
    obtain ⟨k', j', f1, f2, f3, f4, f5, f6⟩ := ssq_hasQn h hix hb'
    rw [hE c k j α b g1 g2 g3 g6, hE c k' j' α b' f1 f2 f3 f6,
      hC.same c k j k' j' g1 g2 g3 f2 f3 (by omega)]

/-- C76: with 'ssq' indexing and a Hamiltonian `H` that conserves charge and spin, `diagonalise` does not
raise, and the matrix of eigenvectors that the rotation uses holds, column by column, eigenstates of
the Hamiltonian ordered in spin multiplets according to the quantum numbers of `si`. Only the blocks with
spin projection 0 and -1/2 are diagonalised. -/
theorem c76_basis {qd : QD} (hn : 1 ≤ n) (hev : n % 2 = 0) (hsi : SI.init n "ssq" = .ok qd.si)
    {eigh : Eigh} (he : EighReal eigh) {H : Matrix (Occ n) (Occ n) ℂ} (hH : SpinConserving H)
    (hham : ∀ c ≤ n, ∃ ham lst, qd.hamlst c (szToInd (-((c % 2 : Nat) : Int)) c n) = some ham ∧
      qd.si.getLst (some c) (some (-((c % 2 : Nat) : Int))) none = .ok (some lst) ∧
      ham.dims = [lst.length, lst.length] ∧
      ∀ p q (hp : p < lst.length) (hq : q < lst.length) (s s' : Occ n),
        qd.si.getState (lst[p] : Nat) = .ok (ofOcc s) → qd.si.getState (lst[q] : Nat) = .ok (ofOcc s') →
        ham.val [p, q] = H s s') :
    ∃ vals vecs Ea P ψ, qd.diagonalise eigh = .ok (vals, .ssq vecs, Ea) ∧ SsqVecs n qd.si vecs ∧
      constructFullPmtr qd.si (.ssq vecs) = .ok P ∧ Ea.length = 2 ^ n ∧ P.dims = [2 ^ n, 2 ^ n] ∧
      (∀ a b (s : Occ n), b < 2 ^ n → qd.si.getState (a : Nat) = .ok (ofOcc s) → P.val [a, b] = ψ b s) ∧
      SpinBasis qd.si H ψ fun b => Ea.getD b 0 := by
  obtain ⟨hcons, hN, -, hns⟩ := SpinSI.facts ⟨hn, hev, "ssq", Or.inr rfl, hsi⟩
  obtain ⟨si', h1, h, hch, hr⟩ := init_inv n "ssq"
  rw [hsi] at h1
  cases h1
  have hix : qd.si.indexing = .ssq := by rw [hch]; simp [chooseIndexing, hev]
  obtain ⟨cells, φ, hC, hst⟩ := cells_ok hn hev hsi he hH (by
    intro c hc
    obtain ⟨ham, lst, a1, a2, a3, a4⟩ := hham c hc
    have hk0 := lowK_ok hev hc
    have hlow : -((c % 2 : Nat) : Int) = -(szW n c : Int) + 2 * (lowK n c : Int) := by omega
    rw [hlow] at a1 a2
    rw [szToInd_range n c _ hc] at a1
    have e : lst = szCell qd.si (c, lowK n c) := by
      obtain ⟨T, R, l, t1, t2, t3, -⟩ := h.sz_row (.inr hix) c (lowK n c) hc (by omega)
      unfold SI.getLst at a2
      simp only [t1, t2, py_bind_ok, hns, szToInd_range n c _ hc, t3, py_pure] at a2
      cases a2
      unfold szCell
      rw [t1, Option.getD_some, pyGet_getD t2, pyGet_getD t3]
    subst e
    exact ⟨ham, a1, a3, a4⟩)
  -- look up in the tables
  have look : ∀ {β : Type} (f : Nat → Nat → Nat → β) (c k j : Nat), c ≤ n → k ≤ szW n c → j ≤ ssqE n c k →
      ((List.range (n + 1)).map fun c => (List.range (szW n c + 1)).map fun k =>
        (List.range (ssqE n c k + 1)).map fun j => f c k j)[c]?
        = some ((List.range (szW n c + 1)).map fun k => (List.range (ssqE n c k + 1)).map fun j => f c k j) ∧
      ((List.range (szW n c + 1)).map fun k => (List.range (ssqE n c k + 1)).map fun j => f c k j)[k]?
        = some ((List.range (ssqE n c k + 1)).map fun j => f c k j) ∧
      ((List.range (ssqE n c k + 1)).map fun j => f c k j)[j]? = some (f c k j) := by
    intro β f c k j hc hk hj
    refine ⟨?_, ?_, ?_⟩
    · rw [List.getElem?_map, List.getElem?_range (by omega)]; rfl
    · rw [List.getElem?_map, List.getElem?_range (by omega)]; rfl
    · rw [List.getElem?_map, List.getElem?_range (by omega)]; rfl
  set vals : List (List (List (List ℝ))) := (List.range (n + 1)).map fun c =>
    (List.range (szW n c + 1)).map fun k => (List.range (ssqE n c k + 1)).map fun j => (cells c k j).1 with hvals
  set vecs : List (List (List Arr)) := (List.range (n + 1)).map fun c =>
    (List.range (szW n c + 1)).map fun k => (List.range (ssqE n c k + 1)).map fun j => (cells c k j).2 with hvecs
  have hcl : ∀ c k j, c ≤ n → k ≤ szW n c → j ≤ ssqE n c k → (ssCell qd.si c k j).length = ssqM n c k j ∧
      ssCell qd.si c k j = ssqCell n c k j := by
    intro c k j hc hk hj
    have e := (h.ssCell_ok hix hc hk).2.2 j hj
    rw [e]
    exact ⟨by simp [ssqCell], rfl⟩
  have hv : SsqVecs n qd.si vecs := by
    intro c k hc hk
    obtain ⟨l1, l2, -⟩ := look (fun c k j => (cells c k j).2) c k 0 hc hk (Nat.zero_le _)
    refine ⟨_, _, l1, l2, by simp [ssqE, szW], ?_⟩
    intro j m hj
    rw [List.getElem?_eq_some_iff] at hj
    obtain ⟨hj, rfl⟩ := hj
    have hj : j ≤ ssqE n c k := by simp at hj; omega
    rw [List.getElem_map, List.getElem_range, hC.dims c k j hc hk hj, (hcl c k j hc hk hj).1]
  have hvec : ∀ c k j, c ≤ n → k ≤ szW n c → j ≤ ssqE n c k → ssVec vecs c k j = (cells c k j).2 := by
    intro c k j hc hk hj
    obtain ⟨l1, l2, l3⟩ := look (fun c k j => (cells c k j).2) c k j hc hk hj
    unfold ssVec
    rw [(getElem?_pyGet l1).2, (getElem?_pyGet l2).2, (getElem?_pyGet l3).2]
  obtain ⟨V, hV⟩ := hv.join h hix
  obtain ⟨P, eP, hP⟩ := pmtr_ssq h hix hv fun c k hc hk => (hV c k hc hk).2
  have hB := ssqBlocks_of h hix (fun c k hc hk => (hV c k hc hk).2) hP
  -- the energies
  obtain ⟨Ea, eE, lE, vE, -⟩ := fillVals_fold (N := qd.si.nmany)
    (row := fun u : (Nat × Nat) × Nat => ssqCell n u.1.1 u.1.2 u.2)
    (w := fun u => (cells u.1.1 u.1.2 u.2).1)
    (fun ea (u : (Nat × Nat) × Nat) => do
      let k := szToInd (-(szW n u.1.1 : Int) + 2 * u.1.2) u.1.1 n
      let q := ssqToInd (((szW n u.1.1 - 2 * ssqE n u.1.1 u.1.2 : Nat) : Int) + 2 * (u.2 : Int))
        (-(szW n u.1.1 : Int) + 2 * u.1.2)
      let row ← qd.si.ssqRow u.1.1 k
      let row ← pyGet row q
      let r ← pyGet vals u.1.1
      let r ← pyGet r k
      let w ← pyGet r q
      fillVals row w ea)
    ((szSectors n).flatMap fun s => (List.range (ssqE n s.1 s.2 + 1)).map fun j => (s, j)) (by
    intro u hu ea
    obtain ⟨⟨c, k⟩, hs, hu⟩ := List.mem_flatMap.1 hu
    obtain ⟨j, hj, rfl⟩ := List.mem_map.1 hu
    obtain ⟨hc, hk⟩ := mem_szSectors.1 hs
    dsimp only at hc hk hj ⊢
    have hj : j ≤ ssqE n c k := by have := List.mem_range.1 hj; omega
    obtain ⟨l1, l2, l3⟩ := look (fun c k j => (cells c k j).1) c k j hc hk hj
    rw [szToInd_range n c k hc, show ssqToInd (((szW n c - 2 * ssqE n c k : Nat) : Int) + 2 * (j : Int))
      (-(szW n c : Int) + 2 * (k : Int)) = (j : Int) from ssqToInd_row n c k j hk, (h.ssCell_ok hix hc hk).2.1]
    simp only [py_bind_ok]
    rw [pyGet_nat _ (by simp; omega)]
    simp only [py_bind_ok, List.getElem_map, List.getElem_range, hvals]
    rw [(getElem?_pyGet (d := []) l1).1]
    simp only [py_bind_ok]
    rw [(getElem?_pyGet (d := []) l2).1]
    simp only [py_bind_ok]
    rw [(getElem?_pyGet (d := []) l3).1, (hcl c k j hc hk hj).2]
    rfl) (by
    intro u _
    unfold ssqCell
    exact List.nodup_range') (by
    intro u hu b hb
    obtain ⟨⟨c, k⟩, hs, hu⟩ := List.mem_flatMap.1 hu
    obtain ⟨j, hj, rfl⟩ := List.mem_map.1 hu
    obtain ⟨hc, hk⟩ := mem_szSectors.1 hs
    dsimp only at hc hk hj hb
    have hj : j ≤ ssqE n c k := by have := List.mem_range.1 hj; omega
    obtain ⟨α, hα⟩ := List.getElem?_of_mem hb
    exact ssq_qn_lt h hix (h.ssq_get hix hc hk hj hα).1) (by
    intro u hu
    obtain ⟨⟨c, k⟩, hs, hu⟩ := List.mem_flatMap.1 hu
    obtain ⟨j, hj, rfl⟩ := List.mem_map.1 hu
    obtain ⟨hc, hk⟩ := mem_szSectors.1 hs
    dsimp only at hc hk hj ⊢
    have hj : j ≤ ssqE n c k := by have := List.mem_range.1 hj; omega
    rw [hC.len c k j hc hk hj]
    simp [ssqCell]) (by
    refine List.nodup_flatMap.2 ⟨fun s _ => (List.nodup_range).map fun a b hab => (Prod.mk.inj hab).2, ?_⟩
    refine (szSectors_nodup n).imp ?_
    intro s s' hne u hu hu'
    obtain ⟨j, -, rfl⟩ := List.mem_map.1 hu
    obtain ⟨j', -, e⟩ := List.mem_map.1 hu'
    exact hne (Prod.mk.inj e).1.symm) (by
    intro u hu u' hu' b hb hb'
    obtain ⟨⟨c, k⟩, hs, hu⟩ := List.mem_flatMap.1 hu
    obtain ⟨j, hj, rfl⟩ := List.mem_map.1 hu
    obtain ⟨hc, hk⟩ := mem_szSectors.1 hs
    obtain ⟨⟨c', k'⟩, hs', hu'⟩ := List.mem_flatMap.1 hu'
    obtain ⟨j', hj', rfl⟩ := List.mem_map.1 hu'
    obtain ⟨hc', hk'⟩ := mem_szSectors.1 hs'
    dsimp only at hc hk hj hb hc' hk' hj' hb'
    have hj : j ≤ ssqE n c k := by have := List.mem_range.1 hj; omega
    have hj' : j' ≤ ssqE n c' k' := by have := List.mem_range.1 hj'; omega
    obtain ⟨α, hα⟩ := List.getElem?_of_mem hb
    obtain ⟨α', hα'⟩ := List.getElem?_of_mem hb'
    obtain ⟨rfl, rfl, rfl, -⟩ := ssq_loc_unique h hix hc hk hj hα hc' hk' hj' hα'
    rfl)
    (List.replicate qd.si.nmany 0) (List.length_replicate)
  -- the states
  have hloc : ∀ b, ∃ u : Nat × Nat × Nat × Nat, b < qd.si.nmany → u.1 ≤ n ∧ u.2.1 ≤ szW n u.1 ∧
      u.2.2.1 ≤ ssqE n u.1 u.2.1 ∧ (ssqCell n u.1 u.2.1 u.2.2.1)[u.2.2.2]? = some b := by
    intro b
    by_cases hb : b < qd.si.nmany
    · obtain ⟨c, k, j, α, r⟩ := ssq_loc h hix hb
      exact ⟨(c, k, j, α), fun _ => r⟩
    · exact ⟨(0, 0, 0, 0), fun h => absurd h hb⟩
  choose u hu using hloc
  set ψ : Nat → Occ n → ℂ := fun b => φ (u b).1 (u b).2.1 (u b).2.2.1 (u b).2.2.2 with hψd
  have hψ : ∀ c k j α b, c ≤ n → k ≤ szW n c → j ≤ ssqE n c k → (ssqCell n c k j)[α]? = some b →
      ψ b = φ c k j α := by
    intro c k j α b hc hk hj hb
    obtain ⟨g1, g2, g3, g4⟩ := hu b (ssq_qn_lt h hix (h.ssq_get hix hc hk hj hb).1)
    obtain ⟨e1, e2, e3, e4⟩ := ssq_loc_unique h hix g1 g2 g3 g4 hc hk hj hb
    rw [hψd]
    simp only [e1, e2, e3, e4]
  have hE : ∀ c k j α b, c ≤ n → k ≤ szW n c → j ≤ ssqE n c k → (ssqCell n c k j)[α]? = some b →
      Ea.getD b 0 = (cells c k j).1.getD α 0 := by
    intro c k j α b hc hk hj hb
    obtain ⟨hα, rfl⟩ := List.getElem?_eq_some_iff.1 hb
    obtain ⟨x, x1, x2⟩ := vE ((c, k), j) (List.mem_flatMap.2 ⟨(c, k), mem_szSectors.2 ⟨hc, hk⟩,
      List.mem_map.2 ⟨j, List.mem_range.2 (by dsimp only; omega), rfl⟩⟩) α hα
    rw [(getElem?_pyGet x1).2, (getElem?_pyGet x2).2]
  refine ⟨.ssq vals, vecs, Ea, P, ψ, ?_, hv, eP, by rw [lE, hN], by rw [hB.dims, hN], ?_,
    hC.spinBasis hev h hix hN hψ hE⟩
  · have em : (List.range qd.si.ncharge).mapM (fun (c : Nat) => qd.spinStates eigh c)
        = .ok ((List.range (n + 1)).map fun c => (List.range (szW n c + 1)).map fun k =>
          (List.range (ssqE n c k + 1)).map fun j => some (cells c k j)) := by
      rw [h.ncharge]
      refine mapM_ok ?_
      intro c hc
      exact hst c (by have := List.mem_range.1 hc; omega)
    have em2 : ((List.range (n + 1)).map fun c => (List.range (szW n c + 1)).map fun k =>
          (List.range (ssqE n c k + 1)).map fun j => some (cells c k j)).mapM (fun t => t.mapM fun r => r.mapM fun x =>
          match x with
          | some y => pure y
          | none => (.error .type : Py (List ℝ × Arr)))
        = .ok ((List.range (n + 1)).map fun c => (List.range (szW n c + 1)).map fun k =>
          (List.range (ssqE n c k + 1)).map fun j => cells c k j) := by
      rw [List.mapM_map]
      refine mapM_ok fun c _ => ?_
      rw [Function.comp_apply, List.mapM_map]
      refine mapM_ok fun k _ => ?_
      rw [Function.comp_apply, List.mapM_map]
      exact mapM_ok fun j _ => rfl
    have eE' : constructEa qd.si (Vals.ssq vals) = .ok Ea := by
      unfold constructEa
      rw [h.ncharge, h.nsingle]
      simp only [hix]
      exact (foldlM_ssq n (fun ea c sz ssq => do
          let k := szToInd sz c n
          let q := ssqToInd ssq sz
          let row ← qd.si.ssqRow c k
          let row ← pyGet row q
          let r ← pyGet vals c
          let r ← pyGet r k
          let w ← pyGet r q
          fillVals row w ea) _).trans eE
    unfold QD.diagonalise
    simp only [hix, em, py_bind_ok]
    refine bind_iff.2 ⟨_, em2, ?_⟩
    simp only [List.map_map, Function.comp_def, ← hvals, ← hvecs, eE', py_bind_ok, py_pure]
  · intro a b s hb hs
    obtain ⟨c, k, j, α, g1, g2, g3, g4⟩ := ssq_loc h hix (by rw [hN]; exact hb)
    rw [hψ c k j α b g1 g2 g3 g4]
    have hss := (hcl c k j g1 g2 g3).2
    obtain ⟨hα, eb⟩ := List.getElem?_eq_some_iff.1 g4
    by_cases ha : a ∈ szCell qd.si (c, k)
    · obtain ⟨p, hp, rfl⟩ := List.getElem_of_mem ha
      have := hB.inside c k j g1 g2 g3 p α hp (by rw [hss]; exact hα)
      simp only [hss, eb] at this
      rw [this, hvec c k j g1 g2 g3]
      exact hC.val c k j g1 g2 g3 p hp s hs α (by simpa [ssqCell] using hα)
    · rw [hB.outside c k j g1 g2 g3 a ha b (by rw [hss]; exact List.mem_of_getElem? g4)]
      by_contra hne
      have hsec := (hC.joint c k j g1 g2 g3).sec α (by simpa [ssqCell] using hα) s (Ne.symm hne)
      exact ha ((h.mem_szCell (.inr hix) g1 g2 a).2 ⟨_, hs, by rw [ofOcc_sum]; exact hsec.1, hsec.2⟩)

end Verif
