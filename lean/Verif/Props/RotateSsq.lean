import Verif.Lemmas.PmtrSsq

/-! C77: the change to the eigenbasis for 'ssq' indexing. -/

namespace Verif
open Verif.Spec

/-- `P` holds the matrices of all sectors: rows of the charge and projection, columns of the sector. -/
structure SsqBlocks (n : Nat) (si : SI) (v : List (List (List Arr))) (P : Arr) : Prop where
  dims : P.dims = [si.nmany, si.nmany]
  inside : ∀ c k j, c ≤ n → k ≤ min c (n - c) → j ≤ min k (min c (n - c) - k) →
    ∀ (i α : Nat) (hi : i < (szCell si (c, k)).length) (hα : α < (ssCell si c k j).length),
      P.val [(szCell si (c, k))[i], (ssCell si c k j)[α]] = (ssVec v c k j).val [i, α]
  outside : ∀ c k j, c ≤ n → k ≤ min c (n - c) → j ≤ min k (min c (n - c) - k) →
    ∀ b, b ∉ szCell si (c, k) → ∀ a ∈ ssCell si c k j, P.val [b, a] = 0

section
variable {n : Nat} {si : SI} {v : List (List (List Arr))}

theorem ssq_pos (h : SIInv n si) (hix : si.indexing = .ssq) {c k : Nat} (hc : c ≤ n) (hk : k ≤ szW n c) :
    szCell si (c, k) ≠ [] := by
  rw [(h.ssCell_ok hix hc hk).1]
  intro h0
  have := congrArg List.length h0
  have hp := szLen_pos n c k (h.sz (.inr hix)).1 hc hk
  simp at this
  omega

theorem ssqBlocks_of (h : SIInv n si) (hix : si.indexing = .ssq) {V : Nat × Nat → Arr}
    (hV : ∀ c k, c ≤ n → k ≤ szW n c →
      (V (c, k)).dims = [(szCell si (c, k)).length, (szCell si (c, k)).length] ∧
      ∀ j, j ≤ ssqE n c k → ∀ p i, i < ssqM n c k j →
        (V (c, k)).mat p (pre (ssqM n c k) j + i) = (ssVec v c k j).mat p i) {P : Arr}
    (hP : BlockDiag si.nmany (szSectors n) (szCell si) V P) : SsqBlocks n si v P := by
  have hs := h.sz_sectors (vec := V) (.inr hix) fun c k hc hk => (hV c k hc hk).1
  have hin : ∀ c k j, c ≤ n → k ≤ szW n c → j ≤ ssqE n c k → ∀ α (hα : α < (ssCell si c k j).length),
      ∃ hy : pre (ssqM n c k) j + α < (szCell si (c, k)).length,
        (ssCell si c k j)[α] = (szCell si (c, k))[pre (ssqM n c k) j + α] ∧ α < ssqM n c k j := by
    intro c k j hc hk hj α hα
    obtain ⟨e1, -, e3⟩ := h.ssCell_ok hix hc hk
    have hα' : α < ssqM n c k j := by rw [e3 j hj] at hα; simpa [ssqCell] using hα
    have hy : pre (ssqM n c k) j + α < szLen n c k := by
      rw [h.szLen_eq hix hc hk]
      exact pre_add_lt _ (by omega) hα'
    refine ⟨by rw [e1, List.length_range']; exact hy, ?_, hα'⟩
    simp only [e1, e3 j hj, ssqCell, range'_get]
    omega
  refine ⟨hP.dims, ?_, ?_⟩
  · intro c k j hc hk hj i α hi hα
    obtain ⟨hy, e, hα'⟩ := hin c k j hc hk hj α hα
    rw [e, hP.inside (c, k) (mem_szSectors.2 ⟨hc, hk⟩) i _ hi hy]
    exact (hV c k hc hk).2 j hj i α hα'
  · intro c k j hc hk hj b hb a ha
    obtain ⟨α, hα, rfl⟩ := List.getElem_of_mem ha
    obtain ⟨hy, e, -⟩ := hin c k j hc hk hj α hα
    refine hP.outside _ _ ?_
    rintro ⟨s, h1, h2, h3⟩
    have := hs.disj s h1 (c, k) (mem_szSectors.2 ⟨hc, hk⟩) _ h3 (by rw [e]; exact List.getElem_mem hy)
    rw [this] at h2
    exact hb h2

theorem rotate_ssq_val (h : SIInv n si) (hix : si.indexing = .ssq) {L : Nat}
    {T0 : Arr} (hd : T0.dims = [L, si.nmany, si.nmany]) (hh : Herm L si.nmany T0)
    (hv : SsqVecs n si v) {V : Nat × Nat → Arr}
    (hV : ∀ c k, c ≤ n → k ≤ szW n c →
      concatCols ((List.range (ssqE n c k + 1)).map fun j => ssVec v c k j) = .ok (V (c, k)) ∧
      (V (c, k)).dims = [(szCell si (c, k)).length, (szCell si (c, k)).length])
    {P : Arr} (hP : BlockDiag si.nmany (szSectors n) (szCell si) V P) :
    ∃ T, rotateTba si L T0 (.ssq v) none = .ok T ∧ T.dims = [L, si.nmany, si.nmany] ∧
      ∀ l b a, (l < L ∧ SzWritten n L si l b a → T.val [l, b, a] = rotated si.nmany P T0 l b a) ∧
        (¬ (l < L ∧ SzWritten n L si l b a) → T.val [l, b, a] = 0) := by
  have hn := (h.sz (.inr hix)).1
  have hs := h.sz_sectors (vec := V) (.inr hix) fun c k hc hk => (hV c k hc hk).2
  obtain ⟨T, eT, dT, vT⟩ := rotate_fold (N := si.nmany) (L := L) (P := P) (T0 := T0)
    (fun t (l : Nat) => (List.range n).foldlM (fun t (c : Nat) =>
        let rs := leadSz L (n + 1) n l c
        rs.1.foldlM (fun t sz => do
          let k := szToInd sz c n
          let k' := szToInd (sz + rs.2) (c + 1) n
          let row ← si.szRow c k
          let row' ← si.szRow (c + 1) k'
          let vs ← Vecs.at3 (.ssq v) c k
          let m ← concatCols vs
          let vs' ← Vecs.at3 (.ssq v) (c + 1) k'
          let m' ← concatCols vs'
          rotBlock T0 t l row row' m m') t) t)
    (fun l l' b a => ∃ c ∈ List.range n, ∃ x ∈ (leadSz L (n + 1) n l c).1, l' = l ∧
      (b ∈ szCell si (c, (szToInd x c n).toNat) ∧
          a ∈ szCell si (c + 1, (szToInd (x + leadSpin L l) (c + 1 : Nat) n).toNat) ∨
        b ∈ szCell si (c + 1, (szToInd (x + leadSpin L l) (c + 1 : Nat) n).toNat) ∧
          a ∈ szCell si (c, (szToInd x c n).toNat))) (List.range L) (by
    intro l hl t ht
    refine rotate_fold (N := si.nmany) (L := L) (P := P) (T0 := T0) _
      (fun c l' b a => ∃ x ∈ (leadSz L (n + 1) n l c).1, l' = l ∧
      (b ∈ szCell si (c, (szToInd x c n).toNat) ∧
          a ∈ szCell si (c + 1, (szToInd (x + leadSpin L l) (c + 1 : Nat) n).toNat) ∨
        b ∈ szCell si (c + 1, (szToInd (x + leadSpin L l) (c + 1 : Nat) n).toNat) ∧
          a ∈ szCell si (c, (szToInd x c n).toNat))) (List.range n) ?_ t ht
    intro c hc t ht
    refine rotate_fold (N := si.nmany) (L := L) (P := P) (T0 := T0) _
      (fun x l' b a => l' = l ∧
      (b ∈ szCell si (c, (szToInd x c n).toNat) ∧
          a ∈ szCell si (c + 1, (szToInd (x + leadSpin L l) (c + 1 : Nat) n).toNat) ∨
        b ∈ szCell si (c + 1, (szToInd (x + leadSpin L l) (c + 1 : Nat) n).toNat) ∧
          a ∈ szCell si (c, (szToInd x c n).toNat))) (leadSz L (n + 1) n l c).1 ?_ t ht
    intro x hx t ht
    have hc := List.mem_range.1 hc
    have hl := List.mem_range.1 hl
    obtain ⟨k, k', hk, hk', e1, e2⟩ := (leadSz_mem hn hc x).1 hx
    have i1 : szToInd x (c : Int) (n : Int) = (k : Nat) := by
      rw [e1]; exact szToInd_range n c k (by omega)
    have i2 : szToInd (x + leadSpin L l) ((c : Int) + 1) (n : Int) = (k' : Nat) := by
      rw [e2]; exact szToInd_range n (c + 1) k' (by omega)
    have i2' : szToInd (x + leadSpin L l) ((c + 1 : Nat) : Int) (n : Int) = (k' : Nat) := i2
    dsimp only
    rw [leadSz_snd, i1, i2, i2', Int.toNat_natCast, Int.toNat_natCast,
      (h.szCell_ok (.inr hix) (by omega : c ≤ n) hk).1,
      (h.szCell_ok (.inr hix) (by omega : c + 1 ≤ n) hk').1, (hv.at3 (by omega : c ≤ n) hk).1,
      (hv.at3 (by omega : c + 1 ≤ n) hk').1]
    simp only [py_bind_ok]
    rw [(hV c k (by omega) hk).1]
    simp only [py_bind_ok]
    rw [(hV (c + 1) k' (by omega) hk').1]
    simp only [py_bind_ok]
    obtain ⟨t', k1, k2, k3⟩ := rotBlock_ok hs hP hd hh ht hl (s := (c, k)) (s' := (c + 1, k'))
      (mem_szSectors.2 ⟨by dsimp only; omega, hk⟩) (mem_szSectors.2 ⟨hc, hk'⟩)
      (h.sz_contig (.inr hix) (by omega) hk) (h.sz_contig (.inr hix) (by omega) hk')
      (ssq_pos h hix (by omega) hk) (ssq_pos h hix (by omega) hk')
    refine ⟨t', k1, k2, fun l' b a => ⟨fun hw => ?_, fun hw => ?_⟩⟩
    · rw [k3, if_pos hw, hw.1]
    · rw [k3, if_neg hw]) (Arr.zeros [L, si.nmany, si.nmany]) rfl
  have hiff : ∀ l b a, (∃ x ∈ List.range L, ∃ c ∈ List.range n, ∃ y ∈ (leadSz L (n + 1) n x c).1, l = x ∧
      (b ∈ szCell si (c, (szToInd y c n).toNat) ∧
          a ∈ szCell si (c + 1, (szToInd (y + leadSpin L x) (c + 1 : Nat) n).toNat) ∨
        b ∈ szCell si (c + 1, (szToInd (y + leadSpin L x) (c + 1 : Nat) n).toNat) ∧
          a ∈ szCell si (c, (szToInd y c n).toNat))) ↔ l < L ∧ SzWritten n L si l b a := by
    intro l b a
    constructor
    · rintro ⟨x, hx, c, hc, y, hy, rfl, hm⟩
      have hc := List.mem_range.1 hc
      obtain ⟨k, k', hk, hk', e1, e2⟩ := (leadSz_mem hn hc y).1 hy
      have i2' : szToInd (y + leadSpin L l) ((c + 1 : Nat) : Int) (n : Int) = (k' : Nat) := by
        rw [e2]; exact szToInd_range n (c + 1) k' (by omega)
      have i1 : szToInd y (c : Int) (n : Int) = (k : Nat) := by
        rw [e1]; exact szToInd_range n c k (by omega)
      rw [i1, i2', Int.toNat_natCast, Int.toNat_natCast] at hm
      exact ⟨List.mem_range.1 hx, c, k, k', hc, hk, hk', by rw [← e1, ← e2], hm⟩
    · rintro ⟨hl, c, k, k', hc, hk, hk', e, hm⟩
      refine ⟨l, List.mem_range.2 hl, c, List.mem_range.2 hc, -(szW n c : Int) + 2 * k,
        (leadSz_mem hn hc _).2 ⟨k, k', hk, hk', rfl, e⟩, rfl, ?_⟩
      rw [e, szToInd_range n c k (by omega), szToInd_range n (c + 1) k' (by omega),
        Int.toNat_natCast, Int.toNat_natCast]
      exact hm
  refine ⟨T, ?_, dT, ?_⟩
  · unfold rotateTba
    rw [Option.getD_none, hix]
    dsimp only
    rw [h.ncharge, h.nsingle, Nat.add_sub_cancel]
    exact eT
  · intro l b a
    rw [← hiff]
    exact vT l b a

/-- C77: the rotation of the tunnelling amplitudes for 'ssq' indexing. If every lead couples only states that
differ by one electron with the spin of the lead, the result is `P† T0 P`, Hermitian, with the matrix
`P` of all eigenvectors. -/
theorem c77_tba (hr : ReachedSI n si) (hix : si.indexing = .ssq) {L : Nat} {T0 : Arr}
    (hd : T0.dims = [L, si.nmany, si.nmany]) (hh : Herm L si.nmany T0)
    (hq : ∀ l b a, l < L → b < si.nmany → a < si.nmany → T0.val [l, b, a] ≠ 0 →
      ∀ s' s, si.getState (b : Int) = .ok s' → si.getState (a : Int) = .ok s →
        AddsSpin n L l s s' ∨ AddsSpin n L l s' s)
    (hv : SsqVecs n si v) :
    ∃ P T, constructFullPmtr si (.ssq v) = .ok P ∧ SsqBlocks n si v P ∧
      rotateTba si L T0 (.ssq v) none = .ok T ∧ Rotated L si.nmany P T0 T ∧ Herm L si.nmany T := by
  have h := hr.inv
  obtain ⟨V, hV⟩ := hv.join h hix
  obtain ⟨P, eP, hP⟩ := pmtr_ssq h hix hv fun c k hc hk => (hV c k hc hk).2
  obtain ⟨T, eT, dT, vT⟩ := rotate_ssq_val h hix hd hh hv
    (fun c k hc hk => ⟨(hV c k hc hk).1, (hV c k hc hk).2.1⟩) hP
  have hrot : Rotated L si.nmany P T0 T := by
    refine rotated_of_written hP _ dT vT ?_
    rintro l b a b' a' hl hb' ha' hne ⟨⟨c, k⟩, hck, m1, m2⟩ ⟨⟨c', k'⟩, hck', m3, m4⟩
    obtain ⟨hc, hk⟩ := mem_szSectors.1 hck
    obtain ⟨hc', hk'⟩ := mem_szSectors.1 hck'
    dsimp only at hc hk hc' hk'
    obtain ⟨s1, g1, g2, g3⟩ := (h.mem_szCell (.inr hix) hc hk b').1 m1
    obtain ⟨s2, g4, g5, g6⟩ := (h.mem_szCell (.inr hix) hc hk b).1 m2
    obtain ⟨s3, g7, g8, g9⟩ := (h.mem_szCell (.inr hix) hc' hk' a').1 m3
    obtain ⟨s4, f1, f2, f3⟩ := (h.mem_szCell (.inr hix) hc' hk' a).1 m4
    refine ⟨hl, (szWritten_iff h (.inr hix) g4 f1).2 ?_⟩
    rcases hq l b' a' hl hb' ha' hne _ _ g1 g7 with ⟨r1, r2⟩ | ⟨r1, r2⟩
    · exact .inl ⟨by omega, by omega⟩
    · exact .inr ⟨by omega, by omega⟩
  refine ⟨P, T, eP, ssqBlocks_of h hix (fun c k hc hk => (hV c k hc hk).2) hP, eT, hrot, ?_⟩
  intro l b a hl hb ha
  rw [hrot.2 l b a hl hb ha, hrot.2 l a b hl ha hb, rotated_herm hh hl]

/-- Without that condition: amplitudes between states that do not differ by one electron with the
spin of the lead are dropped, whatever their value is. -/
theorem c77_drops (hr : ReachedSI n si) (hix : si.indexing = .ssq) {L : Nat} {T0 : Arr}
    (hd : T0.dims = [L, si.nmany, si.nmany]) (hh : Herm L si.nmany T0) (hv : SsqVecs n si v) :
    ∃ T, rotateTba si L T0 (.ssq v) none = .ok T ∧
      ∀ (l b a : Nat) (s' s : List Nat), si.getState (b : Int) = .ok s' → si.getState (a : Int) = .ok s →
        ¬ AddsSpin n L l s s' → ¬ AddsSpin n L l s' s → T.val [l, b, a] = 0 := by
  have h := hr.inv
  obtain ⟨V, hV⟩ := hv.join h hix
  obtain ⟨P, eP, hP⟩ := pmtr_ssq h hix hv fun c k hc hk => (hV c k hc hk).2
  obtain ⟨T, eT, dT, vT⟩ := rotate_ssq_val h hix hd hh hv
    (fun c k hc hk => ⟨(hV c k hc hk).1, (hV c k hc hk).2.1⟩) hP
  refine ⟨T, eT, ?_⟩
  intro l b a s' s hs' hs h1 h2
  refine (vT l b a).2 ?_
  rintro ⟨-, hw⟩
  rcases (szWritten_iff h (.inr hix) hs' hs).1 hw with hw | hw
  · exact h1 hw
  · exact h2 hw

/-- C77 for the phonon couplings that conserve the charge and the spin projection; they need not be
Hermitian. -/
theorem c77_vbbp (hr : ReachedSI n si) (hix : si.indexing = .ssq) {L : Nat}
    {T0 : Arr} (hd : T0.dims = [L, si.nmany, si.nmany])
    (hq : ∀ l b a, l < L → b < si.nmany → a < si.nmany → T0.val [l, b, a] ≠ 0 →
      ∀ s' s, si.getState (b : Int) = .ok s' → si.getState (a : Int) = .ok s →
        s'.sum = s.sum ∧ twoSz n s' = twoSz n s)
    (hv : SsqVecs n si v) :
    ∃ P T, constructFullPmtr si (.ssq v) = .ok P ∧ SsqBlocks n si v P ∧
      rotateVbbp si L T0 (.ssq v) none = .ok T ∧ Rotated L si.nmany P T0 T := by
  have h := hr.inv
  obtain ⟨V, hV⟩ := hv.join h hix
  obtain ⟨P, eP, hP⟩ := pmtr_ssq h hix hv fun c k hc hk => (hV c k hc hk).2
  have hs := h.sz_sectors (vec := V) (.inr hix) fun c k hc hk => (hV c k hc hk).2.1
  obtain ⟨T, eT, dT, vT⟩ := rotate_fold (N := si.nmany) (L := L) (P := P) (T0 := T0)
    (fun t (l : Nat) => (szSectors n).foldlM (fun t (s : Nat × Nat) => do
        let row ← si.szRow s.1 (szToInd (-(szW n s.1 : Int) + 2 * s.2) s.1 n)
        let vs ← Vecs.at3 (.ssq v) s.1 (szToInd (-(szW n s.1 : Int) + 2 * s.2) s.1 n)
        let m ← concatCols vs
        rotDiag T0 t l row m) t)
    (fun l l' b a => ∃ s ∈ szSectors n, l' = l ∧ b ∈ szCell si s ∧ a ∈ szCell si s)
    (List.range L) (by
    intro l hl t ht
    refine rotate_fold (N := si.nmany) (L := L) (P := P) (T0 := T0) _
      (fun s l' b a => l' = l ∧ b ∈ szCell si s ∧ a ∈ szCell si s) (szSectors n) ?_ t ht
    rintro ⟨c, k⟩ hck t ht
    obtain ⟨hc, hk⟩ := mem_szSectors.1 hck
    have hl := List.mem_range.1 hl
    dsimp only at hc hk ⊢
    rw [szToInd_range n c k hc, (h.szCell_ok (.inr hix) hc hk).1, (hv.at3 hc hk).1]
    simp only [py_bind_ok]
    rw [(hV c k hc hk).1]
    simp only [py_bind_ok]
    obtain ⟨t', k1, k2, k3⟩ := rotDiag_ok hs hP hd ht hl (s := (c, k)) hck
      (h.sz_contig (.inr hix) hc hk) (ssq_pos h hix hc hk)
    refine ⟨t', k1, k2, fun l' b a => ⟨fun hw => ?_, fun hw => ?_⟩⟩
    · rw [k3, if_pos hw, hw.1]
    · rw [k3, if_neg hw]) (Arr.zeros [L, si.nmany, si.nmany]) rfl
  have hrot : Rotated L si.nmany P T0 T := by
    refine rotated_of_written hP _ dT vT ?_
    rintro l b a b' a' hl hb' ha' hne ⟨⟨c, k⟩, hck, m1, m2⟩ ⟨⟨c', k'⟩, hck', m3, m4⟩
    obtain ⟨hc, hk⟩ := mem_szSectors.1 hck
    obtain ⟨hc', hk'⟩ := mem_szSectors.1 hck'
    dsimp only at hc hk hc' hk'
    obtain ⟨s1, g1, g2, g3⟩ := (h.mem_szCell (.inr hix) hc hk b').1 m1
    obtain ⟨s3, g7, g8, g9⟩ := (h.mem_szCell (.inr hix) hc' hk' a').1 m3
    obtain ⟨r1, r2⟩ := hq l b' a' hl hb' ha' hne _ _ g1 g7
    have e1 : c = c' := by omega
    subst e1
    have e2 : k = k' := by omega
    subst e2
    exact ⟨l, List.mem_range.2 hl, (c, k), hck, rfl, m2, m4⟩
  refine ⟨P, T, eP, ssqBlocks_of h hix (fun c k hc hk => (hV c k hc hk).2) hP, ?_, hrot⟩
  unfold rotateVbbp
  rw [Option.getD_none, hix]
  dsimp only
  rw [h.ncharge, h.nsingle]
  refine Eq.trans ?_ eT
  refine foldlM_congr ?_
  intro q l _
  exact foldlM_sz n (fun p c sz => do
        let row ← si.szRow c (szToInd sz c n)
        let vs ← Vecs.at3 (.ssq v) c (szToInd sz c n)
        let m ← concatCols vs
        rotDiag T0 p l row m) q

end

end Verif
