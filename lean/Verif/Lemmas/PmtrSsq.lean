import Verif.Props.Rotate
import Verif.Lemmas.SpinBase

/-! Joining the eigenvectors of the total spins of one sector. -/

namespace Verif
open Verif.Spec

/-- The states with charge `c`, the `k`-th spin projection and the `j`-th total spin. -/
def ssCell (si : SI) (c k j : Nat) : List Nat := (((si.ssqlst.getD []).getD c []).getD k []).getD j []

/-- The matrix for charge `c`, the `k`-th spin projection and the `j`-th total spin. -/
noncomputable def ssVec (v : List (List (List Arr))) (c k j : Nat) : Arr :=
  ((v.getD c []).getD k []).getD j (Arr.zeros [])

/-- Matrices for all sectors of charge, spin projection and total spin: a row for every state with the charge
and projection, a column for every state of the sector. -/
def SsqVecs (n : Nat) (si : SI) (v : List (List (List Arr))) : Prop :=
  ∀ c k, c ≤ n → k ≤ min c (n - c) → ∃ r s, v[c]? = some r ∧ r[k]? = some s ∧
    s.length = min k (min c (n - c) - k) + 1 ∧
    ∀ j m, s[j]? = some m → m.dims = [(szCell si (c, k)).length, (ssCell si c k j).length]

section
variable {n : Nat} {si : SI} (h : SIInv n si) (hix : si.indexing = .ssq)
include h hix

theorem SIInv.ssCell_ok {c k : Nat} (hc : c ≤ n) (hk : k ≤ szW n c) :
    szCell si (c, k) = List.range' (szStart n c k) (szLen n c k) ∧
    si.ssqRow c (k : Int) = .ok ((List.range (ssqE n c k + 1)).map fun j => ssCell si c k j) ∧
    ∀ j, j ≤ ssqE n c k → ssCell si c k j = ssqCell n c k j := by
  obtain ⟨e1, e2, -⟩ := h.qn_ssq hix
  have r1 : ((List.range (n + 1)).map fun c =>
      (List.range (szW n c + 1)).map fun k => (List.range (ssqE n c k + 1)).map fun q =>
      ssqCell n c k q)[c]? = some ((List.range (szW n c + 1)).map fun k =>
        (List.range (ssqE n c k + 1)).map fun q => ssqCell n c k q) := by
    rw [List.getElem?_map, List.getElem?_range (by omega)]; rfl
  have r2 : ((List.range (szW n c + 1)).map fun k =>
        (List.range (ssqE n c k + 1)).map fun q => ssqCell n c k q)[k]?
      = some ((List.range (ssqE n c k + 1)).map fun q => ssqCell n c k q) := by
    rw [List.getElem?_map, List.getElem?_range (by omega)]; rfl
  have r3 : ∀ j, j ≤ ssqE n c k → ssCell si c k j = ssqCell n c k j := by
    intro j hj
    unfold ssCell
    rw [e1, Option.getD_some, (getElem?_pyGet r1).2, (getElem?_pyGet r2).2]
    refine (getElem?_pyGet ?_).2
    rw [List.getElem?_map, List.getElem?_range (by omega)]; rfl
  refine ⟨?_, ?_, r3⟩
  · unfold szCell
    rw [e2, Option.getD_some]
    have q1 : ((List.range (n + 1)).map fun c =>
        (List.range (szW n c + 1)).map fun k => List.range' (szStart n c k) (szLen n c k))[c]?
        = some ((List.range (szW n c + 1)).map fun k => List.range' (szStart n c k) (szLen n c k)) := by
      rw [List.getElem?_map, List.getElem?_range (by omega)]; rfl
    have q2 : ((List.range (szW n c + 1)).map fun k => List.range' (szStart n c k) (szLen n c k))[k]?
        = some (List.range' (szStart n c k) (szLen n c k)) := by
      rw [List.getElem?_map, List.getElem?_range (by omega)]; rfl
    rw [(getElem?_pyGet q1).2, (getElem?_pyGet q2).2]
  · unfold SI.ssqRow
    rw [e1]
    simp only
    rw [(getElem?_pyGet (d := []) r1).1]
    simp only [py_bind_ok]
    rw [(getElem?_pyGet (d := []) r2).1]
    congr 1
    refine List.map_congr_left fun j hj => (r3 j ?_).symm
    have := List.mem_range.1 hj
    omega

theorem SIInv.szLen_eq {c k : Nat} (hc : c ≤ n) (hk : k ≤ szW n c) :
    szLen n c k = pre (ssqM n c k) (ssqE n c k + 1) :=
  (ssqM_sum n c k (h.sz (.inr hix)).1 hc hk).symm

end

/-- `np.concatenate(vs, axis=1)`. -/
theorem concatCols_ok {d : Nat} (m : Nat → Nat) (f : Nat → Arr) (r : Nat)
    (hd : ∀ j, j ≤ r → (f j).dims = [d, m j]) :
    ∃ V, concatCols ((List.range (r + 1)).map f) = .ok V ∧ V.dims = [d, pre m (r + 1)] ∧
      ∀ j, j ≤ r → ∀ p i, i < m j → V.mat p (pre m j + i) = (f j).mat p i := by
  induction r with
  | zero =>
    refine ⟨f 0, rfl, by rw [hd 0 (le_refl _), pre_succ]; simp, ?_⟩
    intro j hj p i _
    cases (show j = 0 by omega)
    simp
  | succ r ih =>
    obtain ⟨V, h1, h2, h3⟩ := ih fun j hj => hd j (by omega)
    have hd' := hd (r + 1) (le_refl _)
    have key : ∀ (l : List Arr) (x : Arr), l ≠ [] → concatCols (l ++ [x]) = (do
        let a ← concatCols l
        let s ← a.shape2
        let t ← x.shape2
        if s.1 = t.1 then
          pure (Arr.ofMat s.1 (s.2 + t.2) fun i j => if j < s.2 then a.mat i j else x.mat i (j - s.2))
        else .error .value) := by
      intro l x hl
      cases l with
      | nil => exact absurd rfl hl
      | cons a rest =>
        simp only [concatCols, List.cons_append, List.foldlM_append, List.foldlM_cons, List.foldlM_nil, bind_pure]
    refine ⟨Arr.ofMat d (pre m (r + 1) + m (r + 1)) fun i j =>
      if j < pre m (r + 1) then V.mat i j else (f (r + 1)).mat i (j - pre m (r + 1)), ?_, ?_, ?_⟩
    · rw [List.range_succ, List.map_append, List.map_singleton, key _ _ (by simp), h1]
      simp only [py_bind_ok]
      rw [Arr.shape2_ok h2, Arr.shape2_ok hd']
      simp only [py_bind_ok, if_true]
      rfl
    · rw [Arr.ofMat_dims, pre_succ m (r + 1)]
    · intro j hj p i hi
      rw [Arr.ofMat_mat]
      rcases Nat.lt_or_ge r j with hlt | hle
      · cases (show j = r + 1 by omega)
        rw [if_neg (by omega), Nat.add_sub_cancel_left]
      · rw [if_pos (pre_add_lt m (by omega) hi), h3 j hle p i hi]

/-- The loop over the total spins of a sector fills its block. -/
theorem fill_cells {N o d r : Nat} (m : Nat → Nat) (f : Nat → Arr) (hN : o + d ≤ N)
    (hm : pre m (r + 1) = d) (hd : ∀ j, j ≤ r → (f j).dims = [d, m j]) {V : Arr}
    (hV : ∀ j, j ≤ r → ∀ p i, i < m j → V.mat p (pre m j + i) = (f j).mat p i) {p : Arr}
    (hp : p.dims = [N, N]) :
    ∃ p', (List.range (r + 1)).foldlM (fun p j =>
        fillBlock (List.range' o d) (List.range' (o + pre m j) (m j)) (f j) p) p = .ok p' ∧
      Filled (List.range' o d) V p p' := by
  suffices H : ∀ t, t ≤ r + 1 → ∃ p', (List.range t).foldlM (fun p j =>
        fillBlock (List.range' o d) (List.range' (o + pre m j) (m j)) (f j) p) p = .ok p' ∧
      p'.dims = [N, N] ∧ (∀ i y, i < d → y < pre m t → p'.mat (o + i) (o + y) = V.mat i y) ∧
      ∀ b a, ¬ (b ∈ List.range' o d ∧ o ≤ a ∧ a < o + pre m t) → p'.mat b a = p.mat b a by
    obtain ⟨p', h1, h2, h3, h4⟩ := H (r + 1) (le_refl _)
    refine ⟨p', h1, h2.trans hp.symm, ?_, ?_⟩
    · intro i j hi hj
      rw [List.length_range'] at hi hj
      rw [range'_get, range'_get]
      exact h3 i j hi (by omega)
    · intro b a hba
      refine h4 b a ?_
      rintro ⟨g1, g2, g3⟩
      exact hba ⟨g1, List.mem_range'_1.2 ⟨g2, by omega⟩⟩
  intro t
  induction t with
  | zero =>
    intro _
    exact ⟨p, rfl, hp, fun i y _ hy => by simp at hy, fun _ _ _ => rfl⟩
  | succ t ih =>
    intro ht
    obtain ⟨p', h1, h2, h3, h4⟩ := ih (by omega)
    have hpre : pre m (t + 1) ≤ d := by rw [← hm]; exact pre_mono m ht
    rw [pre_succ] at hpre
    obtain ⟨p'', e, g1, g2, g3⟩ := fillBlock_ok (N := N) (rows := List.range' o d)
      (cols := List.range' (o + pre m t) (m t)) (v := f t) (p := p') List.nodup_range'
      List.nodup_range' (fun b hb => by have := List.mem_range'_1.1 hb; omega)
      (fun b hb => by have := List.mem_range'_1.1 hb; omega)
      (by rw [List.length_range', List.length_range']; exact hd t (by omega)) h2
    refine ⟨p'', ?_, g1, ?_, ?_⟩
    · rw [List.range_succ, List.foldlM_append, h1]
      simp only [py_bind_ok, List.foldlM_cons, List.foldlM_nil, e]
      rfl
    · intro i y hi hy
      rw [pre_succ] at hy
      rcases Nat.lt_or_ge y (pre m t) with hlt | hge
      · rw [g3 _ _ ?_, h3 i y hi hlt]
        rintro ⟨-, hh⟩
        have := List.mem_range'_1.1 hh
        omega
      · obtain ⟨z, rfl⟩ : ∃ z, y = pre m t + z := ⟨y - pre m t, by omega⟩
        have hz : z < m t := by omega
        have := g2 i z (by rw [List.length_range']; exact hi) (by rw [List.length_range']; exact hz)
        rw [range'_get, range'_get] at this
        rw [← Nat.add_assoc, this, hV t (by omega) i z hz]
    · intro b a hba
      rw [pre_succ] at hba
      rw [g3 b a ?_, h4 b a ?_]
      · rintro ⟨x1, x2, x3⟩; exact hba ⟨x1, x2, by omega⟩
      · rintro ⟨x1, x2⟩
        have := List.mem_range'_1.1 x2
        exact hba ⟨x1, by omega, by omega⟩

section
variable {n : Nat} {si : SI} {v : List (List (List Arr))}

theorem SsqVecs.at3 (hv : SsqVecs n si v) {c k : Nat} (hc : c ≤ n) (hk : k ≤ szW n c) :
    Vecs.at3 (.ssq v) c (k : Int) = .ok ((List.range (ssqE n c k + 1)).map fun j => ssVec v c k j) ∧
    ∀ j, j ≤ ssqE n c k → (ssVec v c k j).dims = [(szCell si (c, k)).length, (ssCell si c k j).length] := by
  obtain ⟨r, s, h1, h2, h3, h4⟩ := hv c k hc hk
  have hget : ∀ j, j ≤ ssqE n c k → s[j]? = some (ssVec v c k j) := by
    intro j hj
    unfold ssVec
    rw [(getElem?_pyGet h1).2, (getElem?_pyGet h2).2]
    have hlt : j < s.length := by rw [h3]; unfold ssqE szW at hj; omega
    rw [List.getElem?_eq_getElem hlt, getD_lt hlt]
  refine ⟨?_, fun j hj => h4 j _ (hget j hj)⟩
  simp only [Vecs.at3]
  rw [(getElem?_pyGet (d := []) h1).1]
  simp only [py_bind_ok]
  rw [(getElem?_pyGet (d := []) h2).1]
  congr 1
  refine List.ext_getElem? fun j => ?_
  rcases Nat.lt_or_ge j (ssqE n c k + 1) with hj | hj
  · rw [hget j (by omega), List.getElem?_map, List.getElem?_range hj]; rfl
  · rw [List.getElem?_eq_none (by rw [h3]; unfold ssqE szW at hj; omega),
      List.getElem?_eq_none (by simpa using hj)]

/-- The joined matrices of all sectors. -/
theorem SsqVecs.join (h : SIInv n si) (hix : si.indexing = .ssq) (hv : SsqVecs n si v) :
    ∃ V : Nat × Nat → Arr, ∀ c k, c ≤ n → k ≤ szW n c →
      concatCols ((List.range (ssqE n c k + 1)).map fun j => ssVec v c k j) = .ok (V (c, k)) ∧
      (V (c, k)).dims = [(szCell si (c, k)).length, (szCell si (c, k)).length] ∧
      ∀ j, j ≤ ssqE n c k → ∀ p i, i < ssqM n c k j →
        (V (c, k)).mat p (pre (ssqM n c k) j + i) = (ssVec v c k j).mat p i := by
  have hex : ∀ s : Nat × Nat, ∃ V, s.1 ≤ n → s.2 ≤ szW n s.1 →
      concatCols ((List.range (ssqE n s.1 s.2 + 1)).map fun j => ssVec v s.1 s.2 j) = .ok V ∧
      V.dims = [(szCell si s).length, (szCell si s).length] ∧
      ∀ j, j ≤ ssqE n s.1 s.2 → ∀ p i, i < ssqM n s.1 s.2 j →
        V.mat p (pre (ssqM n s.1 s.2) j + i) = (ssVec v s.1 s.2 j).mat p i := by
    rintro ⟨c, k⟩
    by_cases hck : c ≤ n ∧ k ≤ szW n c
    swap
    · exact ⟨Arr.zeros [], fun h1 h2 => absurd ⟨h1, h2⟩ hck⟩
    obtain ⟨hc, hk⟩ := hck
    obtain ⟨e1, -, e3⟩ := h.ssCell_ok hix hc hk
    obtain ⟨V, g1, g2, g3⟩ := concatCols_ok (d := (szCell si (c, k)).length) (ssqM n c k)
      (fun j => ssVec v c k j) (ssqE n c k) (fun j hj => by
        rw [(hv.at3 hc hk).2 j hj, e3 j hj]; simp [ssqCell])
    refine ⟨V, fun _ _ => ⟨g1, ?_, g3⟩⟩
    rw [g2, ← h.szLen_eq hix hc hk, e1, List.length_range']
  choose V hV using hex
  exact ⟨V, fun c k hc hk => hV (c, k) hc hk⟩

/-- The full matrix for 'ssq' indexing. -/
theorem pmtr_ssq (h : SIInv n si) (hix : si.indexing = .ssq) (hv : SsqVecs n si v) {V : Nat × Nat → Arr}
    (hV : ∀ c k, c ≤ n → k ≤ szW n c →
      (V (c, k)).dims = [(szCell si (c, k)).length, (szCell si (c, k)).length] ∧
      ∀ j, j ≤ ssqE n c k → ∀ p i, i < ssqM n c k j →
        (V (c, k)).mat p (pre (ssqM n c k) j + i) = (ssVec v c k j).mat p i) :
    ∃ P, constructFullPmtr si (.ssq v) = .ok P ∧ BlockDiag si.nmany (szSectors n) (szCell si) V P := by
  have hs := h.sz_sectors (vec := V) (.inr hix) fun c k hc hk => (hV c k hc hk).1
  have hn := (h.sz (.inr hix)).1
  have hpos : ∀ {c k : Nat}, c ≤ n → k ≤ szW n c → 0 < szLen n c k := fun hc hk => szLen_pos n _ _ hn hc hk
  obtain ⟨P, e, hP⟩ := blockDiag_fold (N := si.nmany) (row := szCell si)
    (vec := V) (fun p (s : Nat × Nat) =>
      (ssqrange s.1 (-(szW n s.1 : Int) + 2 * s.2) n).foldlM (fun p ssq => do
          let k := szToInd (-(szW n s.1 : Int) + 2 * s.2) s.1 n
          let q := ssqToInd ssq (-(szW n s.1 : Int) + 2 * s.2)
          let row ← si.szRow s.1 k
          let cols ← si.ssqRow s.1 k
          let cols ← pyGet cols q
          if row = [] ∨ cols = [] then pure p
          else do
            let vs ← Vecs.at3 (.ssq v) s.1 k
            let v ← pyGet vs q
            fillBlock row cols v p) p) (szSectors n) (by
      rintro ⟨c, k⟩ hck p hp
      obtain ⟨hc, hk⟩ := mem_szSectors.1 hck
      dsimp only at hc hk ⊢
      obtain ⟨e1, e2, e3⟩ := h.ssCell_ok hix hc hk
      have hlen := sector_le hs hck e1 (hpos hc hk)
      obtain ⟨p', f1, f2⟩ := fill_cells (N := si.nmany) (o := szStart n c k) (d := szLen n c k)
        (r := ssqE n c k) (ssqM n c k) (fun j => ssVec v c k j) (V := V (c, k)) hlen
        (h.szLen_eq hix hc hk).symm
        (fun j hj => by
          rw [(hv.at3 hc hk).2 j hj, e3 j hj, e1]; simp [ssqCell])
        (hV c k hc hk).2 hp
      rw [e1]
      refine ⟨p', ?_, f2⟩
      rw [ssqrange_sz n c k hc hk, List.foldlM_map, ← f1]
      refine foldlM_congr ?_
      intro p j hj
      have hj' : j ≤ ssqE n c k := by
        have := List.mem_range.1 hj
        unfold ssqE; omega
      rw [szToInd_range n c k hc, (h.szCell_ok (.inr hix) hc hk).1, ssqToInd_row n c k j hk, e2,
        (hv.at3 hc hk).1]
      simp only [py_bind_ok]
      rw [pyGet_map_range _ _ _ (by omega)]
      simp only [py_bind_ok]
      rw [pyGet_map_range _ _ _ (by omega)]
      simp only [py_bind_ok]
      rw [e1, e3 j hj', if_neg]
      · rfl
      · rintro (h0 | h0)
        · have := congrArg List.length h0
          rw [List.length_range'] at this
          have := hpos hc hk
          simp at *
          omega
        · have := congrArg List.length h0
          have hp := ssqM_pos n c k j hn hc hk hj'
          simp [ssqCell] at this
          omega)
      (szSectors_nodup n) hs.disj
  refine ⟨P, ?_, hP⟩
  unfold constructFullPmtr
  rw [hix]
  dsimp only
  rw [h.ncharge, h.nsingle, foldlM_sz n (fun p c sz =>
      (ssqrange c sz n).foldlM (fun p ssq => do
          let k := szToInd sz c n
          let q := ssqToInd ssq sz
          let row ← si.szRow c k
          let cols ← si.ssqRow c k
          let cols ← pyGet cols q
          if row = [] ∨ cols = [] then pure p
          else do
            let vs ← Vecs.at3 (.ssq v) c k
            let v ← pyGet vs q
            fillBlock row cols v p) p)]
  exact e

end

end Verif
