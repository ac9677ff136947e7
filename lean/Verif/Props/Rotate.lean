import Verif.Lemmas.Rotate
import Verif.Props.Fock

/-! C16: the change to the eigenbasis block by block is the change with the full matrix. -/

namespace Verif

open Verif.Spec

/-- An indexing object after construction and removals of Fock states: any removals for 'charge'
and 'sz' indexing, at most one call for 'Lin' indexing (C09) and none for 'ssq' indexing. -/
def ReachedSI (n : Nat) (si : SI) : Prop :=
  ∃ (indexing : String) (calls : List (List Int)), SI.run n indexing calls = .ok si ∧
    (∀ l ∈ calls, ∀ i ∈ l, -((2 ^ n : Nat) : Int) ≤ i ∧ i < ((2 ^ n : Nat) : Int)) ∧
    (indexing = "charge" ∨ (indexing = "sz" ∧ n % 2 = 0) ∨
      (¬ (indexing = "ssq" ∧ n % 2 = 0) ∧ calls.length ≤ 1) ∨ calls = [])

theorem ReachedSI.inv {n : Nat} {si : SI} (h : ReachedSI n si) : SIInv n si := by
  obtain ⟨indexing, calls, hrun, hin, hix⟩ := h
  obtain ⟨si0, h1, hinv0, hch, hr⟩ := init_inv n indexing
  unfold SI.run at hrun
  rw [h1, py_bind_ok] at hrun
  by_cases hc0 : calls = []
  · subst hc0
    cases hrun
    exact hinv0
  have hnssq : si0.indexing ≠ .ssq := by
    rw [hch]; unfold chooseIndexing
    rcases hix with rfl | ⟨rfl, h⟩ | ⟨h, _⟩ | h
    · simp
    · simp [h]
    · split
      · simp
      · split
        · simp
        · simp
    · exact absurd h hc0
  have hlin : si0.indexing = .Lin → si0.removed = none ∧ calls.length ≤ 1 ∨ calls = [] := by
    intro h
    rcases hix with rfl | ⟨rfl, h'⟩ | ⟨_, h'⟩ | h'
    · rw [hch] at h; simp [chooseIndexing] at h
    · rw [hch] at h; simp [chooseIndexing, h'] at h
    · exact .inl ⟨hr, h'⟩
    · exact .inr h'
  obtain ⟨si', g1, hinv, -, -⟩ := removes_inv n calls si0 hinv0 hnssq hlin hin
  have e : si' = si := by rw [hrun] at g1; exact (Except.ok.inj g1).symm
  exact e ▸ hinv

/-- The states with charge `c`. -/
def chargeRow (si : SI) (c : Nat) : List Nat := si.chargelst.getD c []

/-- The states with charge `c` and the `k`-th spin projection. -/
def szCell (si : SI) (s : Nat × Nat) : List Nat := ((si.szlst.getD []).getD s.1 []).getD s.2 []

/-- The sectors `(c, k)`: the spin projection is `2 k - min c (n - c)`. -/
def szSectors (n : Nat) : List (Nat × Nat) :=
  (List.range (n + 1)).flatMap fun c => (List.range (min c (n - c) + 1)).map fun k => (c, k)

theorem mem_szSectors {n : Nat} {s : Nat × Nat} : s ∈ szSectors n ↔ s.1 ≤ n ∧ s.2 ≤ szW n s.1 := by
  unfold szSectors szW
  simp only [List.mem_flatMap, List.mem_range, List.mem_map]
  constructor
  · rintro ⟨c, hc, k, hk, rfl⟩
    exact ⟨by omega, by omega⟩
  · rintro ⟨h1, h2⟩
    exact ⟨s.1, by omega, s.2, by omega, rfl⟩

theorem szSectors_nodup (n : Nat) : (szSectors n).Nodup := by
  unfold szSectors
  rw [List.nodup_flatMap]
  constructor
  · intro c _
    exact List.Nodup.map (fun a b h => (Prod.mk.inj h).2) List.nodup_range
  · refine List.Pairwise.imp ?_ (List.nodup_range (n := n + 1))
    intro a b hab x hx hy
    simp only [List.mem_map] at hx hy
    obtain ⟨_, _, rfl⟩ := hx
    obtain ⟨_, _, h⟩ := hy
    exact hab (Prod.mk.inj h).1.symm

section
variable {n : Nat} {si : SI}

theorem getD_lt {α : Type} {l : List α} {c : Nat} {d : α} (h : c < l.length) : l.getD c d = l[c] := by
  rw [List.getD_eq_getElem?_getD, List.getElem?_eq_getElem h, Option.getD_some]

theorem pyGet_getD {α : Type} {l : List α} {c : Nat} {x d : α} (h : pyGet l (c : Int) = .ok x) :
    l.getD c d = x := by
  by_cases hc : c < l.length
  · rw [pyGet_nat _ hc] at h
    rw [getD_lt hc]
    exact Except.ok.inj h
  · rw [pyGet_nat_err _ (by omega)] at h
    cases h

theorem SIInv.chargeRow_ok (h : SIInv n si) {c : Nat} (hc : c ≤ n) :
    pyGet si.chargelst (c : Int) = .ok (chargeRow si c) ∧ (chargeRow si c).Nodup ∧
      ∀ b, b ∈ chargeRow si c ↔ ∃ hb : b < si.i.length, charge n si.i[b] = c := by
  obtain ⟨l, h1, h2, -, h4⟩ := h.charge_row c hc
  have e : chargeRow si c = l := pyGet_getD h1
  rw [e]
  exact ⟨h1, h2, h4⟩

theorem SIInv.charge_sectors (h : SIInv n si) {vec : Nat → Arr}
    (hd : ∀ c ≤ n, (vec c).dims = [(chargeRow si c).length, (chargeRow si c).length]) :
    Sectors si.nmany (List.range (n + 1)) (chargeRow si) vec := by
  have hle : ∀ c, c ∈ List.range (n + 1) ↔ c ≤ n := fun c => by rw [List.mem_range]; omega
  refine ⟨?_, ?_, ?_, ?_, ?_⟩
  · intro c hc
    exact (h.chargeRow_ok ((hle c).1 hc)).2.1
  · intro c hc b hb
    obtain ⟨hb', -⟩ := ((h.chargeRow_ok ((hle c).1 hc)).2.2 b).1 hb
    rw [← h.ilen]; exact hb'
  · intro b hb
    rw [← h.ilen] at hb
    have hcc := charge_le (h.ilt hb)
    exact ⟨_, (hle _).2 hcc, ((h.chargeRow_ok hcc).2.2 b).2 ⟨hb, rfl⟩⟩
  · intro c hc c' hc' b hb hb'
    obtain ⟨_, h1⟩ := ((h.chargeRow_ok ((hle c).1 hc)).2.2 b).1 hb
    obtain ⟨_, h2⟩ := ((h.chargeRow_ok ((hle c').1 hc')).2.2 b).1 hb'
    rw [← h1, ← h2]
  · intro c hc
    exact hd c ((hle c).1 hc)

theorem SIInv.charge_contig (h : SIInv n si) (hix : si.indexing = .charge) {c : Nat} (hc : c ≤ n) :
    ∃ o len, chargeRow si c = List.range' o len := by
  have hrow := enumChargelst_rowAt (chL n (keepOf si.removed))
  have e := (h.ch hix).2.2
  have hc1 : c < (chL n (keepOf si.removed)).length := by rw [chL_length]; omega
  have hc2 : c < si.chargelst.length := by rw [e, enumChargelst_length]; exact hc1
  rw [← e] at hrow
  obtain ⟨t, ht, -⟩ := List.Forall₂.get hrow hc2 hc1
  refine ⟨t, (chL n (keepOf si.removed))[c].length, ?_⟩
  unfold chargeRow
  rw [getD_lt hc2]
  exact ht

theorem SIInv.szCell_ok (h : SIInv n si) (hix : si.indexing = .sz ∨ si.indexing = .ssq) {c k : Nat}
    (hc : c ≤ n) (hk : k ≤ szW n c) :
    si.szRow c (k : Int) = .ok (szCell si (c, k)) ∧ (szCell si (c, k)).Nodup ∧
      ∀ b, b ∈ szCell si (c, k) ↔ ∃ hb : b < si.i.length, charge n si.i[b] = c ∧ szPos n si.i[b] = k := by
  obtain ⟨T, R, l, h1, h2, h3, h4, -, h6⟩ := h.sz_row hix c k hc hk
  have e : szCell si (c, k) = l := by
    unfold szCell
    rw [h1, Option.getD_some, pyGet_getD h2, pyGet_getD h3]
  rw [e]
  refine ⟨?_, h4, h6⟩
  unfold SI.szRow
  rw [h1]
  simp only [h2, py_bind_ok, h3]

theorem SIInv.sz_sectors (h : SIInv n si) (hix : si.indexing = .sz ∨ si.indexing = .ssq)
    {vec : Nat × Nat → Arr}
    (hd : ∀ c k, c ≤ n → k ≤ szW n c →
      (vec (c, k)).dims = [(szCell si (c, k)).length, (szCell si (c, k)).length]) :
    Sectors si.nmany (szSectors n) (szCell si) vec := by
  refine ⟨?_, ?_, ?_, ?_, ?_⟩
  · rintro ⟨c, k⟩ hs
    obtain ⟨hc, hk⟩ := mem_szSectors.1 hs
    exact (h.szCell_ok hix hc hk).2.1
  · rintro ⟨c, k⟩ hs b hb
    obtain ⟨hc, hk⟩ := mem_szSectors.1 hs
    obtain ⟨hb', -⟩ := ((h.szCell_ok hix hc hk).2.2 b).1 hb
    rw [← h.ilen]; exact hb'
  · intro b hb
    rw [← h.ilen] at hb
    have hcc := charge_le (h.ilt hb)
    have hk := szPos_lt (h.sz hix).1 (h.ilt hb)
    exact ⟨_, mem_szSectors.2 ⟨hcc, by dsimp only; omega⟩,
      ((h.szCell_ok hix hcc (by omega)).2.2 b).2 ⟨hb, rfl, rfl⟩⟩
  · rintro ⟨c, k⟩ hs ⟨c', k'⟩ hs' b hb hb'
    obtain ⟨hc, hk⟩ := mem_szSectors.1 hs
    obtain ⟨hc', hk'⟩ := mem_szSectors.1 hs'
    obtain ⟨_, h1, h2⟩ := ((h.szCell_ok hix hc hk).2.2 b).1 hb
    obtain ⟨_, h3, h4⟩ := ((h.szCell_ok hix hc' hk').2.2 b).1 hb'
    exact Prod.ext (h1.symm.trans h3) (h2.symm.trans h4)
  · rintro ⟨c, k⟩ hs
    obtain ⟨hc, hk⟩ := mem_szSectors.1 hs
    exact hd c k hc hk

theorem SIInv.sz_contig (h : SIInv n si) (hix : si.indexing = .sz ∨ si.indexing = .ssq) {c k : Nat}
    (hc : c ≤ n) (hk : k ≤ szW n c) : ∃ o len, szCell si (c, k) = List.range' o len := by
  have hrow := enumSzlst_rowAt (szL n (keepOf si.removed))
  have e := (h.sz hix).2.2.2.2.1
  have hc1 : c < (szL n (keepOf si.removed)).length := by rw [szL_length]; omega
  have hc2 : c < (enumSzlst (szL n (keepOf si.removed))).length := by
    rw [enumSzlst_length]; exact hc1
  have hr := List.Forall₂.get hrow hc2 hc1
  have hk1 : k < (szL n (keepOf si.removed))[c].length := by simp [szL]; omega
  have hk2 : k < (enumSzlst (szL n (keepOf si.removed)))[c].length := by
    rw [enumSzlst_row_length]; omega
  obtain ⟨t, ht, -⟩ := List.Forall₂.get hr hk2 hk1
  refine ⟨t, (szL n (keepOf si.removed))[c][k].length, ?_⟩
  unfold szCell
  rw [e, Option.getD_some, getD_lt hc2, getD_lt hk2]
  exact ht

/-- The charge of a state. -/
theorem SIInv.state_charge (h : SIInv n si) {b : Nat} {s : List Nat} (hs : si.getState (b : Int) = .ok s) :
    ∃ hb : b < si.i.length, charge n si.i[b] = s.sum := by
  by_cases hb : b < si.i.length
  · rw [h.getState hb] at hs
    exact ⟨hb, by rw [← Except.ok.inj hs]; rfl⟩
  · rw [h.getState_err (by omega)] at hs
    cases hs

end

/-- A loop that writes all blocks which `T0` couples gives `P† T0 P`. -/
theorem rotated_of_written {ι : Type} {N L : Nat} {I : List ι} {row : ι → List Nat} {vec : ι → Arr}
    {P T0 T : Arr} (hP : BlockDiag N I row vec P) (W : Nat → Nat → Nat → Prop) (hT : T.dims = [L, N, N])
    (hval : ∀ l b a, (W l b a → T.val [l, b, a] = rotated N P T0 l b a) ∧
      (¬ W l b a → T.val [l, b, a] = 0))
    (hsupp : ∀ l b a b' a', l < L → b' < N → a' < N → T0.val [l, b', a'] ≠ 0 →
      (∃ s ∈ I, b' ∈ row s ∧ b ∈ row s) → (∃ s ∈ I, a' ∈ row s ∧ a ∈ row s) → W l b a) :
    Rotated L N P T0 T := by
  refine ⟨hT, ?_⟩
  intro l b a hl hb ha
  by_cases hW : W l b a
  · exact (hval l b a).1 hW
  · rw [(hval l b a).2 hW, rotated_zero hP]
    intro b' a' hb' ha' hs hs'
    by_contra hne
    exact hW (hsupp l b a b' a' hl hb' ha' hne hs hs')

/-- The full matrix for the indexings without spin. -/
theorem pmtr_charge {n : Nat} {si : SI} (h : SIInv n si) (hix : si.indexing = .Lin ∨ si.indexing = .charge)
    {v : List Arr}
    (hv : ∀ c ≤ n, ∃ m, v[c]? = some m ∧ m.dims = [(chargeRow si c).length, (chargeRow si c).length]) :
    ∃ P, constructFullPmtr si (.charge v) = .ok P ∧
      BlockDiag si.nmany (List.range (n + 1)) (chargeRow si) (fun c => v.getD c (Arr.zeros [])) P := by
  have hs := h.charge_sectors (vec := fun c => v.getD c (Arr.zeros [])) (by
    intro c hc
    obtain ⟨m, h1, h2⟩ := hv c hc
    rw [List.getD_eq_getElem?_getD, h1]
    exact h2)
  obtain ⟨P, e, hP⟩ := blockDiag_fold (N := si.nmany) (row := chargeRow si)
    (vec := fun c => v.getD c (Arr.zeros [])) (fun p (c : Nat) => do
      let row ← pyGet si.chargelst c
      if row = [] then pure p
      else do
        let m ← Vecs.at1 (.charge v) c
        fillBlock row row m p) (List.range (n + 1)) (by
      intro c hc p hp
      have hc' : c ≤ n := by rw [List.mem_range] at hc; omega
      rw [(h.chargeRow_ok hc').1]
      simp only [py_bind_ok]
      by_cases h0 : chargeRow si c = []
      · rw [if_pos h0]
        refine ⟨p, rfl, rfl, ?_, fun _ _ _ => rfl⟩
        intro i j hi
        rw [h0] at hi
        exact absurd hi (by simp)
      · rw [if_neg h0]
        obtain ⟨m, h1, h2⟩ := hv c hc'
        have hlt : c < v.length := by
          by_contra hc
          rw [List.getElem?_eq_none (by omega)] at h1
          cases h1
        have h3 : v.getD c (Arr.zeros []) = m := by rw [List.getD_eq_getElem?_getD, h1]; rfl
        have h4 : Vecs.at1 (.charge v) c = .ok (v.getD c (Arr.zeros [])) := by
          simp only [Vecs.at1]
          rw [pyGet_nat _ hlt, getD_lt hlt]
        rw [h4]
        simp only [py_bind_ok]
        exact fillBlock_filled (hs.rows c hc) (hs.lt c hc) (hs.dims c hc) hp) List.nodup_range hs.disj
  refine ⟨P, ?_, hP⟩
  unfold constructFullPmtr
  rcases hix with hix | hix <;>
  · rw [hix]
    dsimp only
    rw [h.ncharge]
    exact e

theorem at1_ok {v : List Arr} {c : Nat} {m : Arr} (h : v[c]? = some m) :
    Vecs.at1 (.charge v) c = .ok (v.getD c (Arr.zeros [])) := by
  have hlt : c < v.length := by
    by_contra hc
    rw [List.getElem?_eq_none (by omega)] at h
    cases h
  simp only [Vecs.at1]
  rw [pyGet_nat _ hlt, getD_lt hlt]

/-- C16 for 'charge' indexing, after any removals of Fock states. The blockwise rotation does not
raise and is `P† T0 P` with the full matrix `P` of `construct_full_pmtr`, which is block diagonal
with the given eigenvectors; the result is Hermitian. -/
theorem c16_charge {n : Nat} {si : SI} (hr : ReachedSI n si) (hix : si.indexing = .charge) {L : Nat}
    {T0 : Arr} (hd : T0.dims = [L, si.nmany, si.nmany]) (hh : Herm L si.nmany T0)
    (hq : ∀ l b a, l < L → b < si.nmany → a < si.nmany → T0.val [l, b, a] ≠ 0 →
      ∀ s' s, si.getState (b : Int) = .ok s' → si.getState (a : Int) = .ok s →
        s'.sum = s.sum + 1 ∨ s.sum = s'.sum + 1)
    {v : List Arr}
    (hv : ∀ c ≤ n, ∃ m, v[c]? = some m ∧ m.dims = [(chargeRow si c).length, (chargeRow si c).length]) :
    ∃ P T, constructFullPmtr si (.charge v) = .ok P ∧
      BlockDiag si.nmany (List.range (n + 1)) (chargeRow si) (fun c => v.getD c (Arr.zeros [])) P ∧
      rotateTba si L T0 (.charge v) none = .ok T ∧ Rotated L si.nmany P T0 T ∧ Herm L si.nmany T := by
  have h := hr.inv
  obtain ⟨P, eP, hP⟩ := pmtr_charge h (.inr hix) hv
  have hs := h.charge_sectors (vec := fun c => v.getD c (Arr.zeros [])) (by
    intro c hc
    obtain ⟨m, h1, h2⟩ := hv c hc
    rw [List.getD_eq_getElem?_getD, h1]
    exact h2)
  obtain ⟨T, eT, dT, vT⟩ := rotate_fold (N := si.nmany) (L := L) (P := P) (T0 := T0)
    (fun t (l : Nat) => (List.range n).foldlM (fun t (c : Nat) => do
        let row ← pyGet si.chargelst c
        let row' ← pyGet si.chargelst (c + 1 : Nat)
        if row = [] ∨ row' = [] then pure t
        else do
          let m ← Vecs.at1 (.charge v) c
          let m' ← Vecs.at1 (.charge v) (c + 1)
          rotBlock T0 t l row row' m m') t)
    (fun l l' b a => ∃ c ∈ List.range n, l' = l ∧ (b ∈ chargeRow si c ∧ a ∈ chargeRow si (c + 1) ∨
      b ∈ chargeRow si (c + 1) ∧ a ∈ chargeRow si c)) (List.range L) (by
    intro l hl t ht
    refine rotate_fold (N := si.nmany) (L := L) (P := P) (T0 := T0) _
      (fun c l' b a => l' = l ∧ (b ∈ chargeRow si c ∧ a ∈ chargeRow si (c + 1) ∨
      b ∈ chargeRow si (c + 1) ∧ a ∈ chargeRow si c)) (List.range n) ?_ t ht
    intro c hc t ht
    have hc := List.mem_range.1 hc
    have hl := List.mem_range.1 hl
    rw [(h.chargeRow_ok (by omega : c ≤ n)).1, (h.chargeRow_ok (by omega : c + 1 ≤ n)).1]
    simp only [py_bind_ok]
    by_cases h0 : chargeRow si c = [] ∨ chargeRow si (c + 1) = []
    · rw [if_pos h0]
      refine ⟨t, rfl, ht, fun l' b a => ⟨?_, fun _ => rfl⟩⟩
      rintro ⟨-, h12⟩
      rcases h0 with h0 | h0 <;> rw [h0] at h12 <;> simp at h12
    · rw [if_neg h0]
      obtain ⟨m, h1, -⟩ := hv c (by omega)
      obtain ⟨m', h1', -⟩ := hv (c + 1) (by omega)
      rw [at1_ok h1, at1_ok h1']
      simp only [py_bind_ok]
      push Not at h0
      obtain ⟨t', k1, k2, k3⟩ := rotBlock_ok hs hP hd hh ht hl (s := c) (s' := c + 1)
        (List.mem_range.2 (by omega)) (List.mem_range.2 (by omega))
        (h.charge_contig hix (by omega)) (h.charge_contig hix (by omega)) h0.1 h0.2
      refine ⟨t', k1, k2, fun l' b a => ⟨fun hw => ?_, fun hw => ?_⟩⟩
      · rw [k3, if_pos hw, hw.1]
      · rw [k3, if_neg hw]) (Arr.zeros [L, si.nmany, si.nmany]) rfl
  have hrot : Rotated L si.nmany P T0 T := by
    refine rotated_of_written hP _ dT vT ?_
    rintro l b a b' a' hl hb' ha' hne ⟨c, hc, m1, m2⟩ ⟨c', hc', m3, m4⟩
    have hc := List.mem_range.1 hc
    have hc' := List.mem_range.1 hc'
    obtain ⟨i1, j1⟩ := ((h.chargeRow_ok (by omega)).2.2 b').1 m1
    obtain ⟨i2, j2⟩ := ((h.chargeRow_ok (by omega)).2.2 a').1 m3
    have := hq l b' a' hl hb' ha' hne _ _ (h.getState i1) (h.getState i2)
    change charge n si.i[b'] = charge n si.i[a'] + 1 ∨ charge n si.i[a'] = charge n si.i[b'] + 1 at this
    rw [j1, j2] at this
    rcases this with rfl | rfl
    · exact ⟨l, List.mem_range.2 hl, c', List.mem_range.2 (by omega), rfl, .inr ⟨m2, m4⟩⟩
    · exact ⟨l, List.mem_range.2 hl, c, List.mem_range.2 (by omega), rfl, .inl ⟨m2, m4⟩⟩
  refine ⟨P, T, eP, hP, ?_, hrot, ?_⟩
  · unfold rotateTba
    rw [Option.getD_none, hix]
    dsimp only
    rw [h.ncharge, Nat.add_sub_cancel]
    exact eT
  · intro l b a hl hb ha
    rw [hrot.2 l b a hl hb ha, hrot.2 l a b hl ha hb, rotated_herm hh hl]


/-- The same for 'Lin' indexing (after at most one removal), for which the code multiplies with the
full matrix; no condition on the amplitudes is needed. The full matrix is built from blocks whose
states are not consecutive. -/
theorem c16_lin {n : Nat} {si : SI} (hr : ReachedSI n si) (hix : si.indexing = .Lin) {L : Nat}
    {T0 : Arr} (hd : T0.dims = [L, si.nmany, si.nmany]) {v : List Arr}
    (hv : ∀ c ≤ n, ∃ m, v[c]? = some m ∧ m.dims = [(chargeRow si c).length, (chargeRow si c).length]) :
    ∃ P T, constructFullPmtr si (.charge v) = .ok P ∧
      BlockDiag si.nmany (List.range (n + 1)) (chargeRow si) (fun c => v.getD c (Arr.zeros [])) P ∧
      rotateTba si L T0 (.charge v) none = .ok T ∧ rotateVbbp si L T0 (.charge v) none = .ok T ∧
      Rotated L si.nmany P T0 T := by
  obtain ⟨P, eP, hP⟩ := pmtr_charge hr.inv (.inl hix) hv
  obtain ⟨T, eT, hT⟩ := rotateFull_ok eP hP.dims hd
  refine ⟨P, T, eP, hP, ?_, ?_, hT⟩
  · unfold rotateTba
    rw [Option.getD_none, hix]
    exact eT
  · unfold rotateVbbp
    rw [Option.getD_none, hix]
    exact eT

/-- The blocks of the chosen rotation and of the full one agree: 'charge' indexing with the
argument `indexing='Lin'` gives the same array. -/
theorem c16_agree {n : Nat} {si : SI} (hr : ReachedSI n si) (hix : si.indexing = .charge) {L : Nat}
    {T0 : Arr} (hd : T0.dims = [L, si.nmany, si.nmany]) (hh : Herm L si.nmany T0)
    (hq : ∀ l b a, l < L → b < si.nmany → a < si.nmany → T0.val [l, b, a] ≠ 0 →
      ∀ s' s, si.getState (b : Int) = .ok s' → si.getState (a : Int) = .ok s →
        s'.sum = s.sum + 1 ∨ s.sum = s'.sum + 1)
    {v : List Arr}
    (hv : ∀ c ≤ n, ∃ m, v[c]? = some m ∧ m.dims = [(chargeRow si c).length, (chargeRow si c).length]) :
    ∃ T T', rotateTba si L T0 (.charge v) none = .ok T ∧
      rotateTba si L T0 (.charge v) (some .Lin) = .ok T' ∧ T.dims = T'.dims ∧
      ∀ l b a, l < L → b < si.nmany → a < si.nmany → T.val [l, b, a] = T'.val [l, b, a] := by
  obtain ⟨P, T, eP, hP, eT, hT, -⟩ := c16_charge hr hix hd hh hq hv
  obtain ⟨T', eT', hT'⟩ := rotateFull_ok eP hP.dims hd
  refine ⟨T, T', eT, ?_, by rw [hT.1, hT'.1], ?_⟩
  · unfold rotateTba
    exact eT'
  · intro l b a hl hb ha
    rw [hT.2 l b a hl hb ha, hT'.2 l b a hl hb ha]

/-- C16 for the amplitudes which the code itself builds. -/
theorem c16_tba {n : Nat} {si : SI} (hr : ReachedSI n si) (hc : Consistent n si)
    (hix : si.indexing = .charge) (L : Nat) (ts : List ((Nat × Fin n) × ℂ))
    (hts : ∀ e ∈ ts, e.1.1 < L) {v : List Arr}
    (hv : ∀ c ≤ n, ∃ m, v[c]? = some m ∧ m.dims = [(chargeRow si c).length, (chargeRow si c).length]) :
    ∃ T0 P T, constructTba si L (tunKeys ts) none = .ok T0 ∧
      constructFullPmtr si (.charge v) = .ok P ∧
      rotateTba si L T0 (.charge v) none = .ok T ∧ Rotated L si.nmany P T0 T ∧ Herm L si.nmany T := by
  obtain ⟨T0, e0, d0, -⟩ := c12_tba hc L ts hts
  obtain ⟨P, T, eP, -, eT, hT, hT'⟩ := c16_charge hr hix d0 (v := v) (by
    intro l b a _ hb ha
    exact c12_hermitian hc L ts hts T0 e0 l a b ha hb) (by
    intro l b a _ hb ha hne s' s hs' hs
    by_contra hno
    push Not at hno
    exact hne (c12_charge hc L ts hts T0 e0 l b a hb ha s' s hs' hs hno)) hv
  exact ⟨T0, P, T, e0, eP, eT, hT, hT'⟩

/-! Spin projection. -/

/-- Nested loops over `(c, k)` in one loop. -/
theorem foldlM_nested {α β γ : Type} (f : α → β → γ → Py α) (xs : List β) (g : β → List γ) (p : α) :
    xs.foldlM (fun p x => (g x).foldlM (fun p y => f p x y) p) p
      = (xs.flatMap fun x => (g x).map fun y => (x, y)).foldlM (fun p s => f p s.1 s.2) p := by
  induction xs generalizing p with
  | nil => rfl
  | cons x xs ih =>
    rw [List.foldlM_cons, List.flatMap_cons, List.foldlM_append, List.foldlM_map]
    congr 1
    funext q
    exact ih q

/-- The loop over the spin projections of all charges. -/
theorem foldlM_sz {α : Type} (n : Nat) (f : α → Nat → Int → Py α) (p : α) :
    (List.range (n + 1)).foldlM (fun p (c : Nat) => (szrange c n).foldlM (fun p sz => f p c sz) p) p
      = (szSectors n).foldlM (fun p s => f p s.1 (-(szW n s.1 : Int) + 2 * s.2)) p := by
  have h : ∀ p : α,
      (List.range (n + 1)).foldlM (fun p (c : Nat) => (szrange c n).foldlM (fun p sz => f p c sz) p) p
      = (List.range (n + 1)).foldlM (fun p (c : Nat) => (List.range (szW n c + 1)).foldlM
          (fun p (k : Nat) => f p c (-(szW n c : Int) + 2 * k)) p) p := by
    intro p
    refine foldlM_congr ?_
    intro q c hc
    rw [szrange_eq n c (by rw [List.mem_range] at hc; omega), List.foldlM_map]
  rw [h, foldlM_nested (fun p c k => f p c (-(szW n c : Int) + 2 * (k : Nat)))]
  rfl

/-- The spin direction of a lead: the first half of the labels is spin up. -/
def leadSpin (L l : Nat) : Int := if l < L / 2 then 1 else -1

/-- The spin projections in the loop of `rotate_Tba` are those with a partner in the next charge. -/
theorem leadSz_mem {n L l c : Nat} (hn : n % 2 = 0) (hc : c < n) (x : Int) :
    x ∈ (leadSz L (n + 1) n l c).1 ↔ ∃ k k' : Nat, k ≤ szW n c ∧ k' ≤ szW n (c + 1) ∧
      x = -(szW n c : Int) + 2 * k ∧ x + leadSpin L l = -(szW n (c + 1) : Int) + 2 * k' := by
  have hr := szrange_eq n c (by omega)
  have hW : szW n c = min c (n - c) := rfl
  have hW' : szW n (c + 1) = min (c + 1) (n - (c + 1)) := rfl
  have e1 : (List.range (szW n c + 1)).dropLast = List.range (szW n c) := by
    rw [List.range_succ, List.dropLast_concat]
  have e2 : (List.range (szW n c + 1)).drop 1 = (List.range (szW n c)).map Nat.succ := by
    rw [List.range_succ_eq_map]; rfl
  unfold leadSz leadSpin
  dsimp only
  rw [hr]
  by_cases h1 : (n + 1) / 2 ≤ c
  · rw [if_pos h1]
    by_cases h2 : l < L / 2
    · rw [if_pos h2, if_pos h2, ← List.map_dropLast, e1]
      simp only [List.mem_map, List.mem_range]
      constructor
      · rintro ⟨k, hk, rfl⟩
        exact ⟨k, k, by omega, by omega, rfl, by omega⟩
      · rintro ⟨k, k', hk, hk', h3, h4⟩
        exact ⟨k, by omega, h3.symm⟩
    · rw [if_neg h2, if_neg h2, ← List.map_drop, e2]
      simp only [List.map_map, List.mem_map, List.mem_range, Function.comp_apply]
      constructor
      · rintro ⟨k, hk, rfl⟩
        exact ⟨k + 1, k, by omega, by omega, by push_cast; omega, by push_cast; omega⟩
      · rintro ⟨k, k', hk, hk', h3, h4⟩
        exact ⟨k', by omega, by push_cast; omega⟩
  · rw [if_neg h1]
    simp only [List.mem_map, List.mem_range]
    by_cases h2 : l < L / 2
    · rw [if_pos h2]
      constructor
      · rintro ⟨k, hk, rfl⟩
        exact ⟨k, k + 1, by omega, by omega, rfl, by push_cast; omega⟩
      · rintro ⟨k, k', hk, hk', h3, h4⟩
        exact ⟨k, by omega, h3.symm⟩
    · rw [if_neg h2]
      constructor
      · rintro ⟨k, hk, rfl⟩
        exact ⟨k, k, by omega, by omega, rfl, by omega⟩
      · rintro ⟨k, k', hk, hk', h3, h4⟩
        exact ⟨k, by omega, h3.symm⟩

theorem leadSz_snd (L nc n l c : Nat) : (leadSz L nc n l c).2 = leadSpin L l := rfl

/-- The matrix for charge `c` and the `k`-th spin projection. -/
noncomputable def szVec (v : List (List Arr)) (s : Nat × Nat) : Arr :=
  (v.getD s.1 []).getD s.2 (Arr.zeros [])

/-- Square matrices for all sectors of charge and spin projection. -/
def SzVecs (n : Nat) (si : SI) (v : List (List Arr)) : Prop :=
  ∀ c k, c ≤ n → k ≤ min c (n - c) → ∃ r m, v[c]? = some r ∧ r[k]? = some m ∧
    m.dims = [(szCell si (c, k)).length, (szCell si (c, k)).length]

section
variable {n : Nat} {si : SI} {v : List (List Arr)}

theorem getElem?_pyGet {α : Type} {l : List α} {c : Nat} {x d : α} (h : l[c]? = some x) :
    pyGet l (c : Int) = .ok x ∧ l.getD c d = x := by
  obtain ⟨hlt, e⟩ := List.getElem?_eq_some_iff.1 h
  rw [pyGet_nat _ hlt, getD_lt hlt]
  exact ⟨congrArg _ e, e⟩

theorem SzVecs.at2 (hv : SzVecs n si v) {c k : Nat} (hc : c ≤ n) (hk : k ≤ szW n c) :
    Vecs.at2 (.sz v) c (k : Int) = .ok (szVec v (c, k)) ∧
      (szVec v (c, k)).dims = [(szCell si (c, k)).length, (szCell si (c, k)).length] := by
  obtain ⟨r, m, h1, h2, h3⟩ := hv c k hc hk
  have e : szVec v (c, k) = m := by
    unfold szVec
    rw [(getElem?_pyGet h1).2, (getElem?_pyGet h2).2]
  rw [e]
  refine ⟨?_, h3⟩
  simp only [Vecs.at2]
  rw [(getElem?_pyGet (d := []) h1).1, py_bind_ok]
  exact (getElem?_pyGet (d := m) h2).1

/-- The full matrix for indexing by spin projection. -/
theorem pmtr_sz (h : SIInv n si) (hix : si.indexing = .sz) (hv : SzVecs n si v) :
    ∃ P, constructFullPmtr si (.sz v) = .ok P ∧
      BlockDiag si.nmany (szSectors n) (szCell si) (szVec v) P := by
  have hs := h.sz_sectors (vec := szVec v) (.inl hix) fun c k hc hk => (hv.at2 hc hk).2
  obtain ⟨P, e, hP⟩ := blockDiag_fold (N := si.nmany) (row := szCell si)
    (vec := szVec v) (fun p (s : Nat × Nat) => do
      let row ← si.szRow s.1 (szToInd (-(szW n s.1 : Int) + 2 * s.2) s.1 n)
      if row = [] then pure p
      else do
        let m ← Vecs.at2 (.sz v) s.1 (szToInd (-(szW n s.1 : Int) + 2 * s.2) s.1 n)
        fillBlock row row m p) (szSectors n) (by
      rintro ⟨c, k⟩ hck p hp
      obtain ⟨hc, hk⟩ := mem_szSectors.1 hck
      dsimp only at hc hk ⊢
      rw [szToInd_range n c k hc, (h.szCell_ok (.inl hix) hc hk).1, (hv.at2 hc hk).1]
      simp only [py_bind_ok]
      by_cases h0 : szCell si (c, k) = []
      · rw [if_pos h0]
        refine ⟨p, rfl, rfl, ?_, fun _ _ _ => rfl⟩
        intro i j hi
        rw [h0] at hi
        exact absurd hi (by simp)
      · rw [if_neg h0]
        exact fillBlock_filled (hs.rows _ hck) (hs.lt _ hck) (hs.dims _ hck) hp)
      (szSectors_nodup n) hs.disj
  refine ⟨P, ?_, hP⟩
  unfold constructFullPmtr
  rw [hix]
  dsimp only
  rw [h.ncharge, h.nsingle, foldlM_sz n (fun p c sz => do
        let row ← si.szRow c (szToInd sz c n)
        if row = [] then pure p
        else do
          let m ← Vecs.at2 (.sz v) c (szToInd sz c n)
          fillBlock row row m p)]
  exact e

/-- The blocks which the loop writes. -/
def SzWritten (n L : Nat) (si : SI) (l b a : Nat) : Prop :=
  ∃ c k k' : Nat, c < n ∧ k ≤ szW n c ∧ k' ≤ szW n (c + 1) ∧
    -(szW n c : Int) + 2 * k + leadSpin L l = -(szW n (c + 1) : Int) + 2 * k' ∧
    (b ∈ szCell si (c, k) ∧ a ∈ szCell si (c + 1, k') ∨
      b ∈ szCell si (c + 1, k') ∧ a ∈ szCell si (c, k))

theorem rotate_sz_val (h : SIInv n si) (hix : si.indexing = .sz) {L : Nat}
    {T0 : Arr} (hd : T0.dims = [L, si.nmany, si.nmany]) (hh : Herm L si.nmany T0)
    (hv : SzVecs n si v) {P : Arr} (hP : BlockDiag si.nmany (szSectors n) (szCell si) (szVec v) P) :
    ∃ T, rotateTba si L T0 (.sz v) none = .ok T ∧ T.dims = [L, si.nmany, si.nmany] ∧
      ∀ l b a, (l < L ∧ SzWritten n L si l b a → T.val [l, b, a] = rotated si.nmany P T0 l b a) ∧
        (¬ (l < L ∧ SzWritten n L si l b a) → T.val [l, b, a] = 0) := by
  have hn := (h.sz (.inl hix)).1
  have hs := h.sz_sectors (vec := szVec v) (.inl hix) fun c k hc hk => (hv.at2 hc hk).2
  obtain ⟨T, eT, dT, vT⟩ := rotate_fold (N := si.nmany) (L := L) (P := P) (T0 := T0)
    (fun t (l : Nat) => (List.range n).foldlM (fun t (c : Nat) =>
        let rs := leadSz L (n + 1) n l c
        rs.1.foldlM (fun t sz => do
          let k := szToInd sz c n
          let k' := szToInd (sz + rs.2) (c + 1) n
          let row ← si.szRow c k
          let row' ← si.szRow (c + 1) k'
          if row = [] ∨ row' = [] then pure t
          else do
            let m ← Vecs.at2 (.sz v) c k
            let m' ← Vecs.at2 (.sz v) (c + 1) k'
            rotBlock T0 t l row row' m m') t) t)
    (fun l l' b a => ∃ c ∈ List.range n, ∃ x ∈ (leadSz L (n + 1) n l c).1, l' = l ∧
      (b ∈ szCell si (c, (szToInd x c n).toNat) ∧
          a ∈ szCell si (c + 1, (szToInd (x + leadSpin L l) (c + 1 : Nat) n).toNat) ∨
        b ∈ szCell si (c + 1, (szToInd (x + leadSpin L l) (c + 1 : Nat) n).toNat) ∧
          a ∈ szCell si (c, (szToInd x c n).toNat))) (List.range L) (by
    intro l hl t ht
    refine rotate_fold (N := si.nmany) (L := L) (P := P) (T0 := T0) _
      (fun c l' b a => ∃ x ∈ (leadSz L (n + 1) n l c).1, l' = l ∧
      (b ∈ szCell si (c, (szToInd x c n).toNat) ∧
          a ∈ szCell si (c + 1, (szToInd (x + leadSpin L l) (c + 1 : Nat) n).toNat) ∨
        b ∈ szCell si (c + 1, (szToInd (x + leadSpin L l) (c + 1 : Nat) n).toNat) ∧
          a ∈ szCell si (c, (szToInd x c n).toNat))) (List.range n) ?_ t ht
    intro c hc t ht
    refine rotate_fold (N := si.nmany) (L := L) (P := P) (T0 := T0) _
      (fun x l' b a => l' = l ∧
      (b ∈ szCell si (c, (szToInd x c n).toNat) ∧
          a ∈ szCell si (c + 1, (szToInd (x + leadSpin L l) (c + 1 : Nat) n).toNat) ∨
        b ∈ szCell si (c + 1, (szToInd (x + leadSpin L l) (c + 1 : Nat) n).toNat) ∧
          a ∈ szCell si (c, (szToInd x c n).toNat))) (leadSz L (n + 1) n l c).1 ?_ t ht
    intro x hx t ht
    have hc := List.mem_range.1 hc
    have hl := List.mem_range.1 hl
    obtain ⟨k, k', hk, hk', e1, e2⟩ := (leadSz_mem hn hc x).1 hx
    have i1 : szToInd x (c : Int) (n : Int) = (k : Nat) := by
      rw [e1]; exact szToInd_range n c k (by omega)
    have i2 : szToInd (x + leadSpin L l) ((c : Int) + 1) (n : Int) = (k' : Nat) := by
      rw [e2]; exact szToInd_range n (c + 1) k' (by omega)
    have i2' : szToInd (x + leadSpin L l) ((c + 1 : Nat) : Int) (n : Int) = (k' : Nat) := i2
    dsimp only
    rw [leadSz_snd, i1, i2, i2', Int.toNat_natCast, Int.toNat_natCast,
      (h.szCell_ok (.inl hix) (by omega : c ≤ n) hk).1,
      (h.szCell_ok (.inl hix) (by omega : c + 1 ≤ n) hk').1, (hv.at2 (by omega : c ≤ n) hk).1,
      (hv.at2 (by omega : c + 1 ≤ n) hk').1]
    simp only [py_bind_ok]
    by_cases h0 : szCell si (c, k) = [] ∨ szCell si (c + 1, k') = []
    · rw [if_pos h0]
      refine ⟨t, rfl, ht, fun l' b a => ⟨?_, fun _ => rfl⟩⟩
      rintro ⟨-, h12⟩
      rcases h0 with h0 | h0 <;> rw [h0] at h12 <;> simp at h12
    · rw [if_neg h0]
      push Not at h0
      obtain ⟨t', k1, k2, k3⟩ := rotBlock_ok hs hP hd hh ht hl (s := (c, k)) (s' := (c + 1, k'))
        (mem_szSectors.2 ⟨by dsimp only; omega, hk⟩) (mem_szSectors.2 ⟨hc, hk'⟩)
        (h.sz_contig (.inl hix) (by omega) hk) (h.sz_contig (.inl hix) (by omega) hk') h0.1 h0.2
      refine ⟨t', k1, k2, fun l' b a => ⟨fun hw => ?_, fun hw => ?_⟩⟩
      · rw [k3, if_pos hw, hw.1]
      · rw [k3, if_neg hw]) (Arr.zeros [L, si.nmany, si.nmany]) rfl
  have hiff : ∀ l b a, (∃ x ∈ List.range L, ∃ c ∈ List.range n, ∃ y ∈ (leadSz L (n + 1) n x c).1, l = x ∧
      (b ∈ szCell si (c, (szToInd y c n).toNat) ∧
          a ∈ szCell si (c + 1, (szToInd (y + leadSpin L x) (c + 1 : Nat) n).toNat) ∨
        b ∈ szCell si (c + 1, (szToInd (y + leadSpin L x) (c + 1 : Nat) n).toNat) ∧
          a ∈ szCell si (c, (szToInd y c n).toNat))) ↔ l < L ∧ SzWritten n L si l b a := by
    intro l b a
    constructor
    · rintro ⟨x, hx, c, hc, y, hy, rfl, hm⟩
      have hc := List.mem_range.1 hc
      obtain ⟨k, k', hk, hk', e1, e2⟩ := (leadSz_mem hn hc y).1 hy
      have i2' : szToInd (y + leadSpin L l) ((c + 1 : Nat) : Int) (n : Int) = (k' : Nat) := by
        rw [e2]; exact szToInd_range n (c + 1) k' (by omega)
      have i1 : szToInd y (c : Int) (n : Int) = (k : Nat) := by
        rw [e1]; exact szToInd_range n c k (by omega)
      rw [i1, i2', Int.toNat_natCast, Int.toNat_natCast] at hm
      exact ⟨List.mem_range.1 hx, c, k, k', hc, hk, hk', by rw [← e1, ← e2], hm⟩
    · rintro ⟨hl, c, k, k', hc, hk, hk', e, hm⟩
      refine ⟨l, List.mem_range.2 hl, c, List.mem_range.2 hc, -(szW n c : Int) + 2 * k,
        (leadSz_mem hn hc _).2 ⟨k, k', hk, hk', rfl, e⟩, rfl, ?_⟩
      rw [e, szToInd_range n c k (by omega), szToInd_range n (c + 1) k' (by omega),
        Int.toNat_natCast, Int.toNat_natCast]
      exact hm
  refine ⟨T, ?_, dT, ?_⟩
  · unfold rotateTba
    rw [Option.getD_none, hix]
    dsimp only
    rw [h.ncharge, h.nsingle, Nat.add_sub_cancel]
    exact eT
  · intro l b a
    rw [← hiff]
    exact vT l b a

/-- The states of a sector. -/
theorem SIInv.mem_szCell (h : SIInv n si) (hix : si.indexing = .sz ∨ si.indexing = .ssq) {c k : Nat}
    (hc : c ≤ n) (hk : k ≤ szW n c) (b : Nat) : b ∈ szCell si (c, k) ↔
      ∃ s, si.getState (b : Int) = .ok s ∧ s.sum = c ∧ twoSz n s = -(szW n c : Int) + 2 * k := by
  rw [(h.szCell_ok hix hc hk).2.2 b]
  have hn := (h.sz hix).1
  constructor
  · rintro ⟨hb, h1, h2⟩
    refine ⟨_, h.getState hb, h1, ?_⟩
    rw [take_up (h.ilt hb) hn, szPos_sz hn (h.ilt hb), h1, h2]
  · rintro ⟨s, h1, h2, h3⟩
    obtain ⟨hb, h4⟩ := h.state_charge h1
    rw [h.getState hb] at h1
    have h1 := Except.ok.inj h1
    refine ⟨hb, h4.trans h2, ?_⟩
    rw [← h1, take_up (h.ilt hb) hn, szPos_sz hn (h.ilt hb), h4, h2] at h3
    omega

/-- Lead `l` of `L` adds an electron with its spin to the state `s` and gives `s'`: the charge grows
by one and the spin projection (in units of 1/2) by the spin of the lead. -/
def AddsSpin (n L l : Nat) (s s' : List Nat) : Prop :=
  s'.sum = s.sum + 1 ∧ twoSz n s' = twoSz n s + leadSpin L l

theorem szWritten_iff (h : SIInv n si) (hix : si.indexing = .sz ∨ si.indexing = .ssq) {L l b a : Nat}
    {s' s : List Nat} (hs' : si.getState (b : Int) = .ok s') (hs : si.getState (a : Int) = .ok s) :
    SzWritten n L si l b a ↔ AddsSpin n L l s s' ∨ AddsSpin n L l s' s := by
  have hn := (h.sz hix).1
  constructor
  · rintro ⟨c, k, k', hc, hk, hk', e, ⟨m1, m2⟩ | ⟨m1, m2⟩⟩
    · obtain ⟨u, u1, u2, u3⟩ := (h.mem_szCell hix (by omega) hk b).1 m1
      obtain ⟨w, w1, w2, w3⟩ := (h.mem_szCell hix (by omega) hk' a).1 m2
      cases u1.symm.trans hs'
      cases w1.symm.trans hs
      exact .inr ⟨by omega, by rw [w3, u3, e]⟩
    · obtain ⟨u, u1, u2, u3⟩ := (h.mem_szCell hix (by omega) hk' b).1 m1
      obtain ⟨w, w1, w2, w3⟩ := (h.mem_szCell hix (by omega) hk a).1 m2
      cases u1.symm.trans hs'
      cases w1.symm.trans hs
      exact .inl ⟨by omega, by rw [w3, u3, e]⟩
  · have key : ∀ (b a : Nat) (s' s : List Nat), si.getState (b : Int) = .ok s' → si.getState (a : Int) = .ok s →
        AddsSpin n L l s s' → ∃ c k k', c < n ∧ k ≤ szW n c ∧ k' ≤ szW n (c + 1) ∧
          -(szW n c : Int) + 2 * k + leadSpin L l = -(szW n (c + 1) : Int) + 2 * k' ∧
          b ∈ szCell si (c + 1, k') ∧ a ∈ szCell si (c, k) := by
      rintro b a s' s hs' hs ⟨e1, e2⟩
      obtain ⟨hb, i1⟩ := h.state_charge hs'
      obtain ⟨ha, i2⟩ := h.state_charge hs
      have p1 := szPos_lt hn (h.ilt hb)
      have p2 := szPos_lt hn (h.ilt ha)
      have p3 := charge_le (h.ilt hb)
      have q1 : twoSz n s' = -(szW n s'.sum : Int) + 2 * szPos n si.i[b] := by
        rw [h.getState hb] at hs'
        rw [← i1, ← Except.ok.inj hs', take_up (h.ilt hb) hn, szPos_sz hn (h.ilt hb)]
      have q2 : twoSz n s = -(szW n s.sum : Int) + 2 * szPos n si.i[a] := by
        rw [h.getState ha] at hs
        rw [← i2, ← Except.ok.inj hs, take_up (h.ilt ha) hn, szPos_sz hn (h.ilt ha)]
      rw [i1] at p1 p3
      rw [i2] at p2
      rw [e1] at p1 p3 q1
      refine ⟨s.sum, szPos n si.i[a], szPos n si.i[b], by omega, by omega, by omega, by omega, ?_, ?_⟩
      · exact (h.mem_szCell hix (by omega) (by omega) b).2 ⟨s', hs', e1, q1⟩
      · exact (h.mem_szCell hix (by omega) (by omega) a).2 ⟨s, hs, rfl, q2⟩
    rintro (h1 | h1)
    · obtain ⟨c, k, k', r1, r2, r3, r4, r5, r6⟩ := key b a s' s hs' hs h1
      exact ⟨c, k, k', r1, r2, r3, r4, .inr ⟨r5, r6⟩⟩
    · obtain ⟨c, k, k', r1, r2, r3, r4, r5, r6⟩ := key a b s s' hs hs' h1
      exact ⟨c, k, k', r1, r2, r3, r4, .inl ⟨r6, r5⟩⟩

/-- C52: the rotation for indexing by spin projection, after any removals. If every lead couples only
states that differ by one electron with the spin of the lead, the result is `P† T0 P` and
Hermitian. -/
theorem c52_sz (hr : ReachedSI n si) (hix : si.indexing = .sz) {L : Nat} {T0 : Arr}
    (hd : T0.dims = [L, si.nmany, si.nmany]) (hh : Herm L si.nmany T0)
    (hq : ∀ l b a, l < L → b < si.nmany → a < si.nmany → T0.val [l, b, a] ≠ 0 →
      ∀ s' s, si.getState (b : Int) = .ok s' → si.getState (a : Int) = .ok s →
        AddsSpin n L l s s' ∨ AddsSpin n L l s' s)
    (hv : SzVecs n si v) :
    ∃ P T, constructFullPmtr si (.sz v) = .ok P ∧
      BlockDiag si.nmany (szSectors n) (szCell si) (szVec v) P ∧
      rotateTba si L T0 (.sz v) none = .ok T ∧ Rotated L si.nmany P T0 T ∧ Herm L si.nmany T := by
  have h := hr.inv
  obtain ⟨P, eP, hP⟩ := pmtr_sz h hix hv
  obtain ⟨T, eT, dT, vT⟩ := rotate_sz_val h hix hd hh hv hP
  have hrot : Rotated L si.nmany P T0 T := by
    refine rotated_of_written hP _ dT vT ?_
    rintro l b a b' a' hl hb' ha' hne ⟨⟨c, k⟩, hck, m1, m2⟩ ⟨⟨c', k'⟩, hck', m3, m4⟩
    obtain ⟨hc, hk⟩ := mem_szSectors.1 hck
    obtain ⟨hc', hk'⟩ := mem_szSectors.1 hck'
    dsimp only at hc hk hc' hk'
    obtain ⟨s1, g1, g2, g3⟩ := (h.mem_szCell (.inl hix) hc hk b').1 m1
    obtain ⟨s2, g4, g5, g6⟩ := (h.mem_szCell (.inl hix) hc hk b).1 m2
    obtain ⟨s3, g7, g8, g9⟩ := (h.mem_szCell (.inl hix) hc' hk' a').1 m3
    obtain ⟨s4, f1, f2, f3⟩ := (h.mem_szCell (.inl hix) hc' hk' a).1 m4
    refine ⟨hl, (szWritten_iff h (.inl hix) g4 f1).2 ?_⟩
    rcases hq l b' a' hl hb' ha' hne _ _ g1 g7 with ⟨r1, r2⟩ | ⟨r1, r2⟩
    · exact .inl ⟨by omega, by omega⟩
    · exact .inr ⟨by omega, by omega⟩
  refine ⟨P, T, eP, hP, eT, hrot, ?_⟩
  intro l b a hl hb ha
  rw [hrot.2 l b a hl hb ha, hrot.2 l a b hl ha hb, rotated_herm hh hl]

/-- Without that condition: amplitudes between states that do not differ by one electron with the
spin of the lead are dropped, whatever their value is. -/
theorem c52_sz_drops (hr : ReachedSI n si) (hix : si.indexing = .sz) {L : Nat} {T0 : Arr}
    (hd : T0.dims = [L, si.nmany, si.nmany]) (hh : Herm L si.nmany T0) (hv : SzVecs n si v) :
    ∃ T, rotateTba si L T0 (.sz v) none = .ok T ∧
      ∀ (l b a : Nat) (s' s : List Nat), si.getState (b : Int) = .ok s' → si.getState (a : Int) = .ok s →
        ¬ AddsSpin n L l s s' → ¬ AddsSpin n L l s' s → T.val [l, b, a] = 0 := by
  have h := hr.inv
  obtain ⟨P, eP, hP⟩ := pmtr_sz h hix hv
  obtain ⟨T, eT, dT, vT⟩ := rotate_sz_val h hix hd hh hv hP
  refine ⟨T, eT, ?_⟩
  intro l b a s' s hs' hs h1 h2
  refine (vT l b a).2 ?_
  rintro ⟨-, hw⟩
  rcases (szWritten_iff h (.inl hix) hs' hs).1 hw with hw | hw
  · exact h1 hw
  · exact h2 hw

end

/-! Phonon couplings. -/

/-- C53 for 'charge' indexing: the blockwise rotation of the phonon couplings is `P† V0 P` whenever
the couplings conserve the charge. The couplings need not be Hermitian. -/
theorem c53_charge {n : Nat} {si : SI} (hr : ReachedSI n si) (hix : si.indexing = .charge) {L : Nat}
    {T0 : Arr} (hd : T0.dims = [L, si.nmany, si.nmany])
    (hq : ∀ l b a, l < L → b < si.nmany → a < si.nmany → T0.val [l, b, a] ≠ 0 →
      ∀ s' s, si.getState (b : Int) = .ok s' → si.getState (a : Int) = .ok s → s'.sum = s.sum)
    {v : List Arr}
    (hv : ∀ c ≤ n, ∃ m, v[c]? = some m ∧ m.dims = [(chargeRow si c).length, (chargeRow si c).length]) :
    ∃ P T, constructFullPmtr si (.charge v) = .ok P ∧
      BlockDiag si.nmany (List.range (n + 1)) (chargeRow si) (fun c => v.getD c (Arr.zeros [])) P ∧
      rotateVbbp si L T0 (.charge v) none = .ok T ∧ Rotated L si.nmany P T0 T := by
  have h := hr.inv
  obtain ⟨P, eP, hP⟩ := pmtr_charge h (.inr hix) hv
  have hs := h.charge_sectors (vec := fun c => v.getD c (Arr.zeros [])) (by
    intro c hc
    obtain ⟨m, h1, h2⟩ := hv c hc
    rw [List.getD_eq_getElem?_getD, h1]
    exact h2)
  obtain ⟨T, eT, dT, vT⟩ := rotate_fold (N := si.nmany) (L := L) (P := P) (T0 := T0)
    (fun t (l : Nat) => (List.range (n + 1)).foldlM (fun t (c : Nat) => do
        let row ← pyGet si.chargelst c
        if row = [] then pure t
        else do
          let m ← Vecs.at1 (.charge v) c
          rotDiag T0 t l row m) t)
    (fun l l' b a => ∃ c ∈ List.range (n + 1), l' = l ∧ b ∈ chargeRow si c ∧ a ∈ chargeRow si c)
    (List.range L) (by
    intro l hl t ht
    refine rotate_fold (N := si.nmany) (L := L) (P := P) (T0 := T0) _
      (fun c l' b a => l' = l ∧ b ∈ chargeRow si c ∧ a ∈ chargeRow si c) (List.range (n + 1)) ?_ t ht
    intro c hcm t ht
    have hc := List.mem_range.1 hcm
    have hl := List.mem_range.1 hl
    rw [(h.chargeRow_ok (by omega : c ≤ n)).1]
    simp only [py_bind_ok]
    by_cases h0 : chargeRow si c = []
    · rw [if_pos h0]
      refine ⟨t, rfl, ht, fun l' b a => ⟨?_, fun _ => rfl⟩⟩
      rintro ⟨-, h12⟩
      rw [h0] at h12
      simp at h12
    · rw [if_neg h0]
      obtain ⟨m, h1, -⟩ := hv c (by omega)
      rw [at1_ok h1]
      simp only [py_bind_ok]
      obtain ⟨t', k1, k2, k3⟩ := rotDiag_ok hs hP hd ht hl (s := c) hcm
        (h.charge_contig hix (by omega)) h0
      refine ⟨t', k1, k2, fun l' b a => ⟨fun hw => ?_, fun hw => ?_⟩⟩
      · rw [k3, if_pos hw, hw.1]
      · rw [k3, if_neg hw]) (Arr.zeros [L, si.nmany, si.nmany]) rfl
  have hrot : Rotated L si.nmany P T0 T := by
    refine rotated_of_written hP _ dT vT ?_
    rintro l b a b' a' hl hb' ha' hne ⟨c, hc, m1, m2⟩ ⟨c', hc', m3, m4⟩
    have hc1 := List.mem_range.1 hc
    have hc2 := List.mem_range.1 hc'
    obtain ⟨i1, j1⟩ := ((h.chargeRow_ok (by omega)).2.2 b').1 m1
    obtain ⟨i2, j2⟩ := ((h.chargeRow_ok (by omega)).2.2 a').1 m3
    have := hq l b' a' hl hb' ha' hne _ _ (h.getState i1) (h.getState i2)
    change charge n si.i[b'] = charge n si.i[a'] at this
    rw [j1, j2] at this
    subst this
    exact ⟨l, List.mem_range.2 hl, c, hc, rfl, m2, m4⟩
  refine ⟨P, T, eP, hP, ?_, hrot⟩
  unfold rotateVbbp
  rw [Option.getD_none, hix]
  dsimp only
  rw [h.ncharge]
  exact eT

/-- C53 for indexing by spin projection, for couplings that conserve the charge and the spin
projection. -/
theorem c53_sz {n : Nat} {si : SI} (hr : ReachedSI n si) (hix : si.indexing = .sz) {L : Nat}
    {T0 : Arr} (hd : T0.dims = [L, si.nmany, si.nmany])
    (hq : ∀ l b a, l < L → b < si.nmany → a < si.nmany → T0.val [l, b, a] ≠ 0 →
      ∀ s' s, si.getState (b : Int) = .ok s' → si.getState (a : Int) = .ok s →
        s'.sum = s.sum ∧ twoSz n s' = twoSz n s)
    {v : List (List Arr)} (hv : SzVecs n si v) :
    ∃ P T, constructFullPmtr si (.sz v) = .ok P ∧
      BlockDiag si.nmany (szSectors n) (szCell si) (szVec v) P ∧
      rotateVbbp si L T0 (.sz v) none = .ok T ∧ Rotated L si.nmany P T0 T := by
  have h := hr.inv
  obtain ⟨P, eP, hP⟩ := pmtr_sz h hix hv
  have hs := h.sz_sectors (vec := szVec v) (.inl hix) fun c k hc hk => (hv.at2 hc hk).2
  obtain ⟨T, eT, dT, vT⟩ := rotate_fold (N := si.nmany) (L := L) (P := P) (T0 := T0)
    (fun t (l : Nat) => (szSectors n).foldlM (fun t (s : Nat × Nat) => do
        let row ← si.szRow s.1 (szToInd (-(szW n s.1 : Int) + 2 * s.2) s.1 n)
        if row = [] then pure t
        else do
          let m ← Vecs.at2 (.sz v) s.1 (szToInd (-(szW n s.1 : Int) + 2 * s.2) s.1 n)
          rotDiag T0 t l row m) t)
    (fun l l' b a => ∃ s ∈ szSectors n, l' = l ∧ b ∈ szCell si s ∧ a ∈ szCell si s)
    (List.range L) (by
    intro l hl t ht
    refine rotate_fold (N := si.nmany) (L := L) (P := P) (T0 := T0) _
      (fun s l' b a => l' = l ∧ b ∈ szCell si s ∧ a ∈ szCell si s) (szSectors n) ?_ t ht
    rintro ⟨c, k⟩ hck t ht
    obtain ⟨hc, hk⟩ := mem_szSectors.1 hck
    have hl := List.mem_range.1 hl
    dsimp only at hc hk ⊢
    rw [szToInd_range n c k hc, (h.szCell_ok (.inl hix) hc hk).1, (hv.at2 hc hk).1]
    simp only [py_bind_ok]
    by_cases h0 : szCell si (c, k) = []
    · rw [if_pos h0]
      refine ⟨t, rfl, ht, fun l' b a => ⟨?_, fun _ => rfl⟩⟩
      rintro ⟨-, h12⟩
      rw [h0] at h12
      simp at h12
    · rw [if_neg h0]
      obtain ⟨t', k1, k2, k3⟩ := rotDiag_ok hs hP hd ht hl (s := (c, k)) hck
        (h.sz_contig (.inl hix) hc hk) h0
      refine ⟨t', k1, k2, fun l' b a => ⟨fun hw => ?_, fun hw => ?_⟩⟩
      · rw [k3, if_pos hw, hw.1]
      · rw [k3, if_neg hw]) (Arr.zeros [L, si.nmany, si.nmany]) rfl
  have hrot : Rotated L si.nmany P T0 T := by
    refine rotated_of_written hP _ dT vT ?_
    rintro l b a b' a' hl hb' ha' hne ⟨⟨c, k⟩, hck, m1, m2⟩ ⟨⟨c', k'⟩, hck', m3, m4⟩
    obtain ⟨hc, hk⟩ := mem_szSectors.1 hck
    obtain ⟨hc', hk'⟩ := mem_szSectors.1 hck'
    dsimp only at hc hk hc' hk'
    obtain ⟨s1, g1, g2, g3⟩ := (h.mem_szCell (.inl hix) hc hk b').1 m1
    obtain ⟨s3, g7, g8, g9⟩ := (h.mem_szCell (.inl hix) hc' hk' a').1 m3
    obtain ⟨r1, r2⟩ := hq l b' a' hl hb' ha' hne _ _ g1 g7
    have e1 : c = c' := by omega
    subst e1
    have e2 : k = k' := by omega
    subst e2
    exact ⟨l, List.mem_range.2 hl, (c, k), hck, rfl, m2, m4⟩
  refine ⟨P, T, eP, hP, ?_, hrot⟩
  unfold rotateVbbp
  rw [Option.getD_none, hix]
  dsimp only
  rw [h.ncharge, h.nsingle]
  refine Eq.trans ?_ eT
  refine foldlM_congr ?_
  intro q l _
  exact foldlM_sz n (fun p c sz => do
        let row ← si.szRow c (szToInd sz c n)
        if row = [] then pure p
        else do
          let m ← Vecs.at2 (.sz v) c (szToInd sz c n)
          rotDiag T0 p l row m) q

/-! ### Concrete cases and the counterexample -/

/-- The unit matrix. -/
noncomputable def Arr.eye (m : Nat) : Arr := Arr.ofMat m m fun i j => if i = j then 1 else 0

/-- Unit matrices for all charges. -/
theorem eye_charge (n : Nat) (si : SI) : ∀ c ≤ n, ∃ m,
    ((List.range (n + 1)).map fun c => Arr.eye (chargeRow si c).length)[c]? = some m ∧
      m.dims = [(chargeRow si c).length, (chargeRow si c).length] := by
  intro c hc
  refine ⟨Arr.eye (chargeRow si c).length, ?_, Arr.ofMat_dims _ _ _⟩
  rw [List.getElem?_map, List.getElem?_range (by omega)]
  rfl

/-- Unit matrices for all sectors. -/
noncomputable def eyeSz (n : Nat) (si : SI) : List (List Arr) :=
  (List.range (n + 1)).map fun c => (List.range (min c (n - c) + 1)).map fun k =>
    Arr.eye (szCell si (c, k)).length

theorem eye_sz (n : Nat) (si : SI) : SzVecs n si (eyeSz n si) := by
  intro c k hc hk
  refine ⟨(List.range (min c (n - c) + 1)).map fun k => Arr.eye (szCell si (c, k)).length,
    Arr.eye (szCell si (c, k)).length, ?_, ?_, Arr.ofMat_dims _ _ _⟩
  · unfold eyeSz
    rw [List.getElem?_map, List.getElem?_range (by omega)]
    rfl
  · rw [List.getElem?_map, List.getElem?_range (by omega)]
    rfl

theorem eyeSz_vec {n : Nat} (si : SI) {c k : Nat} (hc : c ≤ n) (hk : k ≤ szW n c) :
    szVec (eyeSz n si) (c, k) = Arr.eye (szCell si (c, k)).length := by
  have hr : (eyeSz n si)[c]? = some ((List.range (min c (n - c) + 1)).map fun k =>
      Arr.eye (szCell si (c, k)).length) := by
    unfold eyeSz
    rw [List.getElem?_map, List.getElem?_range (by omega)]
    rfl
  have hm : ((List.range (min c (n - c) + 1)).map fun k => Arr.eye (szCell si (c, k)).length)[k]?
      = some (Arr.eye (szCell si (c, k)).length) := by
    rw [List.getElem?_map, List.getElem?_range (by unfold szW at hk; omega)]
    rfl
  unfold szVec
  rw [(getElem?_pyGet hr).2, (getElem?_pyGet hm).2]

/-- With unit matrices nothing is rotated. -/
theorem rotated_eye {n : Nat} {si : SI} (h : SIInv n si) (hix : si.indexing = .sz) {P : Arr}
    (hP : BlockDiag si.nmany (szSectors n) (szCell si) (szVec (eyeSz n si)) P) (T0 : Arr) (l b a : Nat)
    (hb : b < si.nmany) (ha : a < si.nmany) : rotated si.nmany P T0 l b a = T0.val [l, b, a] := by
  have hs := h.sz_sectors (vec := szVec (eyeSz n si)) (.inl hix)
    fun c k hc hk => ((eye_sz n si).at2 hc hk).2
  have hdelta : ∀ x y, x < si.nmany → P.val [x, y] = if x = y then 1 else 0 := by
    intro x y hx
    by_cases hxy : ∃ s ∈ szSectors n, x ∈ szCell si s ∧ y ∈ szCell si s
    · obtain ⟨⟨c, k⟩, hck, m1, m2⟩ := hxy
      obtain ⟨hc, hk⟩ := mem_szSectors.1 hck
      obtain ⟨i, hi, rfl⟩ := List.getElem_of_mem m1
      obtain ⟨j, hj, rfl⟩ := List.getElem_of_mem m2
      rw [hP.inside _ hck i j hi hj, eyeSz_vec si hc hk]
      show (if i = j then (1 : ℂ) else 0) = _
      by_cases hij : i = j
      · subst hij
        rw [if_pos rfl, if_pos rfl]
      · rw [if_neg hij, if_neg]
        intro he
        exact hij ((hs.rows _ hck).getElem_inj_iff.1 he)
    · rw [hP.outside x y hxy, if_neg]
      rintro rfl
      obtain ⟨s, h1, h2⟩ := hs.cover x hx
      exact hxy ⟨s, h1, h2, h2⟩
  unfold rotated
  rw [Finset.sum_eq_single b]
  · rw [Finset.sum_eq_single a]
    · rw [hdelta b b hb, hdelta a a ha]
      simp
    · intro a' ha' hne
      rw [hdelta a' a (Finset.mem_range.1 ha'), if_neg hne, mul_zero]
    · intro hna
      exact absurd (Finset.mem_range.2 ha) hna
  · intro b' hb' hne
    refine Finset.sum_eq_zero fun a' _ => ?_
    rw [hdelta b' b (Finset.mem_range.1 hb'), if_neg hne, map_zero, zero_mul, zero_mul]
  · intro hnb
    exact absurd (Finset.mem_range.2 hb) hnb

/-- Two orbitals with spin: the states 0, 1, 2 are empty, spin down and spin up. -/
theorem two_orbitals_sz : ∃ si, ReachedSI 2 si ∧ si.indexing = .sz ∧ si.nmany = 4 ∧
    si.getState ((0 : Nat) : Int) = .ok [0, 0] ∧ si.getState ((1 : Nat) : Int) = .ok [0, 1] ∧
    si.getState ((2 : Nat) : Int) = .ok [1, 0] ∧ si.getState ((3 : Nat) : Int) = .ok [1, 1] := by
  have h1 : (SI.init 2 "sz" >>= fun si => do
      let s0 ← si.getState ((0 : Nat) : Int)
      let s1 ← si.getState ((1 : Nat) : Int)
      let s2 ← si.getState ((2 : Nat) : Int)
      let s3 ← si.getState ((3 : Nat) : Int)
      pure (s0, s1, s2, s3)) = .ok ([0, 0], [0, 1], [1, 0], [1, 1]) := by decide +kernel
  have h2 : (SI.init 2 "sz" >>= fun si => pure (si.indexing, si.nmany)) = .ok (.sz, 4) := by
    decide +kernel
  obtain ⟨si, hsi, h1⟩ := bind_iff.1 h1
  rw [hsi] at h2
  obtain ⟨s0, e0, h1⟩ := bind_iff.1 h1
  obtain ⟨s1, e1, h1⟩ := bind_iff.1 h1
  obtain ⟨s2, e2, h1⟩ := bind_iff.1 h1
  obtain ⟨s3, e3, h1⟩ := bind_iff.1 h1
  have h5 := Except.ok.inj h1
  have h6 := Except.ok.inj h2
  simp only [Prod.mk.injEq] at h5 h6
  obtain ⟨a5, a6, a7, a8⟩ := h5
  subst a5 a6 a7 a8
  refine ⟨si, ⟨"sz", [], ?_, by simp, .inr (.inr (.inr rfl))⟩, h6.1, h6.2, e0, e1, e2, e3⟩
  unfold SI.run
  rw [hsi]
  rfl

/-- The amplitude of lead 0 between two states, 1. -/
noncomputable def twoStates (x y : Nat) : Arr :=
  ⟨[2, 4, 4], fun ix => if ix = [0, x, y] ∨ ix = [0, y, x] then 1 else 0⟩

theorem twoStates_herm (x y : Nat) : Herm 2 4 (twoStates x y) := by
  intro l b a _ _ _
  have : (([l, a, b] : List Nat) = [0, x, y] ∨ ([l, a, b] : List Nat) = [0, y, x]) ↔
      (([l, b, a] : List Nat) = [0, x, y] ∨ ([l, b, a] : List Nat) = [0, y, x]) := by
    simp only [List.cons.injEq, and_true]
    tauto
  unfold twoStates
  dsimp only
  by_cases h : ([l, b, a] : List Nat) = [0, x, y] ∨ ([l, b, a] : List Nat) = [0, y, x]
  · rw [if_pos h, if_pos (this.2 h), map_one]
  · rw [if_neg h, if_neg (fun h' => h (this.1 h')), map_zero]

/-- Indexing by spin projection silently changes tunnelling that does not conserve the spin: lead 0
(spin up) couples the empty state and the spin-down state, and although the eigenvectors are unit
vectors the rotated amplitudes are not `P† T0 P`. -/
theorem c52_sz_spin_flip_lost : ∃ si T0 v P T, ReachedSI 2 si ∧ si.indexing = .sz ∧
    T0.dims = [2, si.nmany, si.nmany] ∧ Herm 2 si.nmany T0 ∧ SzVecs 2 si v ∧
    constructFullPmtr si (.sz v) = .ok P ∧ rotateTba si 2 T0 (.sz v) none = .ok T ∧
    rotated si.nmany P T0 0 1 0 = 1 ∧ T.val [0, 1, 0] = 0 := by
  obtain ⟨si, hr, hix, hN, g0, g1, g2, g3⟩ := two_orbitals_sz
  have hd : (twoStates 1 0).dims = [2, si.nmany, si.nmany] := by rw [hN]; rfl
  have hh : Herm 2 si.nmany (twoStates 1 0) := by rw [hN]; exact twoStates_herm 1 0
  obtain ⟨P, eP, hP⟩ := pmtr_sz hr.inv hix (eye_sz 2 si)
  obtain ⟨T, eT, hT⟩ := c52_sz_drops hr hix hd hh (eye_sz 2 si)
  refine ⟨si, twoStates 1 0, eyeSz 2 si, P, T, hr, hix, hd, hh, eye_sz 2 si, eP, eT, ?_, ?_⟩
  · rw [rotated_eye hr.inv hix hP _ _ _ _ (by omega) (by omega)]
    simp [twoStates]
  · refine hT 0 1 0 _ _ g1 g0 ?_ ?_
    · unfold AddsSpin
      decide
    · unfold AddsSpin
      decide

/-- A case of `c52_sz` (and of `c52_sz_drops`): lead 0 couples the empty and the spin-up state. -/
example : ∃ (si : SI) (T0 : Arr) (v : List (List Arr)), ReachedSI 2 si ∧ si.indexing = .sz ∧
    T0.dims = [2, si.nmany, si.nmany] ∧ Herm 2 si.nmany T0 ∧ T0.val [0, 2, 0] = 1 ∧
    (∀ l b a, l < 2 → b < si.nmany → a < si.nmany → T0.val [l, b, a] ≠ 0 →
      ∀ s' s, si.getState (b : Int) = .ok s' → si.getState (a : Int) = .ok s →
        AddsSpin 2 2 l s s' ∨ AddsSpin 2 2 l s' s) ∧ SzVecs 2 si v := by
  obtain ⟨si, hr, hix, hN, g0, g1, g2, g3⟩ := two_orbitals_sz
  refine ⟨si, twoStates 2 0, _, hr, hix, by rw [hN]; rfl, by rw [hN]; exact twoStates_herm 2 0,
    by simp [twoStates], ?_, eye_sz 2 si⟩
  intro l b a _ _ _ hne s' s hs' hs
  have h : ([l, b, a] : List Nat) = [0, 2, 0] ∨ ([l, b, a] : List Nat) = [0, 0, 2] := by
    by_contra h
    exact hne (if_neg h)
  simp only [List.cons.injEq, and_true] at h
  rcases h with ⟨rfl, rfl, rfl⟩ | ⟨rfl, rfl, rfl⟩
  · cases hs'.symm.trans g2
    cases hs.symm.trans g0
    exact .inl (by unfold AddsSpin; decide)
  · cases hs'.symm.trans g0
    cases hs.symm.trans g2
    exact .inr (by unfold AddsSpin; decide)

/-- A case of `c53_sz`: a bath that couples the spin-up state to itself. -/
example : ∃ (si : SI) (T0 : Arr) (v : List (List Arr)), ReachedSI 2 si ∧ si.indexing = .sz ∧
    T0.dims = [2, si.nmany, si.nmany] ∧ T0.val [0, 2, 2] = 1 ∧
    (∀ l b a, l < 2 → b < si.nmany → a < si.nmany → T0.val [l, b, a] ≠ 0 →
      ∀ s' s, si.getState (b : Int) = .ok s' → si.getState (a : Int) = .ok s →
        s'.sum = s.sum ∧ twoSz 2 s' = twoSz 2 s) ∧ SzVecs 2 si v := by
  obtain ⟨si, hr, hix, hN, g0, g1, g2, g3⟩ := two_orbitals_sz
  refine ⟨si, twoStates 2 2, _, hr, hix, by rw [hN]; rfl, by simp [twoStates], ?_, eye_sz 2 si⟩
  intro l b a _ _ _ hne s' s hs' hs
  have h : ([l, b, a] : List Nat) = [0, 2, 2] ∨ ([l, b, a] : List Nat) = [0, 2, 2] := by
    by_contra h
    exact hne (if_neg h)
  simp only [List.cons.injEq, and_true, or_self] at h
  obtain ⟨rfl, rfl, rfl⟩ := h
  cases hs'.symm.trans hs
  exact ⟨rfl, rfl⟩

/-- Cases of `c16_charge`, `c16_agree`, `c16_tba`, `c53_charge` (with removed states) and `c16_lin`. -/
example : (∃ (si : SI) (v : List Arr), ReachedSI 3 si ∧ Consistent 3 si ∧
      (∀ c ≤ 3, ∃ m : Arr, v[c]? = some m ∧ m.dims = [(chargeRow si c).length, (chargeRow si c).length]) ∧
      SI.run 3 "charge" [[1, -1], [2]] = .ok si) ∧
    ∃ (si : SI) (v : List Arr), ReachedSI 3 si ∧ SI.run 3 "Lin" [[1, -1]] = .ok si ∧
      ∀ c ≤ 3, ∃ m : Arr, v[c]? = some m ∧ m.dims = [(chargeRow si c).length, (chargeRow si c).length] := by
  constructor
  · obtain ⟨si, h1, h2⟩ := run_consistent 3 (by decide) "charge" [[1, -1], [2]] (by decide) (Or.inl rfl)
    exact ⟨si, _, ⟨_, _, h1, by decide, .inl rfl⟩, h2, eye_charge 3 si, h1⟩
  · have h : ∃ si, SI.run 3 "Lin" [[1, -1]] = .ok si := by
      have h1 : (SI.run 3 "Lin" [[1, -1]] >>= fun si => pure si.nmany) = .ok 6 := by decide +kernel
      obtain ⟨si, hsi, -⟩ := bind_iff.1 h1
      exact ⟨si, hsi⟩
    obtain ⟨si, h1⟩ := h
    exact ⟨si, _, ⟨_, _, h1, by decide, .inr (.inr (.inl ⟨by decide, by decide⟩))⟩, h1, eye_charge 3 si⟩

end Verif
