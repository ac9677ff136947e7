import Verif.Spec.Rotate
import Verif.Lemmas.Params
import Verif.Lemmas.SIInv
import Verif.Lemmas.DMDict

/-! Lemmas on the change to the eigenbasis. -/

namespace Verif

open Verif.Spec

theorem Arr.ofMat_mat (r c : Nat) (f : Nat → Nat → ℂ) (i j : Nat) : (Arr.ofMat r c f).mat i j = f i j := rfl

theorem Arr.ofMat_dims (r c : Nat) (f : Nat → Nat → ℂ) : (Arr.ofMat r c f).dims = [r, c] := rfl

theorem Arr.shape2_ok {a : Arr} {r c : Nat} (h : a.dims = [r, c]) : a.shape2 = .ok (r, c) := by
  unfold Arr.shape2
  rw [h]

theorem matDot_ok {a b : Arr} {r k c : Nat} (ha : a.dims = [r, k]) (hb : b.dims = [k, c]) :
    matDot a b = .ok (Arr.ofMat r c fun i j => ∑ x ∈ Finset.range k, a.mat i x * b.mat x j) := by
  unfold matDot
  rw [Arr.shape2_ok ha, Arr.shape2_ok hb]
  simp [py_bind_ok]

theorem conjT_ok {a : Arr} {r c : Nat} (ha : a.dims = [r, c]) :
    conjT a = .ok (Arr.ofMat c r fun i j => starRingEnd ℂ (a.mat j i)) := by
  unfold conjT
  rw [Arr.shape2_ok ha]
  rfl

theorem sliceLen_eq {n i j : Nat} (hij : i ≤ j) (hj : j ≤ n) : sliceLen n i j = j - i := by
  unfold sliceLen
  omega

/-! ### Filling blocks -/

/-- `p'` is `p` with the block of the rows and columns `rows` set to `v`. -/
def Filled (rows : List Nat) (v p p' : Arr) : Prop :=
  p'.dims = p.dims ∧
  (∀ (i j : Nat) (hi : i < rows.length) (hj : j < rows.length), p'.mat rows[i] rows[j] = v.mat i j) ∧
  ∀ b a, ¬ (b ∈ rows ∧ a ∈ rows) → p'.mat b a = p.mat b a

theorem fillBlock_ok {N : Nat} {rows cols : List Nat} {v p : Arr} (hr : rows.Nodup) (hc : cols.Nodup)
    (hrl : ∀ b ∈ rows, b < N) (hcl : ∀ b ∈ cols, b < N) (hv : v.dims = [rows.length, cols.length])
    (hp : p.dims = [N, N]) :
    ∃ p', fillBlock rows cols v p = .ok p' ∧ p'.dims = [N, N] ∧
      (∀ (i j : Nat) (hi : i < rows.length) (hj : j < cols.length),
        p'.mat rows[i] cols[j] = v.mat i j) ∧
      ∀ b a, ¬ (b ∈ rows ∧ a ∈ cols) → p'.mat b a = p.mat b a := by
  unfold fillBlock
  have key := foldlM_range_inv
    (f := fun p (j1 : Nat) => (List.range cols.length).foldlM (fun p (j2 : Nat) => do
      let x ← pyGet rows j1
      let y ← pyGet cols j2
      let u ← v.get [j1, j2]
      p.put [x, y] u) p)
    (fun t q => q.dims = [N, N] ∧
      (∀ (i j : Nat) (_ : i < t) (hi : i < rows.length) (hj : j < cols.length),
        q.mat rows[i] cols[j] = v.mat i j) ∧
      ∀ b a, ¬ (b ∈ rows ∧ a ∈ cols) → q.mat b a = p.mat b a) rows.length p
    ⟨hp, fun i j h => absurd h (by omega), fun _ _ _ => rfl⟩ ?_
  · obtain ⟨p', e, h1, h2, h3⟩ := key
    exact ⟨p', e, h1, fun i j hi hj => h2 i j hi hi hj, h3⟩
  intro t ht q ⟨q1, q2, q3⟩
  have key := foldlM_range_inv
    (f := fun p (j2 : Nat) => do
      let x ← pyGet rows t
      let y ← pyGet cols j2
      let u ← v.get [t, j2]
      p.put [x, y] u)
    (fun t' q => q.dims = [N, N] ∧
      (∀ (i j : Nat) (_ : i < t) (hi : i < rows.length) (hj : j < cols.length),
        q.mat rows[i] cols[j] = v.mat i j) ∧
      (∀ (j : Nat) (_ : j < t') (hj : j < cols.length), q.mat rows[t] cols[j] = v.mat t j) ∧
      ∀ b a, ¬ (b ∈ rows ∧ a ∈ cols) → q.mat b a = p.mat b a) cols.length q
    ⟨q1, q2, fun j h => absurd h (by omega), q3⟩ ?_
  · obtain ⟨q', e, h1, h2, h3, h4⟩ := key
    refine ⟨q', e, h1, ?_, h4⟩
    intro i j hi hi' hj
    rcases Nat.lt_or_eq_of_le (Nat.lt_succ_iff.1 hi) with h | h
    · exact h2 i j h hi' hj
    · subst h; exact h3 j hj hj
  intro t' ht' q ⟨q1, q2, q3, q4⟩
  have hput : ∀ (u : ℂ), q.put [rows[t], cols[t']] u = .ok { q with val := Function.update q.val [rows[t], cols[t']] u } := by
    intro u
    unfold Arr.put
    rw [if_pos]
    rw [q1]
    exact forall2_pair (hrl _ (List.getElem_mem _)) (hcl _ (List.getElem_mem _))
  have hget : v.get [t, t'] = .ok (v.mat t t') := by
    unfold Arr.get
    rw [if_pos (by rw [hv]; exact .cons ht (.cons ht' .nil))]
    rfl
  have hval : ∀ b a, Arr.mat { q with val := Function.update q.val [rows[t], cols[t']] (v.mat t t') } b a
      = if b = rows[t] ∧ a = cols[t'] then v.mat t t' else q.mat b a := by
    intro b a
    unfold Arr.mat
    by_cases h : b = rows[t] ∧ a = cols[t']
    · rw [if_pos h, h.1, h.2]; simp
    · rw [if_neg h]
      exact Function.update_of_ne (by simpa using h) _ _
  refine ⟨{ q with val := Function.update q.val [rows[t], cols[t']] (v.mat t t') }, ?_, q1, ?_, ?_, ?_⟩
  · simp only [pyGet_nat _ ht, pyGet_nat _ ht', hget, py_bind_ok, hput]
  · intro i j hi hi' hj
    rw [hval, if_neg, q2 i j hi hi' hj]
    rintro ⟨h, -⟩
    have := (List.Nodup.getElem_inj_iff hr).1 h
    omega
  · intro j hj hj'
    rw [hval]
    rcases Nat.lt_or_eq_of_le (Nat.lt_succ_iff.1 hj) with h | h
    · rw [if_neg, q3 j h hj']
      rintro ⟨-, h'⟩
      have := (List.Nodup.getElem_inj_iff hc).1 h'
      omega
    · subst h; rw [if_pos ⟨rfl, rfl⟩]
  · intro b a hba
    rw [hval, if_neg, q4 b a hba]
    rintro ⟨rfl, rfl⟩
    exact hba ⟨List.getElem_mem _, List.getElem_mem _⟩

theorem fillBlock_filled {N : Nat} {rows : List Nat} {v p : Arr} (hr : rows.Nodup)
    (hrl : ∀ b ∈ rows, b < N) (hv : v.dims = [rows.length, rows.length]) (hp : p.dims = [N, N]) :
    ∃ p', fillBlock rows rows v p = .ok p' ∧ Filled rows v p p' := by
  obtain ⟨p', e, h1, h2, h3⟩ := fillBlock_ok hr hr hrl hrl hv hp
  exact ⟨p', e, h1.trans hp.symm, h2, h3⟩

/-- A loop over sectors that fills their blocks makes the block diagonal matrix. -/
theorem blockDiag_fold {ι : Type} {N : Nat} {row : ι → List Nat} {vec : ι → Arr}
    (step : Arr → ι → Py Arr) (I : List ι)
    (hstep : ∀ s ∈ I, ∀ p, p.dims = [N, N] → ∃ p', step p s = .ok p' ∧ Filled (row s) (vec s) p p')
    (hn : I.Nodup)
    (hdisj : ∀ s ∈ I, ∀ s' ∈ I, ∀ b, b ∈ row s → b ∈ row s' → s = s') :
    ∃ P, I.foldlM step (Arr.zeros [N, N]) = .ok P ∧ BlockDiag N I row vec P := by
  suffices H : ∀ (J done : List ι) (p : Arr), (∀ s ∈ J, s ∈ I) → (∀ s ∈ done, s ∈ I) → J.Nodup →
      (∀ s ∈ J, s ∉ done) → BlockDiag N done row vec p →
      ∃ P, J.foldlM step p = .ok P ∧ BlockDiag N (done ++ J) row vec P by
    refine H I [] _ (fun _ h => h) (by simp) hn (by simp) ⟨rfl, by simp, fun _ _ _ => rfl⟩
  intro J
  induction J with
  | nil => intro done p _ _ _ _ h; exact ⟨p, rfl, by rw [List.append_nil]; exact h⟩
  | cons s J ih =>
    intro done p hJ hd hJn hnd hp
    obtain ⟨p', e, f1, f2, f3⟩ := hstep s (hJ s (by simp)) p hp.dims
    rw [List.nodup_cons] at hJn
    have := ih (done ++ [s]) p' (fun s' h => hJ s' (by simp [h])) ?_ hJn.2 ?_ ?_
    · obtain ⟨P, e', hP⟩ := this
      refine ⟨P, by rw [List.foldlM_cons, e]; exact e', ?_⟩
      rw [List.append_assoc] at hP
      exact hP
    · intro s' h
      rcases List.mem_append.1 h with h | h
      · exact hd s' h
      · rw [List.mem_singleton.1 h]; exact hJ s (by simp)
    · intro s' h h'
      rcases List.mem_append.1 h' with h' | h'
      · exact hnd s' (by simp [h]) h'
      · rw [List.mem_singleton.1 h'] at h; exact hJn.1 h
    · refine ⟨f1.trans hp.dims, ?_, ?_⟩
      · intro s' h i j hi hj
        rcases List.mem_append.1 h with h | h
        · refine (f3 _ _ ?_).trans (hp.inside s' h i j hi hj)
          rintro ⟨h1, -⟩
          have := hdisj s (hJ s (by simp)) s' (hd s' h) _ h1 (List.getElem_mem _)
          exact hnd s (by simp) (this ▸ h)
        · cases List.mem_singleton.1 h
          exact f2 i j hi hj
      · intro b a h
        refine (f3 _ _ ?_).trans (hp.outside b a ?_)
        · intro h'; exact h ⟨s, by simp, h'⟩
        · rintro ⟨s', h1, h2⟩; exact h ⟨s', by simp [h1], h2⟩

/-! ### Blocks of the rotated matrix -/

theorem sum_block {N o len : Nat} (f : Nat → ℂ) (h : o + len ≤ N)
    (hf : ∀ b, ¬ (o ≤ b ∧ b < o + len) → f b = 0) :
    ∑ b ∈ Finset.range N, f b = ∑ x ∈ Finset.range len, f (o + x) := by
  rw [← Finset.sum_subset (s₁ := Finset.Ico o (o + len))]
  · rw [Finset.sum_Ico_eq_sum_range]
    simp
  · intro x hx
    rw [Finset.mem_Ico] at hx
    rw [Finset.mem_range]
    omega
  · intro x _ hx
    rw [Finset.mem_Ico] at hx
    exact hf x hx

theorem range'_get {o len i : Nat} (h : i < (List.range' o len).length) :
    (List.range' o len)[i] = o + i := by simp

/-- The entry of `P† T0 P` in a block is given by the eigenvectors of the two sectors. -/
theorem rotated_block {ι : Type} {N : Nat} {I : List ι} {row : ι → List Nat} {vec : ι → Arr}
    {P T0 : Arr} (hs : Sectors N I row vec) (hP : BlockDiag N I row vec P) {s s' : ι} (h1 : s ∈ I)
    (h2 : s' ∈ I) {o len o' len' : Nat} (e1 : row s = List.range' o len)
    (e2 : row s' = List.range' o' len') {l i j : Nat} (hi : i < len) (hj : j < len') :
    rotated N P T0 l (o + i) (o' + j) = ∑ x ∈ Finset.range len,
      starRingEnd ℂ ((vec s).mat x i) * ∑ y ∈ Finset.range len', T0.val [l, o + x, o' + y] * (vec s').mat y j := by
  have hb : ∀ {s : ι} (_ : s ∈ I) {o len : Nat} (_ : row s = List.range' o len) (_ : 0 < len), o + len ≤ N := by
    intro s h1 o len e1 h0
    have : o + (len - 1) < N := hs.lt s h1 _ (by rw [e1, List.mem_range'_1]; omega)
    omega
  have hin : ∀ {s : ι} (_ : s ∈ I) {o len : Nat} (_ : row s = List.range' o len) {x y : Nat} (_ : x < len)
      (_ : y < len), P.val [o + x, o + y] = (vec s).mat x y := by
    intro s h1 o len e1 x y hx hy
    have := hP.inside s h1 x y (by rw [e1, List.length_range']; exact hx)
      (by rw [e1, List.length_range']; exact hy)
    simp only [e1, range'_get] at this
    exact this
  have hout : ∀ {s : ι} (_ : s ∈ I) {o len : Nat} (_ : row s = List.range' o len) {b y : Nat} (_ : y < len)
      (_ : ¬ (o ≤ b ∧ b < o + len)), P.val [b, o + y] = 0 := by
    intro s h1 o len e1 b y hy hb
    refine hP.outside _ _ ?_
    rintro ⟨s2, m1, m2, m3⟩
    have : s2 = s := hs.disj s2 m1 s h1 _ m3 (by rw [e1, List.mem_range'_1]; omega)
    subst this
    rw [e1, List.mem_range'_1] at m2
    exact hb m2
  unfold rotated
  rw [sum_block (o := o) (len := len) _ (hb h1 e1 (by omega))]
  · refine Finset.sum_congr rfl fun x hx => ?_
    rw [sum_block (o := o') (len := len') _ (hb h2 e2 (by omega))]
    · rw [Finset.mul_sum]
      refine Finset.sum_congr rfl fun y hy => ?_
      rw [hin h1 e1 (Finset.mem_range.1 hx) hi, hin h2 e2 (Finset.mem_range.1 hy) hj, mul_assoc]
    · intro b hb
      rw [hout h2 e2 hj hb, mul_zero]
  · intro b hb
    refine Finset.sum_eq_zero fun a _ => ?_
    rw [hout h1 e1 hi hb, map_zero, zero_mul, zero_mul]

/-- Where no sectors `s`, `s'` of `b`, `a` are coupled by `T0`, the entry is zero. -/
theorem rotated_zero {ι : Type} {N : Nat} {I : List ι} {row : ι → List Nat} {vec : ι → Arr}
    {P T0 : Arr} (hP : BlockDiag N I row vec P) {l b a : Nat}
    (h : ∀ b' a', b' < N → a' < N → (∃ s ∈ I, b' ∈ row s ∧ b ∈ row s) → (∃ s ∈ I, a' ∈ row s ∧ a ∈ row s) →
      T0.val [l, b', a'] = 0) :
    rotated N P T0 l b a = 0 := by
  unfold rotated
  refine Finset.sum_eq_zero fun b' hb' => Finset.sum_eq_zero fun a' ha' => ?_
  by_cases h1 : ∃ s ∈ I, b' ∈ row s ∧ b ∈ row s
  · by_cases h2 : ∃ s ∈ I, a' ∈ row s ∧ a ∈ row s
    · rw [h b' a' (Finset.mem_range.1 hb') (Finset.mem_range.1 ha') h1 h2, mul_zero, zero_mul]
    · rw [hP.outside _ _ h2, mul_zero]
  · rw [hP.outside _ _ h1, map_zero, zero_mul, zero_mul]

/-- `P† T P` is Hermitian if `T` is. -/
theorem rotated_herm {L N : Nat} {P T0 : Arr} (h : Herm L N T0) {l b a : Nat} (hl : l < L) :
    rotated N P T0 l a b = starRingEnd ℂ (rotated N P T0 l b a) := by
  unfold rotated
  rw [map_sum, Finset.sum_comm]
  refine Finset.sum_congr rfl fun b' hb' => ?_
  rw [map_sum]
  refine Finset.sum_congr rfl fun a' ha' => ?_
  rw [h l b' a' hl (Finset.mem_range.1 hb') (Finset.mem_range.1 ha')]
  simp only [map_mul, Complex.conj_conj]
  ring

theorem ends_range' {o len : Nat} (h : 0 < len) : ends (List.range' o len) = .ok (o, o + len) := by
  unfold ends
  have h1 : pyGet (List.range' o len) 0 = .ok o := by
    have := pyGet_nat (List.range' o len) (k := 0) (by simpa using h)
    simpa using this
  have h2 : pyGet (List.range' o len) (-1) = .ok (o + (len - 1)) := by
    unfold pyGet
    have := pyIdx_neg (len := (List.range' o len).length) (k := 1) (by omega) (by rw [List.length_range']; omega)
    rw [show (-1 : Int) = -((1 : Nat) : Int) from rfl, this]
    simp [h]
  rw [h1, h2]
  simp only [py_bind_ok]
  show Except.ok (o, o + (len - 1) + 1) = _
  rw [Nat.add_assoc, Nat.sub_add_cancel h]

theorem block_ok {t : Arr} {L N l o len o' len' : Nat} (ht : t.dims = [L, N, N]) (hl : l < L)
    (h1 : o + len ≤ N) (h2 : o' + len' ≤ N) :
    t.block l o (o + len) o' (o' + len') =
      .ok (Arr.ofMat len len' fun i j => t.val [l, o + i, o' + j]) := by
  unfold Arr.block
  rw [ht]
  simp only [hl, if_true]
  rw [sliceLen_eq (by omega) h1, sliceLen_eq (by omega) h2, Nat.add_sub_cancel_left,
    Nat.add_sub_cancel_left]

theorem setBlock_ok {t x : Arr} {L N l o len o' len' : Nat} (ht : t.dims = [L, N, N]) (hl : l < L)
    (h1 : o + len ≤ N) (h2 : o' + len' ≤ N) (hx : x.dims = [len, len']) :
    ∃ t', t.setBlock l o (o + len) o' (o' + len') x = .ok t' ∧ t'.dims = [L, N, N] ∧
      ∀ l' b a, t'.val [l', b, a] =
        if l' = l ∧ (o ≤ b ∧ b < o + len) ∧ (o' ≤ a ∧ a < o' + len') then x.mat (b - o) (a - o')
        else t.val [l', b, a] := by
  unfold Arr.setBlock
  rw [ht]
  simp only [hl, if_true]
  rw [sliceLen_eq (by omega) h1, sliceLen_eq (by omega) h2, Nat.add_sub_cancel_left,
    Nat.add_sub_cancel_left, if_pos hx]
  exact ⟨_, rfl, rfl, fun l' b a => rfl⟩

section Steps
variable {ι : Type} {N L : Nat} {I : List ι} {row : ι → List Nat} {vec : ι → Arr} {P T0 : Arr}

theorem sector_le (hs : Sectors N I row vec) {s : ι} (h1 : s ∈ I) {o len : Nat}
    (e1 : row s = List.range' o len) (h0 : 0 < len) : o + len ≤ N := by
  have : o + (len - 1) < N := hs.lt s h1 _ (by rw [e1, List.mem_range'_1]; omega)
  omega

theorem rotBlock_ok (hs : Sectors N I row vec) (hP : BlockDiag N I row vec P)
    (hd : T0.dims = [L, N, N]) (hh : Herm L N T0) {t : Arr} (ht : t.dims = [L, N, N]) {l : Nat} (hl : l < L)
    {s s' : ι} (h1 : s ∈ I) (h2 : s' ∈ I) (hc : ∃ o len, row s = List.range' o len)
    (hc' : ∃ o len, row s' = List.range' o len) (hne : row s ≠ []) (hne' : row s' ≠ []) :
    ∃ t', rotBlock T0 t l (row s) (row s') (vec s) (vec s') = .ok t' ∧ t'.dims = [L, N, N] ∧
      ∀ l' b a, t'.val [l', b, a] =
        if l' = l ∧ (b ∈ row s ∧ a ∈ row s' ∨ b ∈ row s' ∧ a ∈ row s) then rotated N P T0 l b a
        else t.val [l', b, a] := by
  obtain ⟨o, len, e1⟩ := hc
  obtain ⟨o', len', e2⟩ := hc'
  have p1 : 0 < len := by
    rcases Nat.eq_zero_or_pos len with h | h
    · rw [h] at e1; exact absurd e1 hne
    · exact h
  have p2 : 0 < len' := by
    rcases Nat.eq_zero_or_pos len' with h | h
    · rw [h] at e2; exact absurd e2 hne'
    · exact h
  have n1 := sector_le hs h1 e1 p1
  have n2 := sector_le hs h2 e2 p2
  have d1 : (vec s).dims = [len, len] := by have := hs.dims s h1; rwa [e1, List.length_range'] at this
  have d2 : (vec s').dims = [len', len'] := by
    have := hs.dims s' h2; rwa [e2, List.length_range'] at this
  unfold rotBlock
  rw [e1, e2, ends_range' p1, ends_range' p2, conjT_ok d1]
  simp only [py_bind_ok]
  rw [block_ok hd hl n1 n2]
  simp only [py_bind_ok]
  rw [matDot_ok (Arr.ofMat_dims _ _ _) d2]
  simp only [py_bind_ok]
  rw [matDot_ok (Arr.ofMat_dims _ _ _) (Arr.ofMat_dims _ _ _)]
  simp only [py_bind_ok, Arr.ofMat_mat]
  obtain ⟨t1, g1, g2, g3⟩ := setBlock_ok ht hl n1 n2 (x := Arr.ofMat len len' fun i j =>
    ∑ x ∈ Finset.range len, (starRingEnd ℂ) ((vec s).mat x i) *
      ∑ x_1 ∈ Finset.range len', T0.val [l, o + x, o' + x_1] * (vec s').mat x_1 j) (Arr.ofMat_dims _ _ _)
  rw [g1]
  simp only [py_bind_ok]
  rw [block_ok g2 hl n1 n2]
  simp only [py_bind_ok]
  rw [conjT_ok (Arr.ofMat_dims _ _ _)]
  simp only [py_bind_ok, Arr.ofMat_mat]
  obtain ⟨t2, k1, k2, k3⟩ := setBlock_ok g2 hl n2 n1 (x := Arr.ofMat len' len fun i j =>
    (starRingEnd ℂ) (t1.val [l, o + j, o' + i])) (Arr.ofMat_dims _ _ _)
  refine ⟨t2, k1, k2, ?_⟩
  have v1 : ∀ b a, (o ≤ b ∧ b < o + len) → (o' ≤ a ∧ a < o' + len') →
      t1.val [l, b, a] = rotated N P T0 l b a := by
    intro b a hb ha
    rw [g3, if_pos ⟨rfl, hb, ha⟩, Arr.ofMat_mat]
    obtain ⟨i, rfl⟩ : ∃ i, b = o + i := ⟨b - o, by omega⟩
    obtain ⟨j, rfl⟩ : ∃ j, a = o' + j := ⟨a - o', by omega⟩
    rw [rotated_block hs hP h1 h2 e1 e2 (by omega) (by omega), Nat.add_sub_cancel_left,
      Nat.add_sub_cancel_left]
  intro l' b a
  simp only [List.mem_range'_1]
  rw [k3]
  by_cases c1 : l' = l ∧ (o' ≤ b ∧ b < o' + len') ∧ (o ≤ a ∧ a < o + len)
  · rw [if_pos c1, if_pos ⟨c1.1, .inr c1.2⟩, Arr.ofMat_mat,
      show o + (a - o) = a by omega, show o' + (b - o') = b by omega, v1 a b c1.2.2 c1.2.1,
      ← rotated_herm hh hl]
  · rw [if_neg c1]
    by_cases c2 : l' = l ∧ (o ≤ b ∧ b < o + len) ∧ (o' ≤ a ∧ a < o' + len')
    · rw [if_pos ⟨c2.1, .inl c2.2⟩, c2.1, v1 b a c2.2.1 c2.2.2]
    · rw [g3, if_neg c2, if_neg]
      rintro ⟨h, h' | h'⟩
      · exact c2 ⟨h, h'⟩
      · exact c1 ⟨h, h'⟩

theorem rotDiag_ok (hs : Sectors N I row vec) (hP : BlockDiag N I row vec P)
    (hd : T0.dims = [L, N, N]) {t : Arr} (ht : t.dims = [L, N, N]) {l : Nat} (hl : l < L)
    {s : ι} (h1 : s ∈ I) (hc : ∃ o len, row s = List.range' o len) (hne : row s ≠ []) :
    ∃ t', rotDiag T0 t l (row s) (vec s) = .ok t' ∧ t'.dims = [L, N, N] ∧
      ∀ l' b a, t'.val [l', b, a] =
        if l' = l ∧ b ∈ row s ∧ a ∈ row s then rotated N P T0 l b a else t.val [l', b, a] := by
  obtain ⟨o, len, e1⟩ := hc
  have p1 : 0 < len := by
    rcases Nat.eq_zero_or_pos len with h | h
    · rw [h] at e1; exact absurd e1 hne
    · exact h
  have n1 := sector_le hs h1 e1 p1
  have d1 : (vec s).dims = [len, len] := by have := hs.dims s h1; rwa [e1, List.length_range'] at this
  unfold rotDiag
  rw [e1, ends_range' p1, conjT_ok d1]
  simp only [py_bind_ok]
  rw [block_ok hd hl n1 n1]
  simp only [py_bind_ok]
  rw [matDot_ok (Arr.ofMat_dims _ _ _) d1]
  simp only [py_bind_ok]
  rw [matDot_ok (Arr.ofMat_dims _ _ _) (Arr.ofMat_dims _ _ _)]
  simp only [py_bind_ok, Arr.ofMat_mat]
  obtain ⟨t1, g1, g2, g3⟩ := setBlock_ok ht hl n1 n1 (x := Arr.ofMat len len fun i j =>
    ∑ x ∈ Finset.range len, (starRingEnd ℂ) ((vec s).mat x i) *
      ∑ x_1 ∈ Finset.range len, T0.val [l, o + x, o + x_1] * (vec s).mat x_1 j) (Arr.ofMat_dims _ _ _)
  refine ⟨t1, g1, g2, ?_⟩
  intro l' b a
  simp only [List.mem_range'_1]
  rw [g3]
  refine ite_congr rfl (fun h => ?_) fun _ => rfl
  obtain ⟨-, hb, ha⟩ := h
  rw [Arr.ofMat_mat]
  obtain ⟨i, rfl⟩ : ∃ i, b = o + i := ⟨b - o, by omega⟩
  obtain ⟨j, rfl⟩ : ∃ j, a = o + j := ⟨a - o, by omega⟩
  rw [rotated_block hs hP h1 h1 e1 e1 (by omega) (by omega), Nat.add_sub_cancel_left,
    Nat.add_sub_cancel_left]

/-- A loop that writes blocks of `P† T0 P`: `wr x l b a` says whether the pass `x` writes the entry. -/
theorem rotate_fold {α : Type} (step : Arr → α → Py Arr) (wr : α → Nat → Nat → Nat → Prop) (xs : List α)
    (hstep : ∀ x ∈ xs, ∀ t : Arr, t.dims = [L, N, N] → ∃ t', step t x = .ok t' ∧ t'.dims = [L, N, N] ∧
      ∀ l b a, (wr x l b a → t'.val [l, b, a] = rotated N P T0 l b a) ∧
        (¬ wr x l b a → t'.val [l, b, a] = t.val [l, b, a]))
    (t : Arr) (ht : t.dims = [L, N, N]) :
    ∃ t', xs.foldlM step t = .ok t' ∧ t'.dims = [L, N, N] ∧
      ∀ l b a, ((∃ x ∈ xs, wr x l b a) → t'.val [l, b, a] = rotated N P T0 l b a) ∧
        ((¬ ∃ x ∈ xs, wr x l b a) → t'.val [l, b, a] = t.val [l, b, a]) := by
  induction xs generalizing t with
  | nil => exact ⟨t, rfl, ht, fun l b a => ⟨by simp, fun _ => rfl⟩⟩
  | cons x xs ih =>
    obtain ⟨t1, e1, d1, h1⟩ := hstep x (by simp) t ht
    obtain ⟨t2, e2, d2, h2⟩ := ih (fun y hy => hstep y (by simp [hy])) t1 d1
    refine ⟨t2, by rw [List.foldlM_cons, e1]; exact e2, d2, ?_⟩
    intro l b a
    constructor
    · rintro ⟨y, hy, hw⟩
      by_cases hex : ∃ y ∈ xs, wr y l b a
      · exact (h2 l b a).1 hex
      · rw [(h2 l b a).2 hex]
        rcases List.mem_cons.1 hy with rfl | hy
        · exact (h1 l b a).1 hw
        · exact absurd ⟨y, hy, hw⟩ hex
    · intro hno
      rw [(h2 l b a).2 fun ⟨y, hy, hw⟩ => hno ⟨y, by simp [hy], hw⟩,
        (h1 l b a).2 fun hw => hno ⟨x, by simp, hw⟩]

end Steps

/-- The rotation with the full matrix. -/
theorem rotateFull_ok {si : SI} {L : Nat} {T0 P : Arr} {vecs : Vecs}
    (hP : constructFullPmtr si vecs = .ok P) (hPd : P.dims = [si.nmany, si.nmany])
    (hd : T0.dims = [L, si.nmany, si.nmany]) :
    ∃ T, rotateFull si L T0 vecs = .ok T ∧ Rotated L si.nmany P T0 T := by
  unfold rotateFull
  rw [hP]
  simp only [py_bind_ok]
  have key := rotate_fold (N := si.nmany) (L := L) (P := P) (T0 := T0)
    (fun t (l : Nat) => do
      let pd ← conjT P
      let b ← (match T0.dims with
        | [L, R, C] => if l < L then .ok (Arr.ofMat R C fun i j => T0.val [l, i, j])
                       else .error .index
        | _ => .error .index)
      let m ← matDot b P
      let x ← matDot pd m
      t.setBlock l 0 si.nmany 0 si.nmany x)
    (fun x l b a => l = x ∧ b < si.nmany ∧ a < si.nmany) (List.range L) ?_
    (Arr.zeros [L, si.nmany, si.nmany]) rfl
  · obtain ⟨t, e, h1, h2⟩ := key
    refine ⟨t, e, h1, ?_⟩
    intro l b a hl hb ha
    exact (h2 l b a).1 ⟨l, List.mem_range.2 hl, rfl, hb, ha⟩
  intro l hl t ht
  have hl := List.mem_range.1 hl
  rw [conjT_ok hPd]
  simp only [py_bind_ok, hd, hl, if_true]
  rw [matDot_ok (Arr.ofMat_dims _ _ _) hPd]
  simp only [py_bind_ok]
  rw [matDot_ok (Arr.ofMat_dims _ _ _) (Arr.ofMat_dims _ _ _)]
  simp only [py_bind_ok, Arr.ofMat_mat]
  obtain ⟨t', g1, g2, g3⟩ := setBlock_ok (o := 0) (o' := 0) ht hl (by omega : 0 + si.nmany ≤ si.nmany)
    (by omega : 0 + si.nmany ≤ si.nmany) (x := Arr.ofMat si.nmany si.nmany fun i j =>
      ∑ x ∈ Finset.range si.nmany, (starRingEnd ℂ) (P.mat x i) *
        ∑ x_1 ∈ Finset.range si.nmany, T0.val [l, x, x_1] * P.mat x_1 j) (Arr.ofMat_dims _ _ _)
  rw [Nat.zero_add] at g1
  refine ⟨t', g1, g2, ?_⟩
  intro l' b a
  rw [g3]
  constructor
  · rintro ⟨rfl, hb, ha⟩
    rw [if_pos ⟨rfl, ⟨by omega, by omega⟩, ⟨by omega, by omega⟩⟩, Arr.ofMat_mat]
    unfold rotated
    refine Finset.sum_congr rfl fun x _ => ?_
    rw [Finset.mul_sum]
    refine Finset.sum_congr rfl fun y _ => ?_
    rw [Nat.sub_zero, Nat.sub_zero, mul_assoc]
    first | rfl | skip
  · intro h
    rw [if_neg]
    rintro ⟨h1, h2, h3⟩
    exact h ⟨h1, by omega, by omega⟩

end Verif
