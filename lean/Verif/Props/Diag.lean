import Verif.Model.Diag
import Verif.Props.Rotate
import Verif.Props.Params
import Mathlib.Analysis.Matrix.Spectrum

/-! C54: the block by block diagonalisation diagonalises the full Hamiltonian. -/

namespace Verif

open Verif.Spec

/-- What is assumed of `np.linalg.eigh`: for a Hermitian matrix it returns real eigenvalues and a
unitary matrix with the eigenvectors as columns. -/
def EighOk (eigh : Eigh) : Prop :=
  ∀ (A : Arr) (m : Nat), A.dims = [m, m] →
    (∀ i j, i < m → j < m → A.val [j, i] = starRingEnd ℂ (A.val [i, j])) →
    ∃ w v, eigh A = .ok (w, v) ∧ w.length = m ∧ v.dims = [m, m] ∧
      (∀ i j, i < m → j < m → ∑ x ∈ Finset.range m, starRingEnd ℂ (v.val [x, i]) * v.val [x, j]
        = if i = j then 1 else 0) ∧
      ∀ (i j : Nat) (x : ℝ), i < m → w[j]? = some x →
        ∑ y ∈ Finset.range m, A.val [i, y] * v.val [y, j] = v.val [i, j] * x

/-- `P` is unitary and its columns are eigenvectors of `H` with the eigenvalues `Ea`. -/
structure Diagonalises (N : Nat) (H P : Arr) (Ea : List ℝ) : Prop where
  length : Ea.length = N
  unitary : ∀ a b, a < N → b < N →
    ∑ x ∈ Finset.range N, starRingEnd ℂ (P.val [x, a]) * P.val [x, b] = if a = b then 1 else 0
  eigen : ∀ (a b : Nat) (e : ℝ), a < N → Ea[b]? = some e →
    ∑ x ∈ Finset.range N, H.val [a, x] * P.val [x, b] = P.val [a, b] * e

theorem sum_row {N : Nat} {l : List Nat} (hn : l.Nodup) (hl : ∀ b ∈ l, b < N) (f g : Nat → ℂ)
    (h0 : ∀ b, b ∉ l → f b = 0) (hg : ∀ i (hi : i < l.length), f l[i] = g i) :
    ∑ b ∈ Finset.range N, f b = ∑ i ∈ Finset.range l.length, g i := by
  rw [← Finset.sum_subset (s₁ := l.toFinset)]
  · rw [List.sum_toFinset f hn]
    have e : l.map f = (List.range l.length).map g := by
      refine List.ext_getElem (by simp) ?_
      intro i h1 h2
      rw [List.getElem_map, List.getElem_map, List.getElem_range]
      exact hg i (by simpa using h1)
    rw [e, ← List.sum_toFinset g List.nodup_range, List.toFinset_range]
  · intro b hb
    rw [List.mem_toFinset] at hb
    exact Finset.mem_range.2 (hl b hb)
  · intro b _ hb
    rw [List.mem_toFinset] at hb
    exact h0 b hb

section
variable {ι : Type} {N : Nat} {I : List ι} {row : ι → List Nat} {vec ham : ι → Arr} {P H : Arr}

theorem blocks_diagonalise (hs : Sectors N I row vec) (hP : BlockDiag N I row vec P)
    (hH : BlockDiag N I row ham H) (w : ι → List ℝ) (Ea : List ℝ) (hlen : Ea.length = N)
    (hw : ∀ s ∈ I, ∀ i (hi : i < (row s).length), ∃ x, Ea[(row s)[i]]? = some x ∧ (w s)[i]? = some x)
    (hu : ∀ s ∈ I, ∀ i j, i < (row s).length → j < (row s).length →
      ∑ x ∈ Finset.range (row s).length, starRingEnd ℂ ((vec s).val [x, i]) * (vec s).val [x, j]
        = if i = j then 1 else 0)
    (he : ∀ s ∈ I, ∀ (i j : Nat) (x : ℝ), i < (row s).length → (w s)[j]? = some x →
      ∑ y ∈ Finset.range (row s).length, (ham s).val [i, y] * (vec s).val [y, j]
        = (vec s).val [i, j] * x) : Diagonalises N H P Ea := by
  refine ⟨hlen, ?_, ?_⟩
  · intro a b ha hb
    obtain ⟨s, h1, h2⟩ := hs.cover a ha
    obtain ⟨s', h1', h2'⟩ := hs.cover b hb
    by_cases hbs : b ∈ row s
    · obtain ⟨i, hi, rfl⟩ := List.getElem_of_mem h2
      obtain ⟨j, hj, rfl⟩ := List.getElem_of_mem hbs
      rw [sum_row (hs.rows s h1) (hs.lt s h1) _ (fun x =>
        starRingEnd ℂ ((vec s).val [x, i]) * (vec s).val [x, j]), hu s h1 i j hi hj]
      · exact if_congr ((hs.rows s h1).getElem_inj_iff).symm rfl rfl
      · intro x hx
        rw [hP.outside x _, map_zero, zero_mul]
        rintro ⟨u, hu1, hu2, hu3⟩
        have := hs.disj u hu1 s h1 _ hu3 h2
        exact hx (this ▸ hu2)
      · intro x hx
        rw [hP.inside s h1 x i hx hi, hP.inside s h1 x j hx hj]
    · rw [if_neg (by rintro rfl; exact hbs h2)]
      refine Finset.sum_eq_zero fun x _ => ?_
      by_cases hx : x ∈ row s
      · rw [hP.outside x b, mul_zero]
        rintro ⟨u, hu1, hu2, hu3⟩
        have := hs.disj u hu1 s h1 _ hu2 hx
        exact hbs (this ▸ hu3)
      · rw [hP.outside x a, map_zero, zero_mul]
        rintro ⟨u, hu1, hu2, hu3⟩
        have := hs.disj u hu1 s h1 _ hu3 h2
        exact hx (this ▸ hu2)
  · intro a b e ha heb
    have hb : b < N := by
      obtain ⟨hlt, -⟩ := List.getElem?_eq_some_iff.1 heb
      omega
    obtain ⟨s, h1, h2⟩ := hs.cover a ha
    by_cases hbs : b ∈ row s
    · obtain ⟨i, hi, rfl⟩ := List.getElem_of_mem h2
      obtain ⟨j, hj, rfl⟩ := List.getElem_of_mem hbs
      obtain ⟨x, hx1, hx2⟩ := hw s h1 j hj
      rw [heb] at hx1
      cases hx1
      rw [sum_row (hs.rows s h1) (hs.lt s h1) _ (fun x =>
        (ham s).val [i, x] * (vec s).val [x, j]), he s h1 i j e hi hx2, hP.inside s h1 i j hi hj]
      · intro x hx
        rw [hH.outside _ x, zero_mul]
        rintro ⟨u, hu1, hu2, hu3⟩
        have := hs.disj u hu1 s h1 _ hu2 h2
        exact hx (this ▸ hu3)
      · intro x hx
        rw [hP.inside s h1 x j hx hj, hH.inside s h1 i x hi hx]
    · rw [hP.outside a b, zero_mul]
      · refine Finset.sum_eq_zero fun x _ => ?_
        by_cases hx : x ∈ row s
        · rw [hP.outside x b, mul_zero]
          rintro ⟨u, hu1, hu2, hu3⟩
          have := hs.disj u hu1 s h1 _ hu2 hx
          exact hbs (this ▸ hu3)
        · rw [hH.outside a x, zero_mul]
          rintro ⟨u, hu1, hu2, hu3⟩
          have := hs.disj u hu1 s h1 _ hu2 h2
          exact hx (this ▸ hu3)
      · rintro ⟨u, hu1, hu2, hu3⟩
        have := hs.disj u hu1 s h1 _ hu2 h2
        exact hbs (this ▸ hu3)

end

/-! The energies of the many-body states. -/

theorem fillVals_ok {row : List Nat} {w ea : List ℝ} (hr : row.Nodup) (hl : ∀ b ∈ row, b < ea.length)
    (hw : w.length = row.length) : ∃ ea', fillVals row w ea = .ok ea' ∧ ea'.length = ea.length ∧
      (∀ i (hi : i < row.length), ∃ x, ea'[row[i]]? = some x ∧ w[i]? = some x) ∧
      ∀ b, b ∉ row → ea'[b]? = ea[b]? := by
  unfold fillVals
  suffices H : ∀ m, m ≤ row.length → ∃ ea', (List.range m).foldlM (fun ea (i : Nat) => do
      let b ← pyGet row i
      let x ← pyGet w i
      pySet ea (b : Nat) x) ea = .ok ea' ∧ ea'.length = ea.length ∧
      (∀ i (hi : i < row.length), i < m → ∃ x, ea'[row[i]]? = some x ∧ w[i]? = some x) ∧
      ∀ b, b ∉ row → ea'[b]? = ea[b]? by
    obtain ⟨ea', h1, h2, h3, h4⟩ := H row.length (Nat.le_refl _)
    exact ⟨ea', h1, h2, fun i hi => h3 i hi hi, h4⟩
  intro m
  induction m with
  | zero => intro _; exact ⟨ea, rfl, rfl, fun _ _ h => absurd h (Nat.not_lt_zero _), fun _ _ => rfl⟩
  | succ m ih =>
    intro hm
    obtain ⟨e1, h1, h2, h3, h4⟩ := ih (by omega)
    have hm' : m < row.length := by omega
    have hmw : m < w.length := by omega
    have hb : row[m] < e1.length := by rw [h2]; exact hl _ (List.getElem_mem _)
    refine ⟨e1.set row[m] w[m], ?_, by rw [List.length_set, h2], ?_, ?_⟩
    · rw [List.range_succ, List.foldlM_append, h1]
      simp only [py_bind_ok, List.foldlM_cons, List.foldlM_nil, pyGet_nat _ hm', pyGet_nat _ hmw,
        pySet_nat _ _ hb]
      rfl
    · intro i hi him
      rcases Nat.lt_or_eq_of_le (Nat.lt_succ_iff.1 him) with h | h
      · obtain ⟨x, hx, hx'⟩ := h3 i hi h
        refine ⟨x, ?_, hx'⟩
        rw [List.getElem?_set_ne, hx]
        intro he
        have := (hr.getElem_inj_iff).1 he
        omega
      · subst h
        exact ⟨w[i], by rw [List.getElem?_set_self hb], List.getElem?_eq_getElem hmw⟩
    · intro b hbr
      rw [List.getElem?_set_ne, h4 b hbr]
      rintro rfl
      exact hbr (List.getElem_mem _)

theorem fillVals_fold {ι : Type} {N : Nat} {row : ι → List Nat} {w : ι → List ℝ}
    (step : List ℝ → ι → Py (List ℝ)) (I : List ι)
    (hstep : ∀ s ∈ I, ∀ ea, step ea s = fillVals (row s) (w s) ea)
    (hrows : ∀ s ∈ I, (row s).Nodup) (hlt : ∀ s ∈ I, ∀ b ∈ row s, b < N)
    (hlen : ∀ s ∈ I, (w s).length = (row s).length) (hn : I.Nodup)
    (hdisj : ∀ s ∈ I, ∀ s' ∈ I, ∀ b, b ∈ row s → b ∈ row s' → s = s')
    (ea : List ℝ) (hea : ea.length = N) :
    ∃ ea', I.foldlM step ea = .ok ea' ∧ ea'.length = N ∧
      (∀ s ∈ I, ∀ i (hi : i < (row s).length), ∃ x, ea'[(row s)[i]]? = some x ∧ (w s)[i]? = some x) ∧
      ∀ b, (∀ s ∈ I, b ∉ row s) → ea'[b]? = ea[b]? := by
  induction I generalizing ea with
  | nil => exact ⟨ea, rfl, hea, by simp, fun _ _ => rfl⟩
  | cons s J ih =>
    rw [List.nodup_cons] at hn
    obtain ⟨e1, h1, h2, h3, h4⟩ := fillVals_ok (ea := ea) (hrows s (by simp))
      (fun b hb => by rw [hea]; exact hlt s (by simp) b hb) (hlen s (by simp))
    obtain ⟨e2, g1, g2, g3, g4⟩ := ih (fun s' h => hstep s' (by simp [h])) (fun s' h => hrows s' (by simp [h]))
      (fun s' h => hlt s' (by simp [h])) (fun s' h => hlen s' (by simp [h])) hn.2
      (fun a ha b hb => hdisj a (by simp [ha]) b (by simp [hb])) e1 (h2.trans hea)
    refine ⟨e2, ?_, g2, ?_, ?_⟩
    · rw [List.foldlM_cons, hstep s (by simp), h1]
      exact g1
    · intro s' hs' i hi
      rcases List.mem_cons.1 hs' with rfl | hs'
      · obtain ⟨x, hx1, hx2⟩ := h3 i hi
        refine ⟨x, ?_, hx2⟩
        rw [g4 _ ?_, hx1]
        intro u hu hmem
        have := hdisj s' (by simp) u (by simp [hu]) _ (List.getElem_mem hi) hmem
        exact hn.1 (this ▸ hu)
      · exact g3 s' hs' i hi
    · intro b hb
      rw [g4 b (fun u hu => hb u (by simp [hu])), h4 b (hb s (by simp))]

theorem mapM_ok {α β : Type} {g : α → Py β} {f : α → β} :
    ∀ {l : List α}, (∀ x ∈ l, g x = .ok (f x)) → l.mapM g = .ok (l.map f)
  | [], _ => rfl
  | x :: l, h => by
    rw [List.mapM_cons, h x (by simp), py_bind_ok, mapM_ok (fun y hy => h y (by simp [hy])), py_bind_ok]
    rfl

/-- C54 for the indexings by charge only, 'Lin' and 'charge', after any removals: for Hermitian
blocks `ham c` of the Hamiltonian, `diagonalise` does not raise, and the matrix of eigenvectors
which the rotation uses is unitary and diagonalises the full Hamiltonian, with the
energies `Ea` in the order of the many-body states. -/
theorem c54_charge {n : Nat} {qd : QD} (hr : ReachedSI n qd.si)
    (hix : qd.si.indexing = .Lin ∨ qd.si.indexing = .charge) {eigh : Eigh} (heigh : EighOk eigh)
    (ham : Nat → Arr) (hham : ∀ c ≤ n, qd.hamlst c 0 = some (ham c) ∧
      (ham c).dims = [(chargeRow qd.si c).length, (chargeRow qd.si c).length] ∧
      ∀ i j, i < (chargeRow qd.si c).length → j < (chargeRow qd.si c).length →
        (ham c).val [j, i] = starRingEnd ℂ ((ham c).val [i, j])) :
    ∃ vals vecs Ea P, qd.diagonalise eigh = .ok (vals, .charge vecs, Ea) ∧
      (∀ c ≤ n, ∃ m, vecs[c]? = some m ∧
        m.dims = [(chargeRow qd.si c).length, (chargeRow qd.si c).length]) ∧
      constructFullPmtr qd.si (.charge vecs) = .ok P ∧
      ∀ H, BlockDiag qd.si.nmany (List.range (n + 1)) (chargeRow qd.si) ham H →
        Diagonalises qd.si.nmany H P Ea := by
  have h := hr.inv
  have hex : ∀ c, ∃ p : List ℝ × Arr, c ≤ n → eigh (ham c) = .ok p ∧
      p.1.length = (chargeRow qd.si c).length ∧
      p.2.dims = [(chargeRow qd.si c).length, (chargeRow qd.si c).length] ∧
      (∀ i j, i < (chargeRow qd.si c).length → j < (chargeRow qd.si c).length →
        ∑ x ∈ Finset.range (chargeRow qd.si c).length, starRingEnd ℂ (p.2.val [x, i]) * p.2.val [x, j]
          = if i = j then 1 else 0) ∧
      ∀ (i j : Nat) (x : ℝ), i < (chargeRow qd.si c).length → p.1[j]? = some x →
        ∑ y ∈ Finset.range (chargeRow qd.si c).length, (ham c).val [i, y] * p.2.val [y, j]
          = p.2.val [i, j] * x := by
    intro c
    by_cases hc : c ≤ n
    · obtain ⟨-, h1, h2⟩ := hham c hc
      obtain ⟨w, v, e, r⟩ := heigh (ham c) _ h1 h2
      exact ⟨(w, v), fun _ => ⟨e, r⟩⟩
    · exact ⟨([], Arr.zeros []), fun h => absurd h hc⟩
  choose p hp using hex
  have hmem : ∀ c, c ∈ List.range (n + 1) ↔ c ≤ n := fun c => by rw [List.mem_range]; omega
  have hvecs : ∀ c ≤ n, ((List.range (n + 1)).map fun c => (p c).2)[c]? = some (p c).2 := by
    intro c hc
    rw [List.getElem?_map, List.getElem?_range (by omega)]
    rfl
  have hv : ∀ c ≤ n, ∃ m, ((List.range (n + 1)).map fun c => (p c).2)[c]? = some m ∧
      m.dims = [(chargeRow qd.si c).length, (chargeRow qd.si c).length] :=
    fun c hc => ⟨_, hvecs c hc, (hp c hc).2.2.1⟩
  have hgetv : ∀ c ≤ n, ((List.range (n + 1)).map fun c => (p c).2).getD c (Arr.zeros []) = (p c).2 :=
    fun c hc => (getElem?_pyGet (hvecs c hc)).2
  have hgetw : ∀ c ≤ n, pyGet ((List.range (n + 1)).map fun c => (p c).1) (c : Int) = .ok (p c).1 := by
    intro c hc
    refine (getElem?_pyGet (d := []) ?_).1
    rw [List.getElem?_map, List.getElem?_range (by omega)]
    rfl
  obtain ⟨P, eP, hP⟩ := pmtr_charge h hix hv
  have hs := h.charge_sectors (vec := fun c =>
    ((List.range (n + 1)).map fun c => (p c).2).getD c (Arr.zeros [])) (by
    intro c hc
    rw [hgetv c hc]
    exact (hp c hc).2.2.1)
  obtain ⟨Ea, eE, lE, vE, -⟩ := fillVals_fold (row := chargeRow qd.si) (w := fun c => (p c).1)
    (fun ea (c : Nat) => do
      let row ← pyGet qd.si.chargelst c
      let w ← pyGet ((List.range (n + 1)).map fun c => (p c).1) c
      fillVals row w ea) (List.range (n + 1)) (by
    intro c hc ea
    rw [(h.chargeRow_ok ((hmem c).1 hc)).1, hgetw c ((hmem c).1 hc)]
    rfl) hs.rows hs.lt (fun c hc => (hp c ((hmem c).1 hc)).2.1) List.nodup_range hs.disj
    (List.replicate qd.si.nmany 0) (List.length_replicate)
  refine ⟨Vals.charge ((List.range (n + 1)).map fun c => (p c).1), _, Ea, P, ?_, hv, eP, ?_⟩
  · have em : (List.range qd.si.ncharge).mapM (fun (c : Nat) => qd.eigenstates eigh c none 0)
        = .ok ((List.range (n + 1)).map p) := by
      rw [h.ncharge]
      refine mapM_ok ?_
      intro c hc
      have hc := (hmem c).1 hc
      unfold QD.eigenstates SI.getLst
      simp only [(h.chargeRow_ok hc).1, py_bind_ok, py_pure, (hham c hc).1]
      exact (hp c hc).1
    have eE' : constructEa qd.si (Vals.charge (((List.range (n + 1)).map p).map Prod.fst)) = .ok Ea := by
      rw [List.map_map]
      unfold constructEa
      rw [h.ncharge]
      rcases hix with hix | hix
      · simp only [hix]
        exact eE
      · simp only [hix]
        exact eE
    unfold QD.diagonalise
    rcases hix with hix | hix
    · simp only [hix, em, py_bind_ok, eE', py_pure]
      simp only [List.map_map]
      rfl
    · simp only [hix, em, py_bind_ok, eE', py_pure]
      simp only [List.map_map]
      rfl
  · intro H hH
    refine blocks_diagonalise hs hP hH (fun c => (p c).1) Ea lE vE ?_ ?_
    · intro c hc i j hi hj
      rw [hgetv c ((hmem c).1 hc)]
      exact (hp c ((hmem c).1 hc)).2.2.2.1 i j hi hj
    · intro c hc i j x hi hx
      rw [hgetv c ((hmem c).1 hc)]
      exact (hp c ((hmem c).1 hc)).2.2.2.2 i j x hi hx

/-- C54 for indexing by spin projection, after any removals. -/
theorem c54_sz {n : Nat} {qd : QD} (hr : ReachedSI n qd.si) (hix : qd.si.indexing = .sz)
    {eigh : Eigh} (heigh : EighOk eigh)
    (ham : Nat × Nat → Arr) (hham : ∀ c k, c ≤ n → k ≤ min c (n - c) →
      qd.hamlst c (k : Int) = some (ham (c, k)) ∧
      (ham (c, k)).dims = [(szCell qd.si (c, k)).length, (szCell qd.si (c, k)).length] ∧
      ∀ i j, i < (szCell qd.si (c, k)).length → j < (szCell qd.si (c, k)).length →
        (ham (c, k)).val [j, i] = starRingEnd ℂ ((ham (c, k)).val [i, j])) :
    ∃ vals vecs Ea P, qd.diagonalise eigh = .ok (vals, .sz vecs, Ea) ∧ SzVecs n qd.si vecs ∧
      constructFullPmtr qd.si (.sz vecs) = .ok P ∧
      ∀ H, BlockDiag qd.si.nmany (szSectors n) (szCell qd.si) ham H →
        Diagonalises qd.si.nmany H P Ea := by
  have h := hr.inv
  have hex : ∀ s : Nat × Nat, ∃ p : List ℝ × Arr, s.1 ≤ n → s.2 ≤ szW n s.1 → eigh (ham s) = .ok p ∧
      p.1.length = (szCell qd.si s).length ∧
      p.2.dims = [(szCell qd.si s).length, (szCell qd.si s).length] ∧
      (∀ i j, i < (szCell qd.si s).length → j < (szCell qd.si s).length →
        ∑ x ∈ Finset.range (szCell qd.si s).length, starRingEnd ℂ (p.2.val [x, i]) * p.2.val [x, j]
          = if i = j then 1 else 0) ∧
      ∀ (i j : Nat) (x : ℝ), i < (szCell qd.si s).length → p.1[j]? = some x →
        ∑ y ∈ Finset.range (szCell qd.si s).length, (ham s).val [i, y] * p.2.val [y, j]
          = p.2.val [i, j] * x := by
    intro s
    by_cases hc : s.1 ≤ n ∧ s.2 ≤ szW n s.1
    · obtain ⟨-, h1, h2⟩ := hham s.1 s.2 hc.1 hc.2
      obtain ⟨w, v, e, r⟩ := heigh (ham s) _ h1 h2
      exact ⟨(w, v), fun _ _ => ⟨e, r⟩⟩
    · exact ⟨([], Arr.zeros []), fun h1 h2 => absurd ⟨h1, h2⟩ hc⟩
  choose p hp using hex
  have look : ∀ {α : Type} (f : Nat × Nat → α) (c k : Nat), c ≤ n → k ≤ szW n c →
      ((List.range (n + 1)).map fun c => (List.range (szW n c + 1)).map fun k => f (c, k))[c]?
        = some ((List.range (szW n c + 1)).map fun k => f (c, k)) ∧
      ((List.range (szW n c + 1)).map fun k => f (c, k))[k]? = some (f (c, k)) := by
    intro α f c k hc hk
    constructor
    · rw [List.getElem?_map, List.getElem?_range (by omega)]
      rfl
    · rw [List.getElem?_map, List.getElem?_range (by omega)]
      rfl
  have hv : SzVecs n qd.si
      ((List.range (n + 1)).map fun c => (List.range (szW n c + 1)).map fun k => (p (c, k)).2) := by
    intro c k hc hk
    obtain ⟨h1, h2⟩ := look (fun s => (p s).2) c k hc hk
    exact ⟨_, _, h1, h2, (hp (c, k) hc hk).2.2.1⟩
  have hgetv : ∀ s ∈ szSectors n, szVec
      ((List.range (n + 1)).map fun c => (List.range (szW n c + 1)).map fun k => (p (c, k)).2) s
      = (p s).2 := by
    rintro ⟨c, k⟩ hck
    obtain ⟨hc, hk⟩ := mem_szSectors.1 hck
    obtain ⟨h1, h2⟩ := look (fun s => (p s).2) c k hc hk
    unfold szVec
    rw [(getElem?_pyGet h1).2, (getElem?_pyGet h2).2]
  obtain ⟨P, eP, hP⟩ := pmtr_sz h hix hv
  have hs := h.sz_sectors (vec := szVec
      ((List.range (n + 1)).map fun c => (List.range (szW n c + 1)).map fun k => (p (c, k)).2))
      (.inl hix) fun c k hc hk => (hv.at2 hc hk).2
  obtain ⟨Ea, eE, lE, vE, -⟩ := fillVals_fold (row := szCell qd.si) (w := fun s => (p s).1)
    (fun ea (s : Nat × Nat) => do
      let row ← qd.si.szRow s.1 (szToInd (-(szW n s.1 : Int) + 2 * s.2) s.1 n)
      let r ← pyGet ((List.range (n + 1)).map fun c =>
        (List.range (szW n c + 1)).map fun k => (p (c, k)).1) s.1
      let w ← pyGet r (szToInd (-(szW n s.1 : Int) + 2 * s.2) s.1 n)
      fillVals row w ea) (szSectors n) (by
    rintro ⟨c, k⟩ hck ea
    obtain ⟨hc, hk⟩ := mem_szSectors.1 hck
    dsimp only at hc hk ⊢
    obtain ⟨h1, h2⟩ := look (fun s => (p s).1) c k hc hk
    rw [szToInd_range n c k hc, (h.szCell_ok (.inl hix) hc hk).1, (getElem?_pyGet (d := []) h1).1]
    simp only [py_bind_ok]
    rw [(getElem?_pyGet (d := []) h2).1]
    rfl) hs.rows hs.lt (fun s hs => (hp s (mem_szSectors.1 hs).1 (mem_szSectors.1 hs).2).2.1)
    (szSectors_nodup n) hs.disj (List.replicate qd.si.nmany 0) (List.length_replicate)
  refine ⟨Vals.sz ((List.range (n + 1)).map fun c => (List.range (szW n c + 1)).map fun k => (p (c, k)).1),
    _, Ea, P, ?_, hv, eP, ?_⟩
  · have em : (List.range qd.si.ncharge).mapM (fun (c : Nat) =>
        (szrange c qd.si.nsingle).mapM fun sz =>
          qd.eigenstates eigh c (some sz) (szToInd sz c qd.si.nsingle))
        = .ok ((List.range (n + 1)).map fun c => (List.range (szW n c + 1)).map fun k => p (c, k)) := by
      rw [h.ncharge, h.nsingle]
      refine mapM_ok ?_
      intro c hc
      have hc : c ≤ n := by rw [List.mem_range] at hc; omega
      rw [szrange_eq n c hc]
      have e : ((List.range (szW n c + 1)).map fun k => p (c, k))
          = ((List.range (szW n c + 1)).map fun (k : Nat) => -(szW n c : Int) + 2 * k).map
            fun sz => p (c, (szToInd sz c n).toNat) := by
        rw [List.map_map]
        refine List.map_congr_left fun k _ => ?_
        rw [Function.comp_apply, szToInd_range n c k hc, Int.toNat_natCast]
      rw [e]
      refine mapM_ok ?_
      intro x hx
      obtain ⟨k, hk, rfl⟩ := List.mem_map.1 hx
      have hk : k ≤ szW n c := by rw [List.mem_range] at hk; omega
      rw [szToInd_range n c k hc, Int.toNat_natCast]
      obtain ⟨g1, g2, g3⟩ := hham c k hc hk
      obtain ⟨T, R, l, t1, t2, t3, -⟩ := h.sz_row (.inl hix) c k hc hk
      unfold QD.eigenstates SI.getLst
      simp only [t1, t2, py_bind_ok, h.nsingle, szToInd_range n c k hc, t3, py_pure, g1]
      exact (hp (c, k) hc hk).1
    have eE' : constructEa qd.si (Vals.sz (((List.range (n + 1)).map fun c =>
        (List.range (szW n c + 1)).map fun k => p (c, k)).map fun r => r.map Prod.fst)) = .ok Ea := by
      rw [List.map_map]
      simp only [Function.comp_def, List.map_map]
      unfold constructEa
      rw [h.ncharge, h.nsingle]
      simp only [hix]
      exact (foldlM_sz n (fun ea c sz => do
        let row ← qd.si.szRow c (szToInd sz c n)
        let r ← pyGet ((List.range (n + 1)).map fun c =>
          (List.range (szW n c + 1)).map fun k => (p (c, k)).1) c
        let w ← pyGet r (szToInd sz c n)
        fillVals row w ea) _).trans eE
    unfold QD.diagonalise
    simp only [hix, em, py_bind_ok, eE', py_pure]
    simp only [List.map_map, Function.comp_def]
  · intro H hH
    refine blocks_diagonalise hs hP hH (fun s => (p s).1) Ea lE vE ?_ ?_
    · intro s hs i j hi hj
      rw [hgetv s hs]
      exact (hp s (mem_szSectors.1 hs).1 (mem_szSectors.1 hs).2).2.2.2.1 i j hi hj
    · intro s hs i j x hi hx
      rw [hgetv s hs]
      exact (hp s (mem_szSectors.1 hs).1 (mem_szSectors.1 hs).2).2.2.2.2 i j x hi hx

theorem Diagonalises.congr {N : Nat} {H H' P : Arr} {Ea : List ℝ} (h : Diagonalises N H P Ea)
    (e : ∀ a b, a < N → b < N → H'.val [a, b] = H.val [a, b]) : Diagonalises N H' P Ea := by
  refine ⟨h.length, h.unitary, ?_⟩
  intro a b x ha hx
  rw [← h.eigen a b x ha hx]
  exact Finset.sum_congr rfl fun y hy => by rw [e a y ha (Finset.mem_range.1 hy)]

/-- The blocks of the Hamiltonian of a quantum dot with parameters. -/
theorem dot_ham {n : Nat} {si : SI} (hr : ReachedSI n si) (hc : Consistent n si)
    (hix : si.indexing = .Lin ∨ si.indexing = .charge)
    {nss : Option Nat} {mLessN hamSsqQ : Bool} {hs0 : Param (Nat × Nat)} {cs0 : CoulombArg} {qd0 qd : QD}
    (h0 : QD.init si nss true true mLessN hamSsqQ hs0 cs0 = .ok qd0)
    (calls : List DotCall) (hv : ∀ c ∈ calls, c.Valid) (hrun : qd0.run calls = .ok qd)
    (hs : List ((Fin n × Fin n) × ℂ)) (cs : List ((Fin n × Fin n × Fin n × Fin n) × ℂ))
    (hhs : qd.hsingle = hopKeys hs) (hcs : qd.coulomb = coulKeys cs)
    (hreal : ∀ e ∈ hs, e.1.1 = e.1.2 → star e.2 = e.2)
    (hU : ∀ m p k l U, ((m, p, k, l), U) ∈ cs → m = l → p = k → star U = U)
    (hkl : mLessN = true → ∀ m p k l U, ((m, p, k, l), U) ∈ cs → l > k → m = l ∧ p = k) :
    qd.si = si ∧ ∃ ham : Nat → Arr, ∀ c, c ≤ n → qd.hamlst c 0 = some (ham c) ∧
      (ham c).dims = [(chargeRow si c).length, (chargeRow si c).length] ∧
      (∀ i j, i < (chargeRow si c).length → j < (chargeRow si c).length →
        (ham c).val [j, i] = starRingEnd ℂ ((ham c).val [i, j])) ∧
      ∀ p q (hp : p < (chargeRow si c).length) (hq : q < (chargeRow si c).length) (s' s : Occ n),
        si.getState ((chargeRow si c)[p] : Nat) = .ok (ofOcc s') →
        si.getState ((chargeRow si c)[q] : Nat) = .ok (ofOcc s) →
        (ham c).val [p, q] = (hopOp true hs + coulOp true mLessN cs) s' s := by
  obtain ⟨i0, s1, s2, s3, s4, s5, s6⟩ := init_inv' h0
  obtain ⟨inv, t1, t2, t3, t4, t5, t6⟩ := run_inv i0 calls hv hrun
  have e1 := t1.trans s1
  have hinv := hr.inv
  have hrow : ∀ c ≤ n, ∀ l, si.getLst (some (c : Int)) none none = .ok (some l) → l = chargeRow si c := by
    intro c hcn l hl
    unfold SI.getLst at hl
    simp only [(hinv.chargeRow_ok hcn).1, py_bind_ok, py_pure] at hl
    exact (Option.some.inj (Except.ok.inj hl)).symm
  refine ⟨e1, ?_⟩
  have hex : ∀ c, ∃ M : Arr, c ≤ n → qd.hamlst c 0 = some M ∧
      M.dims = [(chargeRow si c).length, (chargeRow si c).length] ∧
      (∀ i j, i < (chargeRow si c).length → j < (chargeRow si c).length →
        M.val [j, i] = starRingEnd ℂ (M.val [i, j])) ∧
      ∀ p q (hp : p < (chargeRow si c).length) (hq : q < (chargeRow si c).length) (s' s : Occ n),
        si.getState ((chargeRow si c)[p] : Nat) = .ok (ofOcc s') →
        si.getState ((chargeRow si c)[q] : Nat) = .ok (ofOcc s) →
        M.val [p, q] = (hopOp true hs + coulOp true mLessN cs) s' s := by
    intro c
    by_cases hcn : c ≤ n
    swap
    · exact ⟨Arr.zeros [], fun h => absurd h hcn⟩
    obtain ⟨lst, M, h1, h2, h3, h4⟩ := c14_hermitian hc mLessN hs cs hreal hU hkl c hcn
    obtain ⟨lst', g1, g2⟩ := closed_charge hc c hcn
    cases (Option.some.inj (Except.ok.inj (h1.symm.trans g1)))
    obtain ⟨M1, k1, k2, k3⟩ := c11_list hc true mLessN cs SameCharge
      (fun m p k l _ s a b c d e f => count_coul m p k l s a b c d e f) lst g2 none (by simp)
    obtain ⟨M2, m1, m2, m3⟩ := c10_list hc true hs SameCharge
      (fun e _ s a b c => count_hop s a b c) lst g2 (some M1) (by rintro a ⟨⟩; exact k2)
    rw [k1, py_bind_ok, m1] at h2
    cases Except.ok.inj h2
    obtain ⟨ham, u1, u2⟩ := inv.blocks (c, none, 0) (by
      rw [e1, hamSectors, List.mem_flatMap]
      refine ⟨c, by rw [hinv.ncharge, List.mem_range]; omega, ?_⟩
      rcases hix with hix | hix <;> simp [hix])
    refine ⟨M, fun _ => ?_⟩
    have hham : ham = M := by
      unfold QD.hamBlock at u2
      simp only [e1, g1, t3.trans s3, t4.trans s4, t5.trans s5, hhs, hcs, py_bind_ok, k1, m1] at u2
      exact (Except.ok.inj u2).symm
    subst hham
    cases hrow c hcn lst g1
    refine ⟨u1, h3, ?_, ?_⟩
    · intro i j hi hj
      exact h4 j i hj hi
    · intro p q hp hq s' s hs' hs1
      rw [m3 p q hp hq s' s hs' hs1]
      simp only [Option.elim_some]
      rw [k3 p q hp hq s' s hs' hs1]
      simp only [Option.elim_none, zero_add, Matrix.add_apply]
      rw [add_comm]
  choose ham hham using hex
  exact ⟨ham, hham⟩

/-- C54 for a quantum dot with parameters: after any calls of `add` and `change`, `diagonalise`
computes the eigenvalues `Ea` and eigenvectors `P` of the second-quantised Hamiltonian of the
stored parameters. -/
theorem c54_dot {n : Nat} {si : SI} (hr : ReachedSI n si) (hc : Consistent n si)
    (hix : si.indexing = .Lin ∨ si.indexing = .charge) {eigh : Eigh} (heigh : EighOk eigh)
    {nss : Option Nat} {mLessN hamSsqQ : Bool} {hs0 : Param (Nat × Nat)} {cs0 : CoulombArg} {qd0 qd : QD}
    (h0 : QD.init si nss true true mLessN hamSsqQ hs0 cs0 = .ok qd0)
    (calls : List DotCall) (hv : ∀ c ∈ calls, c.Valid) (hrun : qd0.run calls = .ok qd)
    (hs : List ((Fin n × Fin n) × ℂ)) (cs : List ((Fin n × Fin n × Fin n × Fin n) × ℂ))
    (hhs : qd.hsingle = hopKeys hs) (hcs : qd.coulomb = coulKeys cs)
    (hreal : ∀ e ∈ hs, e.1.1 = e.1.2 → star e.2 = e.2)
    (hU : ∀ m p k l U, ((m, p, k, l), U) ∈ cs → m = l → p = k → star U = U)
    (hkl : mLessN = true → ∀ m p k l U, ((m, p, k, l), U) ∈ cs → l > k → m = l ∧ p = k) :
    ∃ vals vecs Ea P, qd.diagonalise eigh = .ok (vals, .charge vecs, Ea) ∧
      constructFullPmtr qd.si (.charge vecs) = .ok P ∧
      ∀ H : Arr, (∀ p q, p < si.nmany → q < si.nmany → ∀ s' s : Occ n,
          si.getState (p : Nat) = .ok (ofOcc s') → si.getState (q : Nat) = .ok (ofOcc s) →
          H.val [p, q] = (hopOp true hs + coulOp true mLessN cs) s' s) →
        Diagonalises si.nmany H P Ea := by
  have hinv := hr.inv
  obtain ⟨e1, ham, hham⟩ := dot_ham hr hc hix h0 calls hv hrun hs cs hhs hcs hreal hU hkl
  subst e1
  obtain ⟨vals, vecs, Ea, P, f1, f2, f3, f4⟩ := c54_charge hr hix heigh ham fun c hcn => by
    obtain ⟨r1, r2, r3, -⟩ := hham c hcn
    exact ⟨r1, r2, r3⟩
  refine ⟨vals, vecs, Ea, P, f1, f3, ?_⟩
  intro H hH
  refine (f4 (Arr.ofMat qd.si.nmany qd.si.nmany fun b a => if b < qd.si.nmany ∧ a < qd.si.nmany then
    H.val [b, a] else 0) ⟨Arr.ofMat_dims _ _ _, ?_, ?_⟩).congr ?_
  · intro c hcm i j hi hj
    have hcn : c ≤ n := by rw [List.mem_range] at hcm; omega
    obtain ⟨x1, -⟩ := ((hinv.chargeRow_ok hcn).2.2 _).1 (List.getElem_mem hi)
    obtain ⟨x2, -⟩ := ((hinv.chargeRow_ok hcn).2.2 _).1 (List.getElem_mem hj)
    rw [hinv.ilen] at x1 x2
    obtain ⟨s', hs', -⟩ := hc.state _ x1
    obtain ⟨s, hs1, -⟩ := hc.state _ x2
    show (if _ then _ else _) = _
    rw [if_pos ⟨x1, x2⟩, hH _ _ x1 x2 s' s hs' hs1, (hham c hcn).2.2.2 i j hi hj s' s hs' hs1]
  · intro b a hba
    show (if _ then _ else _) = _
    by_cases hin : b < qd.si.nmany ∧ a < qd.si.nmany
    · rw [if_pos hin]
      obtain ⟨s', hs', -⟩ := hc.state b hin.1
      obtain ⟨s, hs1, -⟩ := hc.state a hin.2
      rw [hH b a hin.1 hin.2 s' s hs' hs1]
      have hne : Occ.count s' ≠ Occ.count s := by
        intro he
        refine hba ⟨Occ.count s, ?_, ?_, ?_⟩
        · obtain ⟨x, y⟩ := hinv.state_charge hs1
          rw [ofOcc_sum] at y
          rw [List.mem_range, ← y]
          have := charge_le (hinv.ilt x)
          omega
        · obtain ⟨x, y⟩ := hinv.state_charge hs'
          rw [ofOcc_sum] at y
          exact ((hinv.chargeRow_ok (by rw [← he, ← y]; exact charge_le (hinv.ilt x))).2.2 b).2
            ⟨x, by rw [y, he]⟩
        · obtain ⟨x, y⟩ := hinv.state_charge hs1
          rw [ofOcc_sum] at y
          exact ((hinv.chargeRow_ok (by rw [← y]; exact charge_le (hinv.ilt x))).2.2 a).2 ⟨x, y⟩
      have h1 : hopOp true hs s' s = 0 := by
        by_contra h; exact hne (hopOp_count _ _ _ _ h)
      have h2 : coulOp true mLessN cs s' s = 0 := by
        by_contra h; exact hne (coulOp_count _ _ _ _ _ h)
      rw [Matrix.add_apply, h1, h2, add_zero]
    · rw [if_neg hin]
  · intro a b ha hb
    exact (if_pos ⟨ha, hb⟩).symm

/-! ### Concrete cases -/

/-- There are functions as assumed of `np.linalg.eigh`. -/
theorem exists_eigh : ∃ eigh, EighOk eigh := by
  classical
  have key : ∀ A : Arr, ∃ p : List ℝ × Arr, ∀ m, A.dims = [m, m] →
      (∀ i j, i < m → j < m → A.val [j, i] = starRingEnd ℂ (A.val [i, j])) →
      p.1.length = m ∧ p.2.dims = [m, m] ∧
      (∀ i j, i < m → j < m → ∑ x ∈ Finset.range m, starRingEnd ℂ (p.2.val [x, i]) * p.2.val [x, j]
        = if i = j then 1 else 0) ∧
      ∀ (i j : Nat) (x : ℝ), i < m → p.1[j]? = some x →
        ∑ y ∈ Finset.range m, A.val [i, y] * p.2.val [y, j] = p.2.val [i, j] * x := by
    intro A
    by_cases hA : ∃ m, A.dims = [m, m] ∧
      ∀ i j, i < m → j < m → A.val [j, i] = starRingEnd ℂ (A.val [i, j])
    swap
    · exact ⟨([], A), fun m h1 h2 => absurd ⟨m, h1, h2⟩ hA⟩
    obtain ⟨m, hd, hh⟩ := hA
    let B : Matrix (Fin m) (Fin m) ℂ := fun i j => A.val [i.val, j.val]
    have hB : B.IsHermitian := by
      ext i j
      rw [Matrix.conjTranspose_apply]
      exact (hh j i j.2 i.2).symm
    let U : Matrix (Fin m) (Fin m) ℂ := hB.eigenvectorUnitary
    have hU : star U * U = 1 := Unitary.coe_star_mul_self hB.eigenvectorUnitary
    have hBU : B * U = U * Matrix.diagonal fun i => (hB.eigenvalues i : ℂ) := by
      have := hB.spectral_theorem
      rw [Unitary.conjStarAlgAut_apply] at this
      have h2 : B * U = U * (Matrix.diagonal fun i => (hB.eigenvalues i : ℂ)) * (star U * U) := by
        rw [← Matrix.mul_assoc]
        exact congrArg (· * U) this
      rw [h2, hU, Matrix.mul_one]
    refine ⟨(List.ofFn hB.eigenvalues, Arr.ofMat m m fun i j =>
      if h : i < m ∧ j < m then U ⟨i, h.1⟩ ⟨j, h.2⟩ else 0), ?_⟩
    intro m' hd' _
    have e : m' = m := by
      rw [hd] at hd'
      simpa using hd'.symm
    subst e
    refine ⟨List.length_ofFn, Arr.ofMat_dims _ _ _, ?_, ?_⟩
    · intro i j hi hj
      have := congrFun (congrFun hU ⟨i, hi⟩) ⟨j, hj⟩
      rw [Matrix.mul_apply, Matrix.one_apply] at this
      rw [Finset.sum_range]
      refine (Finset.sum_congr rfl fun x _ => ?_).trans (this.trans ?_)
      · rw [Matrix.star_apply]
        show starRingEnd ℂ (dite _ _ _) * dite _ _ _ = _
        rw [dif_pos ⟨x.2, hi⟩, dif_pos ⟨x.2, hj⟩]
        rfl
      · simp
    · intro i j x hi hx
      obtain ⟨hj, hx⟩ := List.getElem?_eq_some_iff.1 hx
      rw [List.length_ofFn] at hj
      rw [List.getElem_ofFn] at hx
      have := congrFun (congrFun hBU ⟨i, hi⟩) ⟨j, hj⟩
      rw [Matrix.mul_apply, Matrix.mul_diagonal] at this
      rw [Finset.sum_range, ← hx]
      refine (Finset.sum_congr rfl fun y _ => ?_).trans (this.trans ?_)
      · show _ * dite _ _ _ = _
        rw [dif_pos ⟨y.2, hj⟩]
      · show _ = dite _ _ _ * _
        rw [dif_pos ⟨hi, hj⟩]
  choose f hf using key
  refine ⟨fun A => .ok (f A), ?_⟩
  intro A m hd hh
  exact ⟨(f A).1, (f A).2, rfl, hf A m hd hh⟩

/-- A case of `c54_dot` (and so of `c54_charge`): three orbitals with removed states, complex hopping,
and a later change. -/
example : ∃ (si : SI) (eigh : Eigh) (qd0 qd : QD), ReachedSI 3 si ∧ Consistent 3 si ∧
    (si.indexing = .Lin ∨ si.indexing = .charge) ∧ EighOk eigh ∧
    QD.init si none true true true true (.dict (hopKeys (n := 3) [((0, 1), Complex.I)]))
      (.dict (coulKeys (n := 3) [((0, 1, 1, 0), 2)])) = .ok qd0 ∧
    qd0.run [.add (.dict (hopKeys (n := 3) [((0, 0), 1)])) (.dict [])] = .ok qd ∧
    qd.hsingle = hopKeys (n := 3) [((0, 1), Complex.I), ((0, 0), 1)] ∧
    qd.coulomb = coulKeys (n := 3) [((0, 1, 1, 0), 2)] := by
  obtain ⟨si, h1, h2⟩ := run_consistent 3 (by decide) "charge" [[1, -1], [2]] (by decide) (Or.inl rfl)
  have hr : ReachedSI 3 si := ⟨_, _, h1, by decide, .inl rfl⟩
  obtain ⟨eigh, he⟩ := exists_eigh
  have hix : si.indexing = .charge := by
    have h3 : (SI.run 3 "charge" [[1, -1], [2]] >>= fun si => pure si.indexing) = .ok .charge := by
      decide +kernel
    rw [h1] at h3
    exact Except.ok.inj h3
  obtain ⟨qd0, qd, g1, g2⟩ := c13_dot_succeeds h2 (.inr hix) hr.inv.ncharge true true true true
    (hs := hopKeys (n := 3) [((0, 1), Complex.I)]) (cs := coulKeys (n := 3) [((0, 1, 1, 0), 2)])
    (by simp [HsInRange, hopKeys]) (by simp [CsInRange, coulKeys])
    [.add (.dict (hopKeys (n := 3) [((0, 0), 1)])) (.dict [])]
    (by simp [DotCall.Valid, Param.Valid, CoulombArg.Valid, hopKeys])
    (by simp [DotCall.InRange, HsInRange, CsInRange, hopKeys]; omega)
  refine ⟨si, eigh, qd0, qd, hr, h2, .inr hix, he, g1, g2, ?_⟩
  obtain ⟨-, s1, s2, s3, s4, s5, s6⟩ := init_inv' g1
  obtain ⟨p1, p2⟩ := addHam_params g1
  have g3 : qd0.add (.dict (hopKeys (n := 3) [((0, 0), 1)])) (.dict []) = .ok qd := by
    have g2' := g2
    unfold QD.run at g2'
    rw [List.foldlM_cons] at g2'
    obtain ⟨q, q1, q2⟩ := bind_iff.1 g2'
    cases Except.ok.inj q2
    exact q1
  obtain ⟨p3, p4⟩ := addHam_params g3
  rw [p3, p4]
  simp only [s2, p1, p2]
  constructor <;> rfl

/-- A case of `c54_sz`: two orbitals with spin. -/
example : ∃ (qd : QD) (eigh : Eigh), ReachedSI 2 qd.si ∧ qd.si.indexing = .sz ∧ EighOk eigh ∧
    ∀ c k, c ≤ 2 → k ≤ min c (2 - c) →
      qd.hamlst c (k : Int) = some (Arr.eye (szCell qd.si (c, k)).length) ∧
      (Arr.eye (szCell qd.si (c, k)).length).dims
        = [(szCell qd.si (c, k)).length, (szCell qd.si (c, k)).length] ∧
      ∀ i j, i < (szCell qd.si (c, k)).length → j < (szCell qd.si (c, k)).length →
        (Arr.eye (szCell qd.si (c, k)).length).val [j, i]
          = starRingEnd ℂ ((Arr.eye (szCell qd.si (c, k)).length).val [i, j]) := by
  obtain ⟨si, hr, hix, -⟩ := two_orbitals_sz
  obtain ⟨eigh, he⟩ := exists_eigh
  refine ⟨⟨si, none, true, true, true, true, [], [], fun c k =>
    some (Arr.eye (szCell si (c, k.toNat)).length)⟩, eigh, hr, hix, he, ?_⟩
  intro c k _ _
  refine ⟨by simp, Arr.ofMat_dims _ _ _, ?_⟩
  intro i j _ _
  show (if j = i then (1 : ℂ) else 0) = starRingEnd ℂ (if i = j then 1 else 0)
  by_cases h : i = j
  · rw [if_pos h, if_pos h.symm, map_one]
  · rw [if_neg h, if_neg (fun e => h e.symm), map_zero]

end Verif
