import Verif.Lemmas.QN

/-! Reachable `StateIndexing` objects: canonical form of all tables. -/

namespace Verif

/-- States kept, from the `removed_fock_states` array. -/
def keepOf (r : Option (List Bool)) (x : Nat) : Bool :=
  match r with
  | none => true
  | some r => !(r.getD x false)

@[simp] theorem keepOf_none : keepOf none = fun _ => true := rfl

/-- `j` is the inverse of `i` and `None` on removed states. -/
structure JOk (N : Nat) (p : Nat → Bool) (i : List Nat) (j : List (Option Nat)) : Prop where
  len : j.length = N
  inv : ∀ k (h : k < i.length), j[i[k]]? = some (some k)
  none : ∀ x, x < N → p x = false → j[x]? = some Option.none

/-- Everything known about a reachable indexing object. -/
structure SIInv (n : Nat) (si : SI) : Prop where
  nsingle : si.nsingle = n
  ncharge : si.ncharge = n + 1
  nmany_ : si.nmany_ = 2 ^ n
  nmany : si.nmany = ((List.range (2 ^ n)).filter (keepOf si.removed)).length
  removed : ∀ r, si.removed = some r → r.length = 2 ^ n
  j : JOk (2 ^ n) (keepOf si.removed) si.i si.j
  lin : si.indexing = .Lin →
    (si.removed = none ∧ si.i = List.range (2 ^ n) ∧ si.chargelst = chL n fun _ => true) ∨
    (si.removed ≠ none ∧ si.i = (chL n (keepOf si.removed)).flatten ∧
      si.chargelst = enumChargelst (chL n (keepOf si.removed)))
  ch : si.indexing = .charge →
    si.chargelstLin = chL n (keepOf si.removed) ∧
    si.i = (chL n (keepOf si.removed)).flatten ∧
      si.chargelst = enumChargelst (chL n (keepOf si.removed))
  sz : si.indexing = .sz ∨ si.indexing = .ssq →
    n % 2 = 0 ∧ si.chargelstLin = chL n (keepOf si.removed) ∧
    si.szlstLin = some (szL n (keepOf si.removed)) ∧
    si.i = (szL n (keepOf si.removed)).flatten.flatten ∧
    si.szlst = some (enumSzlst (szL n (keepOf si.removed))) ∧
    si.chargelst = enumChargelst (chL n (keepOf si.removed))
  ssqrem : si.indexing = .ssq → si.removed = none
  noSz : si.indexing = .Lin ∨ si.indexing = .charge → si.szlst = none
  qn : makeQuantumNumbers si.indexing (n + 1) n si.chargelst si.szlst si.ssqlst
    = .ok (si.qnInd, si.indQn)
  ssql : si.indexing = .ssq → ∃ szl l, si.szlst = some szl ∧ constructSsqlst szl n = .ok l ∧
    si.ssqlst = some l
  noSsq : si.indexing ≠ .ssq → si.ssqlst = none

/-! ### Removal loops -/

theorem filterRemoved_spec (N : Nat) (p : Nat → Bool) (r : List Bool) (hrl : r.length = N)
    (hr : ∀ x, x < N → r[x]? = some (!p x)) (lst : List Nat) (hl : ∀ x ∈ lst, x < N)
    (j : List (Option Nat)) (hj : j.length = N) :
    ∃ j', filterRemoved r lst j = .ok (lst.filter p, j') ∧ j'.length = N ∧
      (∀ x ∈ lst, p x = false → j'[x]? = some none) ∧
      (∀ x : Nat, j[x]? = some none → j'[x]? = some none) := by
  unfold filterRemoved
  have : ∀ (lst : List Nat) (hl : ∀ x ∈ lst, x < N) (acc : List Nat) (j : List (Option Nat))
      (hj : j.length = N), ∃ j',
      lst.foldlM (fun (st : List Nat × List (Option Nat)) j1 => do
        let rr ← pyGet r (j1 : Nat)
        if rr then (do
          let j' ← pySet st.2 (j1 : Nat) none
          pure (st.1, j'))
        else pure (st.1 ++ [j1], st.2)) (acc, j) = .ok (acc ++ lst.filter p, j') ∧
      j'.length = N ∧ (∀ x ∈ lst, p x = false → j'[x]? = some none) ∧
      (∀ x : Nat, j[x]? = some none → j'[x]? = some none) := by
    intro lst
    induction lst with
    | nil => intro _ acc j hj; exact ⟨j, by simp, hj, by simp, by simp⟩
    | cons a lst ih =>
      intro hl acc j hj
      have ha := hl a (by simp)
      have hra := hr a ha
      rw [List.foldlM_cons, pyGet_nat r (by omega)]
      have e : r[a] = !p a := by
        rw [List.getElem?_eq_getElem (by omega)] at hra; simpa using hra
      cases hp : p a with
      | true =>
        obtain ⟨j', h1, h2, h3, h4⟩ := ih (fun x hx => hl x (by simp [hx])) (acc ++ [a]) j hj
        refine ⟨j', ?_, h2, ?_, h4⟩
        · simp only [py_bind_ok, e, hp, py_pure]
          simp only [py_pure] at h1
          simp [h1, hp]
        · intro x hx hpx
          rcases List.mem_cons.1 hx with rfl | hx
          · rw [hp] at hpx; cases hpx
          · exact h3 x hx hpx
      | false =>
        obtain ⟨j', h1, h2, h3, h4⟩ := ih (fun x hx => hl x (by simp [hx])) acc (j.set a none)
          (by simpa using hj)
        refine ⟨j', ?_, h2, ?_, ?_⟩
        · simp only [py_bind_ok, e, hp, py_pure, pySet_nat j none (show a < j.length by omega)]
          simp only [py_pure] at h1
          simp [h1, hp]
        · intro x hx hpx
          rcases List.mem_cons.1 hx with rfl | hx
          · exact h4 x (by simp [List.getElem?_set, hj, ha])
          · exact h3 x hx hpx
        · intro x hx
          apply h4
          rw [List.getElem?_set]
          split
          · rename_i h; subst h; simp [hj, ha]
          · exact hx
  obtain ⟨j', h1, h⟩ := this lst hl [] j hj
  exact ⟨j', by simpa using h1, h⟩

/-- What a removal loop over rows achieves for `j`. -/
def NoneOn (N : Nat) (S : Nat → Prop) (p : Nat → Bool) (j j' : List (Option Nat)) : Prop :=
  j'.length = N ∧ (∀ x : Nat, S x → p x = false → j'[x]? = some none) ∧
    (∀ x : Nat, j[x]? = some none → j'[x]? = some none)

theorem removeLoop_spec (N m : Nat) (p : Nat → Bool) (r : List Bool) (hrl : r.length = N)
    (hr : ∀ x, x < N → r[x]? = some (!p x)) (G : Nat → List Nat)
    (hG : ∀ c, c < m → ∀ x ∈ G c, x < N) (j : List (Option Nat)) (hj : j.length = N) :
    ∃ j', (List.range m).foldlM
      (fun (st : List (List Nat) × List (Option Nat)) (charge : Nat) => do
        let lst ← pyGet st.1 (charge : Nat)
        let r ← filterRemoved r lst st.2
        let l ← pySet st.1 (charge : Nat) r.1
        pure (l, r.2)) ((List.range m).map G, j)
      = .ok ((List.range m).map fun c => (G c).filter p, j') ∧
      NoneOn N (fun x => ∃ c, c < m ∧ x ∈ G c) p j j' := by
  have key : ∀ t, t ≤ m → ∃ j', (List.range t).foldlM
      (fun (st : List (List Nat) × List (Option Nat)) (charge : Nat) => do
        let lst ← pyGet st.1 (charge : Nat)
        let r ← filterRemoved r lst st.2
        let l ← pySet st.1 (charge : Nat) r.1
        pure (l, r.2)) ((List.range m).map G, j)
      = .ok ((List.range m).map fun c => if c < t then (G c).filter p else G c, j') ∧
      NoneOn N (fun x => ∃ c, c < t ∧ x ∈ G c) p j j' := by
    intro t
    induction t with
    | zero => intro _; exact ⟨j, by simp, hj, by simp, by simp⟩
    | succ t ih =>
      intro ht
      obtain ⟨j', h1, h2, h3, h4⟩ := ih (by omega)
      obtain ⟨j'', g1, g2, g3, g4⟩ := filterRemoved_spec N p r hrl hr (G t) (hG t (by omega)) j' h2
      refine ⟨j'', ?_, g2, ?_, fun x hx => g4 x (h4 x hx)⟩
      · rw [List.range_succ (n := t), List.foldlM_append, h1]
        simp only [py_bind_ok, List.foldlM_cons, List.foldlM_nil]
        rw [pyGet_map_range m t _ (by omega)]
        simp only [py_bind_ok, Nat.lt_irrefl, if_false, g1]
        rw [pySet_nat _ _ (by simp; omega), set_map_range]
        simp only [py_bind_ok, py_pure]
        congr 2
        apply List.map_congr_left
        intro c _
        by_cases hct : c = t
        · subst hct; simp
        · have : c < t + 1 ↔ c < t := by omega
          simp [hct, this]
      · rintro x ⟨c, hc, hx⟩ hp
        by_cases hct : c = t
        · subst hct; exact g3 x hx hp
        · exact g4 x (h3 x ⟨c, by omega, hx⟩ hp)
  obtain ⟨j', h1, h2⟩ := key m (le_refl _)
  refine ⟨j', ?_, h2⟩
  rw [h1]
  congr 2
  apply List.map_congr_left
  intro c hc
  simp at hc
  simp [hc]

theorem removeLoop2_inner (N n c : Nat) (hc : c ≤ n) (p : Nat → Bool) (r : List Bool)
    (hrl : r.length = N)
    (hr : ∀ x, x < N → r[x]? = some (!p x)) (G : Nat → List Nat)
    (hG : ∀ k, k < szW n c + 1 → ∀ x ∈ G k, x < N) (j : List (Option Nat)) (hj : j.length = N) :
    ∃ j', (szrange c n).foldlM
      (fun (st3 : List (List Nat) × List (Option Nat)) sz => do
        let lst ← pyGet ((List.range (szW n c + 1)).map G) (szToInd sz c n)
        let r ← filterRemoved r lst st3.2
        pure (st3.1 ++ [r.1], r.2)) ([], j)
      = .ok ((List.range (szW n c + 1)).map fun k => (G k).filter p, j') ∧
      NoneOn N (fun x => ∃ k, k < szW n c + 1 ∧ x ∈ G k) p j j' := by
  rw [szrange_eq n c hc, List.foldlM_map]
  simp only [szToInd_range n c _ hc]
  have key : ∀ t, t ≤ szW n c + 1 → ∃ j', (List.range t).foldlM
      (fun (st3 : List (List Nat) × List (Option Nat)) (k : Nat) => do
        let lst ← pyGet ((List.range (szW n c + 1)).map G) (k : Nat)
        let r ← filterRemoved r lst st3.2
        pure (st3.1 ++ [r.1], r.2)) ([], j)
      = .ok ((List.range t).map fun k => (G k).filter p, j') ∧
      NoneOn N (fun x => ∃ k, k < t ∧ x ∈ G k) p j j' := by
    intro t
    induction t with
    | zero => intro _; exact ⟨j, by simp, hj, by simp, by simp⟩
    | succ t ih =>
      intro ht
      obtain ⟨j', h1, h2, h3, h4⟩ := ih (by omega)
      obtain ⟨j'', g1, g2, g3, g4⟩ := filterRemoved_spec N p r hrl hr (G t) (hG t (by omega)) j' h2
      refine ⟨j'', ?_, g2, ?_, fun x hx => g4 x (h4 x hx)⟩
      · rw [List.range_succ (n := t), List.foldlM_append, h1]
        simp only [py_bind_ok, List.foldlM_cons, List.foldlM_nil]
        rw [pyGet_map_range (szW n c + 1) t _ (by omega)]
        simp only [py_bind_ok, g1, py_pure]
        simp
      · rintro x ⟨k, hk, hx⟩ hp
        by_cases hct : k = t
        · subst hct; exact g3 x hx hp
        · exact g4 x (h3 x ⟨k, by omega, hx⟩ hp)
  exact key _ (le_refl _)

theorem removeLoop2_spec (N n : Nat) (p : Nat → Bool) (r : List Bool) (hrl : r.length = N)
    (hr : ∀ x, x < N → r[x]? = some (!p x)) (G : Nat → Nat → List Nat)
    (hG : ∀ c k, ∀ x ∈ G c k, x < N) (j : List (Option Nat)) (hj : j.length = N) :
    ∃ j', (List.range (n + 1)).foldlM
      (fun (st : List (List (List Nat)) × List (Option Nat)) (charge : Nat) => do
        let crow ← pyGet st.1 (charge : Nat)
        let r ← (szrange charge n).foldlM
          (fun (st3 : List (List Nat) × List (Option Nat)) sz => do
            let lst ← pyGet crow (szToInd sz charge n)
            let r ← filterRemoved r lst st3.2
            pure (st3.1 ++ [r.1], r.2))
          ([], st.2)
        let l ← pySet st.1 (charge : Nat) r.1
        pure (l, r.2)) ((List.range (n + 1)).map fun c => (List.range (szW n c + 1)).map (G c), j)
      = .ok ((List.range (n + 1)).map fun c =>
          (List.range (szW n c + 1)).map fun k => (G c k).filter p, j') ∧
      j'.length = N ∧ (∀ x : Nat, j[x]? = some none → j'[x]? = some none) := by
  have key : ∀ t, t ≤ n + 1 → ∃ j', (List.range t).foldlM
      (fun (st : List (List (List Nat)) × List (Option Nat)) (charge : Nat) => do
        let crow ← pyGet st.1 (charge : Nat)
        let r ← (szrange charge n).foldlM
          (fun (st3 : List (List Nat) × List (Option Nat)) sz => do
            let lst ← pyGet crow (szToInd sz charge n)
            let r ← filterRemoved r lst st3.2
            pure (st3.1 ++ [r.1], r.2))
          ([], st.2)
        let l ← pySet st.1 (charge : Nat) r.1
        pure (l, r.2)) ((List.range (n + 1)).map fun c => (List.range (szW n c + 1)).map (G c), j)
      = .ok ((List.range (n + 1)).map fun c =>
          (List.range (szW n c + 1)).map fun k => if c < t then (G c k).filter p else G c k, j') ∧
      j'.length = N ∧ (∀ x : Nat, j[x]? = some none → j'[x]? = some none) := by
    intro t
    induction t with
    | zero => intro _; exact ⟨j, by simp, hj, by simp⟩
    | succ t ih =>
      intro ht
      obtain ⟨j', h1, h2, h4⟩ := ih (by omega)
      obtain ⟨j'', g1, g2, g3, g4⟩ := removeLoop2_inner N n t (by omega) p r hrl hr (G t)
        (fun k _ => hG t k) j' h2
      refine ⟨j'', ?_, g2, fun x hx => g4 x (h4 x hx)⟩
      rw [List.range_succ (n := t), List.foldlM_append, h1]
      simp only [py_bind_ok, List.foldlM_cons, List.foldlM_nil]
      rw [pyGet_map_range (n + 1) t _ (by omega)]
      simp only [py_bind_ok, Nat.lt_irrefl, if_false, py_pure]
      simp only [py_pure] at g1
      rw [g1]
      simp only [py_bind_ok]
      rw [pySet_nat _ _ (by simp; omega), set_map_range]
      simp only [py_bind_ok]
      congr 2
      apply List.map_congr_left
      intro c _
      by_cases hct : c = t
      · subst hct; simp
      · have : c < t + 1 ↔ c < t := by omega
        simp [hct, this]
  obtain ⟨j', h1, h2⟩ := key (n + 1) (le_refl _)
  refine ⟨j', ?_, h2⟩
  rw [h1]
  congr 2
  apply List.map_congr_left
  intro c hc
  apply List.map_congr_left
  intro k _
  simp at hc
  simp [hc]

/-! ### The removed array -/

/-- Python's reading of a possibly negative index into an array of length `N`. -/
def pyNorm (N : Nat) (i : Int) : Nat := (if 0 ≤ i then i else i + N).toNat

theorem pyIdx_norm (N : Nat) (i : Int) (h : -(N : Int) ≤ i ∧ i < N) :
    pyIdx N i = .ok (pyNorm N i) ∧ pyNorm N i < N := by
  unfold pyIdx pyNorm
  split
  · rw [if_pos (by omega)]; exact ⟨rfl, by omega⟩
  · rw [if_pos (by omega)]
    constructor
    · congr 1
    · omega

theorem pyIdx_err (N : Nat) (i : Int) (h : ¬(-(N : Int) ≤ i ∧ i < N)) :
    pyIdx N i = .error .index := by
  unfold pyIdx
  split
  · rw [if_neg (by omega)]
  · rw [if_neg (by omega)]

theorem markRemoved_spec (N : Nat) (inds : List Int)
    (h : ∀ i ∈ inds, -(N : Int) ≤ i ∧ i < N) (r : List Bool) (hr : r.length = N) :
    ∃ r', inds.foldlM (fun r ind => pySet r ind true) r = .ok r' ∧ r'.length = N ∧
      ∀ x, x < N → (r'.getD x false = true ↔ r.getD x false = true ∨ x ∈ inds.map (pyNorm N)) := by
  induction inds generalizing r with
  | nil => exact ⟨r, by simp, hr, by simp⟩
  | cons i inds ih =>
    obtain ⟨h1, h2⟩ := pyIdx_norm N i (h i (by simp))
    obtain ⟨r', g1, g2, g3⟩ := ih (fun i hi => h i (by simp [hi])) (r.set (pyNorm N i) true)
      (by simpa using hr)
    refine ⟨r', ?_, g2, ?_⟩
    · rw [List.foldlM_cons]
      unfold pySet at g1 ⊢
      rw [hr, h1]
      exact g1
    · intro x hx
      rw [g3 x hx]
      simp only [List.getD_eq_getElem?_getD, List.getElem?_set, List.map_cons, List.mem_cons]
      by_cases hxi : pyNorm N i = x
      · subst hxi; simp [hr, h2]
      · simp [hxi, Ne.symm hxi]

theorem markRemoved_err (N : Nat) (inds : List Int)
    (h : ¬ ∀ i ∈ inds, -(N : Int) ≤ i ∧ i < N) (r : List Bool) (hr : r.length = N) :
    inds.foldlM (fun r ind => pySet r ind true) r = .error .index := by
  induction inds generalizing r with
  | nil => simp at h
  | cons i inds ih =>
    rw [List.foldlM_cons]
    by_cases hi : -(N : Int) ≤ i ∧ i < N
    · obtain ⟨h1, h2⟩ := pyIdx_norm N i hi
      unfold pySet at ih ⊢
      rw [hr, h1]
      simp only [py_bind_ok]
      apply ih
      · intro hh
        apply h
        intro i' hi'
        rcases List.mem_cons.1 hi' with rfl | hi'
        · exact hi
        · exact hh i' hi'
      · simpa using hr
    · unfold pySet
      rw [hr, pyIdx_err N i hi]; rfl

theorem count_keep (r : List Bool) :
    r.count true + ((List.range r.length).filter fun x => !(r.getD x false)).length = r.length := by
  induction r using List.reverseRecOn with
  | nil => rfl
  | append_singleton r a ih =>
    rw [List.length_append, List.length_singleton, List.range_succ, List.filter_append,
      List.count_append, List.length_append]
    have : ((List.range r.length).filter fun x => !((r ++ [a]).getD x false))
        = (List.range r.length).filter fun x => !(r.getD x false) := by
      apply List.filter_congr
      intro x hx
      simp at hx
      simp [List.getD_eq_getElem?_getD, List.getElem?_append_left hx]
    rw [this]
    have h2 : (r ++ [a]).getD r.length false = a := by simp
    cases a <;> simp at ih ⊢ <;> omega

end Verif
