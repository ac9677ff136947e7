import Verif.Lemmas.SIInv

/-! Quantum-number dictionaries of reachable indexing objects, and the total-spin table. -/

namespace Verif

theorem chargeBlocks_ok (cl : List (List Nat)) (h : cl.flatten.Nodup) :
    QnOk (chargeBlocks cl) (insEntries ([], []) (qnEntries (chargeBlocks cl))).1
      (insEntries ([], []) (qnEntries (chargeBlocks cl))).2 := by
  apply qnOk_of_blocks
  · unfold chargeBlocks
    have : (cl.zipIdx.map fun p => (([(p.2 : Int)] : QN), p.1)).map Prod.fst
        = (List.range cl.length).map fun (k : Nat) => [(k : Int)] := by
      apply List.ext_getElem
      · simp
      · intro i h1 h2; simp
    rw [this]
    apply List.Nodup.map _ List.nodup_range
    intro a b hab
    simp at hab; exact_mod_cast hab
  · unfold chargeBlocks
    have : (cl.zipIdx.map fun p => (([(p.2 : Int)] : QN), p.1)).map Prod.snd = cl := by
      simp [Function.comp_def]
    rw [this]; exact h

theorem zipIdx_map_eq {α β : Type} (l : List α) (f : α → Nat → β) :
    (l.zipIdx.map fun p => f p.1 p.2)
      = (List.range l.length).pmap (fun i (h : i < l.length) => f l[i] i)
        (by intro i hi; simpa using hi) := by
  apply List.ext_getElem
  · simp
  · intro i h1 h2; simp

theorem szBlocks_ok (n : Nat) (T : List (List (List Nat))) (h : T.flatten.flatten.Nodup) :
    QnOk (szBlocks n T) (insEntries ([], []) (qnEntries (szBlocks n T))).1
      (insEntries ([], []) (qnEntries (szBlocks n T))).2 := by
  apply qnOk_of_blocks
  · unfold szBlocks
    rw [List.map_flatMap, List.nodup_flatMap]
    constructor
    · rintro ⟨row, c⟩ _
      have : ((row.zipIdx.map fun p =>
          (([(c : Int), -(szW n c : Int) + 2 * (p.2 : Int)] : QN), p.1)).map Prod.fst)
          = (List.range row.length).map fun (k : Nat) =>
            [(c : Int), -(szW n c : Int) + 2 * (k : Int)] := by
        apply List.ext_getElem
        · simp
        · intro i h1 h2; simp
      simp only
      rw [this]
      apply List.Nodup.map _ List.nodup_range
      intro a b hab
      simp at hab; omega
    · have hp : (T.zipIdx).Pairwise fun a b => a.2 ≠ b.2 := by
        rw [← List.pairwise_map (f := Prod.snd) (R := (· ≠ ·))]
        simp only [List.zipIdx_map_snd]
        exact List.nodup_range'
      refine hp.imp ?_
      rintro ⟨r1, c1⟩ ⟨r2, c2⟩ hne x hx hy
      simp only [List.mem_map] at hx hy
      obtain ⟨_, ⟨p, _, rfl⟩, rfl⟩ := hx
      obtain ⟨_, ⟨p', _, rfl⟩, he⟩ := hy
      simp at he
      exact hne (by exact_mod_cast he.1.symm)
  · unfold szBlocks
    rw [List.map_flatMap]
    have : (fun a : List (List Nat) × Nat => List.map Prod.snd
        (a.1.zipIdx.map fun p => (([(a.2 : Int), -(szW n a.2 : Int) + 2 * (p.2 : Int)] : QN), p.1)))
        = fun a => a.1 := by
      funext a
      simp [Function.comp_def]
    simp only [this]
    have e : T.zipIdx.flatMap (fun a => a.1) = T.flatten := by
      rw [List.flatMap_def]; simp
    rw [e]; exact h

/-- Start of the cell `(c, k)` in the enumeration of the `sz` table. -/
def szStart (n c k : Nat) : Nat :=
  pre (fun c => pre (szLen n c) (szW n c + 1)) c + pre (szLen n c) k

theorem enumSzlst_closed (n : Nat) (hn : n % 2 = 0) :
    enumSzlst (szL n fun _ => true) = (List.range (n + 1)).map fun c =>
      (List.range (szW n c + 1)).map fun k => List.range' (szStart n c k) (szLen n c k) := by
  rw [enumSzlst_eq]
  unfold szL
  rw [enumFrom2_map_range]
  apply List.map_congr_left
  intro c hc
  have hc' : c ≤ n := by simp at hc; omega
  rw [enumFrom_map_range]
  apply List.map_congr_left
  intro k hk
  have hk' : k ≤ szW n c := by simp at hk; omega
  simp only [Bool.true_and, Nat.zero_add]
  have hl : ∀ c k, c ≤ n → k ≤ szW n c → ((List.range (2 ^ n)).filter fun x =>
      decide (charge n x = c ∧ szPos n x = k)).length = szLen n c k :=
    fun c k => szL_cell_length n c k hn
  rw [hl c k hc' hk']
  congr 1
  unfold szStart
  congr 1
  · apply pre_congr
    intro c1 hc1
    rw [totLen_map_range]
    apply pre_congr
    intro k1 hk1
    exact hl c1 k1 (by omega) (by omega)
  · apply pre_congr
    intro k1 hk1
    exact hl c k1 hc' (by omega)

/-- A cell of the total-spin table. -/
def ssqCell (n c k q : Nat) : List Nat :=
  List.range' (szStart n c k + pre (ssqM n c k) q) (ssqM n c k q)

theorem ssqTable_eq (n : Nat) (hn : n % 2 = 0) : ssqTable n = (List.range (n + 1)).map fun c =>
    (List.range (szW n c + 1)).map fun k => (List.range (ssqE n c k + 1)).map fun q =>
      ssqCell n c k q := by
  unfold ssqTable
  apply List.map_congr_left
  intro c hc
  have hc' : c ≤ n := by simp at hc; omega
  apply List.map_congr_left
  intro k hk
  have hk' : k ≤ szW n c := by simp at hk; omega
  apply List.map_congr_left
  intro q _
  unfold ssqCell szStart
  congr 2
  congr 1
  · apply pre_congr
    intro c1 hc1
    apply pre_congr
    intro k1 hk1
    exact ssqM_sum n c1 k1 hn (by omega) (by omega)
  · apply pre_congr
    intro k1 hk1
    exact ssqM_sum n c k1 hn hc' (by omega)

theorem ssqCell_flatten (n c k : Nat) (hn : n % 2 = 0) (hc : c ≤ n) (hk : k ≤ szW n c) :
    ((List.range (ssqE n c k + 1)).map fun q => ssqCell n c k q).flatten
      = List.range' (szStart n c k) (szLen n c k) := by
  unfold ssqCell
  rw [flatten_range', show ssqE n c k = min k (szW n c - k) from rfl, ssqM_sum n c k hn hc hk]

theorem ssqBlocks_flatten (n : Nat) (hn : n % 2 = 0) :
    ((ssqBlocks n (ssqCell n)).map Prod.snd).flatten
      = (enumSzlst (szL n fun _ => true)).flatten.flatten := by
  rw [enumSzlst_closed n hn]
  unfold ssqBlocks
  simp only [List.map_flatMap, List.map_map]
  simp only [List.flatMap_def]
  rw [List.flatten_flatten, List.map_map, List.flatten_flatten, List.map_map]
  congr 1
  apply List.map_congr_left
  intro c hc
  have hc' : c ≤ n := by simp at hc; omega
  simp only [Function.comp]
  rw [List.flatten_flatten, List.map_map]
  congr 1
  apply List.map_congr_left
  intro k hk
  have hk' : k ≤ szW n c := by simp at hk; omega
  simp only [Function.comp]
  exact ssqCell_flatten n c k hn hc' hk'

theorem ssqBlocks_ok (n : Nat) (hn : n % 2 = 0) :
    QnOk (ssqBlocks n (ssqCell n)) (insEntries ([], []) (qnEntries (ssqBlocks n (ssqCell n)))).1
      (insEntries ([], []) (qnEntries (ssqBlocks n (ssqCell n)))).2 := by
  apply qnOk_of_blocks
  · unfold ssqBlocks
    rw [List.map_flatMap, List.nodup_flatMap]
    constructor
    · intro c _
      rw [List.map_flatMap, List.nodup_flatMap]
      constructor
      · intro k _
        rw [List.map_map]
        apply List.Nodup.map _ List.nodup_range
        intro a b hab
        simp at hab; omega
      · refine List.Pairwise.imp ?_ List.nodup_range
        intro k1 k2 hne x hx hy
        simp only [List.mem_map] at hx hy
        obtain ⟨_, ⟨p, _, rfl⟩, rfl⟩ := hx
        obtain ⟨_, ⟨p', _, rfl⟩, he⟩ := hy
        simp at he
        omega
    · refine List.Pairwise.imp ?_ List.nodup_range
      intro c1 c2 hne x hx hy
      simp only [List.mem_map, List.mem_flatMap] at hx hy
      obtain ⟨_, ⟨_, _, ⟨p, _, rfl⟩⟩, rfl⟩ := hx
      obtain ⟨_, ⟨_, _, ⟨p', _, rfl⟩⟩, he⟩ := hy
      simp at he
      omega
  · rw [ssqBlocks_flatten n hn, enumSzlst_flatten]
    exact List.nodup_range

variable {n : Nat} {si : SI}

/-- The dictionaries describe the charge rows ('Lin' and 'charge'). -/
theorem SIInv.qn_charge (h : SIInv n si) (hix : si.indexing = .Lin ∨ si.indexing = .charge) :
    si.chargelst.length = n + 1 ∧ QnOk (chargeBlocks si.chargelst) si.qnInd si.indQn := by
  have hlen : si.chargelst.length = n + 1 ∧ si.chargelst.flatten.Nodup := by
    have hen : ∀ p, si.chargelst = enumChargelst (chL n p) →
        si.chargelst.length = n + 1 ∧ si.chargelst.flatten.Nodup := by
      intro p hp
      rw [hp, enumChargelst_length, chL_length, enumChargelst_flatten]
      exact ⟨rfl, List.nodup_range⟩
    rcases hix with hix | hix
    · rcases h.lin hix with ⟨_, _, h3⟩ | ⟨_, _, h3⟩
      · rw [h3, chL_length]
        exact ⟨rfl, (chL_flatten_perm n _).nodup_iff.2 (List.nodup_range.filter _)⟩
      · exact hen _ h3
    · exact hen _ (h.ch hix).2.2
  refine ⟨hlen.1, ?_⟩
  have hq := h.qn
  rw [makeQuantumNumbers_charge si.indexing (by rcases hix with h | h <;> simp [h])
    (by rcases hix with h | h <;> simp [h]) n _ hlen.1] at hq
  have := chargeBlocks_ok si.chargelst hlen.2
  simp only [Except.ok.injEq] at hq
  rw [hq] at this
  exact this

theorem SIInv.qn_sz (h : SIInv n si) (hix : si.indexing = .sz) :
    ∃ T, si.szlst = some T ∧ T.length = n + 1 ∧
      (∀ c (hc : c < T.length), T[c].length = szW n c + 1) ∧
      QnOk (szBlocks n T) si.qnInd si.indQn := by
  have H := h.sz (Or.inl hix)
  refine ⟨_, H.2.2.2.2.1, by rw [enumSzlst_length, szL_length],
    fun c hc => enumSzlst_row_length n _ c hc, ?_⟩
  have hq := h.qn
  rw [hix, H.2.2.2.2.1, makeQuantumNumbers_sz n _ (by rw [enumSzlst_length, szL_length])
    (fun c h => enumSzlst_row_length n _ c h)] at hq
  have := szBlocks_ok n (enumSzlst (szL n (keepOf si.removed)))
    (by rw [enumSzlst_flatten]; exact List.nodup_range)
  simp only [Except.ok.injEq] at hq
  rw [hq] at this
  exact this

theorem SIInv.qn_ssq (h : SIInv n si) (hix : si.indexing = .ssq) :
    si.ssqlst = some ((List.range (n + 1)).map fun c =>
      (List.range (szW n c + 1)).map fun k => (List.range (ssqE n c k + 1)).map fun q =>
      ssqCell n c k q) ∧
    si.szlst = some ((List.range (n + 1)).map fun c =>
      (List.range (szW n c + 1)).map fun k => List.range' (szStart n c k) (szLen n c k)) ∧
    QnOk (ssqBlocks n (ssqCell n)) si.qnInd si.indQn := by
  have H := h.sz (Or.inr hix)
  have hn := H.1
  obtain ⟨szl, l, h1, h2, h3⟩ := h.ssql hix
  have hrem := h.ssqrem hix
  have e : szl = enumSzlst (szL n fun _ => true) := by
    have := H.2.2.2.2.1
    rw [h1, hrem] at this
    simpa using this
  subst e
  rw [constructSsqlst_eq n hn _ (szShape_enum n hn), ssqTable_eq n hn] at h2
  simp only [Except.ok.injEq] at h2
  refine ⟨by rw [h3, ← h2], by rw [h1, enumSzlst_closed n hn], ?_⟩
  have hq := h.qn
  rw [hix, h3, ← h2, makeQuantumNumbers_ssq n (ssqCell n)] at hq
  simp only [Except.ok.injEq] at hq
  have := ssqBlocks_ok n hn
  rw [hq] at this
  exact this

end Verif
