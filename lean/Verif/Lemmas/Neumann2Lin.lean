import Verif.Lemmas.Neumann2Mat
import Verif.Props.Hilbert

/-! Interpolation and Hilbert transforms as linear maps. -/

namespace Verif

open Finset

noncomputable section

namespace VN2

theorem hat_sum {n i : Nat} {t : ℝ} (hi : i + 1 < n) (h0 : 0 ≤ t) (h1 : t ≤ 1) (f : Nat → ℂ) :
    ∑ j ∈ range n, f j * (hat ((i : ℝ) + t - j) : ℂ) = (1 - t) * f i + t * f (i + 1) := by
  have z : ∀ j, j ≠ i → j ≠ i + 1 → hat ((i : ℝ) + t - j) = 0 := by
    intro j hj hj'
    apply hat_zero
    rcases Nat.lt_or_ge j i with hlt | hge
    · have : ((j + 1 : ℕ) : ℝ) ≤ i := by exact_mod_cast hlt
      push_cast at this
      rw [le_abs]; left; linarith
    · have : ((i + 2 : ℕ) : ℝ) ≤ j := by
        have : i + 2 ≤ j := by omega
        exact_mod_cast this
      push_cast at this
      rw [le_abs]; right; linarith
  have hs : ({i, i + 1} : Finset Nat) ⊆ range n := by
    intro j hj
    simp only [mem_insert, mem_singleton] at hj
    rw [mem_range]; omega
  rw [← sum_subset hs (fun j _ hj => by
    simp only [mem_insert, mem_singleton, not_or] at hj
    rw [z j hj.1 hj.2]; simp)]
  rw [sum_pair (by omega), hat_right (by linarith) (by linarith), hat_left (by push_cast; linarith) (by push_cast; linarith)]
  push_cast
  ring

theorem sample_in {x h : ℝ} (hh : 0 < h) {f : List ℂ} {i : Nat} {t : ℝ} (hi : i + 1 < f.length) (h0 : 0 ≤ t) (h1 : t ≤ 1)
    {E : ℝ} (hE : E = x + (i + t) * h) : sample x h f E = (1 - t) * f.getD i 0 + t * f.getD (i + 1) 0 := by
  have hn : ((i + 2 : ℕ) : ℝ) ≤ f.length := by exact_mod_cast hi
  push_cast at hn
  unfold sample
  rw [if_pos]
  · rw [← hat_sum hi h0 h1 fun j => f.getD j 0]
    refine sum_congr rfl fun j _ => ?_
    congr 3
    rw [hE]
    field_simp
    ring
  · rw [hE]
    constructor
    · have : 0 ≤ ((i : ℝ) + t) * h := by positivity
      linarith
    · have : ((i : ℝ) + t) * h ≤ ((f.length : ℝ) - 1) * h := mul_le_mul_of_nonneg_right (by linarith) hh.le
      linarith

theorem sample_out {x h : ℝ} {f : List ℂ} {E : ℝ} (hE : E < x ∨ x + ((f.length : ℝ) - 1) * h < E) : sample x h f E = 0 := by
  unfold sample
  rw [if_neg]
  rintro ⟨h1, h2⟩
  rcases hE with h | h <;> linarith

/-- Reading by interpolation. -/
theorem func2vN_sample {x h : ℝ} {n : Nat} (hn : 2 ≤ n) (hh : 0 < h) {f : List ℂ} (hf : f.length = n) (E : ℝ) (plus : Bool) :
    func2vN (uniform x h n) f E plus = .ok (Real.pi * cjIf (!plus) (sample x h f E)) := by
  by_cases he : E < x ∨ x + ((n : ℝ) - 1) * h < E
  · rw [(c40_outside hn he f f plus).2, sample_out (by rwa [hf])]
    cases plus <;> simp [cjIf]
  · push Not at he
    obtain ⟨i, t, a1, a2, a3, a4, a5⟩ := c40_inside hn hh he.1 he.2
    rw [(a5 f f hf hf).2, sample_in hh (by omega) a2 a3 a4]

theorem getAtK1_sample {x h : ℝ} {n : Nat} (hn : 2 ≤ n) (hh : 0 < h) {f g : List ℂ} (hf : f.length = n) (hg : g.length = n)
    (E : ℝ) (c : Bool) :
    getAtK1 (uniform x h n) f g E c = .ok (Real.pi * cjIf c (sample x h g E), Real.pi * cjIf c (sample x h f E)) := by
  by_cases he : E < x ∨ x + ((n : ℝ) - 1) * h < E
  · rw [(c40_outside hn he f g c).1, sample_out (by rwa [hg]), sample_out (by rwa [hf])]
    cases c <;> simp [cjIf]
  · push Not at he
    obtain ⟨i, t, a1, a2, a3, a4, a5⟩ := c40_inside hn hh he.1 he.2
    rw [(a5 f g hf hg).1, sample_in hh (by omega) a2 a3 a4, sample_in hh (by omega) a2 a3 a4]

/-- `sample` for a list given by a function. -/
def samp (x h : ℝ) (N : Nat) (f : Nat → ℂ) (E : ℝ) : ℂ := sample x h ((List.range N).map f) E

theorem samp_sum {ι : Type} (x h : ℝ) (N : Nat) (s : Finset ι) (f : ι → Nat → ℂ) (a : ι → ℂ) (E : ℝ) :
    samp x h N (fun i => ∑ j ∈ s, f j i * a j) E = ∑ j ∈ s, samp x h N (f j) E * a j := by
  unfold samp sample
  simp only [List.length_map, List.length_range]
  split
  · simp only [sum_mul]
    rw [sum_comm]
    refine sum_congr rfl fun i hi => ?_
    simp only [getD_map_range _ _ (mem_range.1 hi), sum_mul]
    exact sum_congr rfl fun j _ => by ring
  · simp

theorem samp_congr {x h : ℝ} {N : Nat} {f g : Nat → ℂ} (hfg : ∀ i < N, f i = g i) (E : ℝ) : samp x h N f E = samp x h N g E := by
  unfold samp
  congr 1
  exact List.map_congr_left fun i hi => hfg i (List.mem_range.1 hi)

theorem samp_add (x h : ℝ) (N : Nat) (f g : Nat → ℂ) (a b : ℂ) (E : ℝ) :
    samp x h N (fun i => f i * a + g i * b) E = samp x h N f E * a + samp x h N g E * b := by
  have := samp_sum x h N (univ : Finset (Fin 2)) ![f, g] ![a, b] E
  simpa [Fin.sum_univ_two] using this

/-- Values with zeros on the extension. -/
def padf (len left : Nat) (f : Nat → ℂ) (i : Nat) : ℂ := if left ≤ i ∧ i < left + len then f (i - left) else 0

theorem pad_list (len left right : Nat) (f : Nat → ℂ) :
    List.replicate left 0 ++ (List.range len).map f ++ List.replicate right 0 =
      (List.range (len + left + right)).map (padf len left f) := by
  apply List.ext_getElem
  · simp; omega
  · intro i h1 h2
    simp only [List.getElem_append, List.length_append, List.length_replicate, List.length_map, List.length_range,
      List.getElem_replicate, List.getElem_map, List.getElem_range, padf]
    simp only [List.length_append, List.length_replicate, List.length_map, List.length_range] at h1
    split
    · split
      · rw [if_neg (by omega)]
      · rw [if_pos (by omega)]
    · rw [if_neg (by omega)]

/-- The Hilbert transform of a list in closed form. -/
def ht (N : Nat) (f : Nat → ℂ) (i : Nat) : ℂ := ∑ j ∈ range N, f j * (htWeight ((i : ℤ) - j) / Real.pi : ℝ)

theorem ht_sum {ι : Type} (N : Nat) (s : Finset ι) (f : ι → Nat → ℂ) (a : ι → ℂ) (i : Nat) :
    ht N (fun i => ∑ j ∈ s, f j i * a j) i = ∑ j ∈ s, ht N (f j) i * a j := by
  unfold ht
  simp only [sum_mul]
  rw [sum_comm]
  exact sum_congr rfl fun j _ => sum_congr rfl fun k _ => by ring

theorem padf_sum {ι : Type} (len left : Nat) (s : Finset ι) (f : ι → Nat → ℂ) (a : ι → ℂ) (i : Nat) :
    padf len left (fun i => ∑ j ∈ s, f j i * a j) i = ∑ j ∈ s, padf len left (f j) i * a j := by
  unfold padf
  split <;> simp

theorem hilbert_list {N : Nat} (hN : 0 < N) {k : List ℂ} (hk : kernelFredriksen N = .ok k) (f : Nat → ℂ) :
    hilbertFredriksen ((List.range N).map f) (some k) = .ok ((List.range N).map (ht N f)) := by
  obtain ⟨ker, r, h1, _, _, h4, h5, h6⟩ := hilbert_sum (f := (List.range N).map f) (by simpa using hN)
  simp only [List.length_map, List.length_range] at h1 h5 h6
  obtain rfl := Except.ok.inj (hk.symm.trans h1)
  rw [h4]
  congr 1
  apply List.ext_getElem
  · simp [h5]
  · intro i i1 i2
    have hi : i < N := by simpa using i2
    have := h6 i hi
    rw [List.getD_eq_getElem?_getD, List.getElem?_eq_getElem i1] at this
    rw [List.getElem_map, List.getElem_range, ht]
    simp only [Option.getD_some] at this
    rw [this]
    exact sum_congr rfl fun j hj => by rw [getD_map_range _ _ (mem_range.1 hj)]

/-- The lines of a function on the grid. -/
def Grid.w (g : Grid) (f : Nat → ℂ) (E : ℝ) : ℂ := samp (g.x - g.left * g.h) g.h (g.len + g.left + g.right) (padf g.len g.left f) E

/-- The lines of the Hilbert transforms. -/
def Grid.t (g : Grid) (f : Nat → ℂ) (E : ℝ) : ℂ :=
  samp (g.x - g.left * g.h) g.h (g.len + g.left + g.right) (ht (g.len + g.left + g.right) (padf g.len g.left f)) E

theorem Grid.pair (g : Grid) (hh : 0 < g.h) (hl : 0 < g.len) (f : Nat → ℂ) : g.Pair f (g.w f) (g.t f) := by
  refine ⟨?_, (List.range (g.len + g.left + g.right)).map (ht (g.len + g.left + g.right) (padf g.len g.left f)), by simp, rfl, ?_⟩
  · rw [pad_list]
    rfl
  · intro i hi
    obtain ⟨k, hk⟩ := kernelFredriksen_ok (n := g.len + g.left + g.right) (by omega)
    obtain ⟨r, h1, h2, h3⟩ := hilbert_pad ⟨g.left, g.right, none⟩ (f := (List.range g.len).map f) (N := g.len + g.left + g.right)
      (by simp) (by omega) hk
    rw [HtPars.pad, pad_list, hilbert_list (by omega) hk] at h1
    obtain rfl := Except.ok.inj h1
    have := h3 i hi g.x g.h hh
    rwa [List.length_map, List.length_range] at this

theorem Grid.w_sum {ι : Type} (g : Grid) (s : Finset ι) (f : ι → Nat → ℂ) (a : ι → ℂ) (E : ℝ) :
    g.w (fun i => ∑ j ∈ s, f j i * a j) E = ∑ j ∈ s, g.w (f j) E * a j := by
  unfold Grid.w
  rw [← samp_sum]
  exact samp_congr (fun i _ => padf_sum _ _ _ _ _ _) _

theorem Grid.t_sum {ι : Type} (g : Grid) (s : Finset ι) (f : ι → Nat → ℂ) (a : ι → ℂ) (E : ℝ) :
    g.t (fun i => ∑ j ∈ s, f j i * a j) E = ∑ j ∈ s, g.t (f j) E * a j := by
  unfold Grid.t
  rw [← samp_sum]
  refine samp_congr (fun i _ => ?_) _
  rw [← ht_sum]
  unfold ht
  exact sum_congr rfl fun j _ => by rw [padf_sum]

theorem Grid.w_congr (g : Grid) {f f' : Nat → ℂ} (h : ∀ k < g.len, f k = f' k) (E : ℝ) : g.w f E = g.w f' E := by
  refine samp_congr (fun i _ => ?_) _
  unfold padf
  split
  · exact h _ (by omega)
  · rfl

theorem Grid.t_congr (g : Grid) {f f' : Nat → ℂ} (h : ∀ k < g.len, f k = f' k) (E : ℝ) : g.t f E = g.t f' E := by
  refine samp_congr (fun i _ => ?_) _
  unfold ht
  refine sum_congr rfl fun j _ => ?_
  congr 1
  unfold padf
  split
  · exact h _ (by omega)
  · rfl

/-- The transforms of several rows. -/
theorem htPhi_ok {len : Nat} {p : HtPars} (hp : p.Made) (h0 : 0 < len + p.left + p.right) (n : Nat) (f : Nat → Nat → ℂ) :
    ∃ p', getHtransfPhi1k len ((List.range n).map fun i => (List.range len).map (f i)) p =
      .ok (((List.range n).map fun i => (List.range (len + p.left + p.right)).map (padf len p.left (f i)),
        (List.range n).map fun i => (List.range (len + p.left + p.right)).map (ht (len + p.left + p.right) (padf len p.left (f i)))), p') := by
  obtain ⟨k, hk, hk'⟩ := makeKer_ok hp h0
  refine ⟨{ p with ker := some k }, ?_⟩
  unfold getHtransfPhi1k
  rw [hk]
  show (do
    let h ← (((List.range n).map fun i => (List.range len).map (f i)).map p.pad).mapM fun f => hilbertFredriksen f (some k)
    pure ((((List.range n).map fun i => (List.range len).map (f i)).map p.pad, h), ({ p with ker := some k } : HtPars))) = _
  have e : ((List.range n).map fun i => (List.range len).map (f i)).map p.pad =
      (List.range n).map fun i => (List.range (len + p.left + p.right)).map (padf len p.left (f i)) := by
    rw [List.map_map]
    refine List.map_congr_left fun i _ => ?_
    show p.pad _ = _
    rw [HtPars.pad, pad_list]
  rw [e, List.mapM_map, mapM_map_ok _ (fun i => (List.range (len + p.left + p.right)).map
    (ht (len + p.left + p.right) (padf len p.left (f i))))]
  · rfl
  · intro i _
    exact hilbert_list h0 hk' _

theorem ht_real (N : Nat) {f : Nat → ℂ} (hf : ∀ i, (f i).im = 0) (i : Nat) : ((ht N f i).re : ℂ) = ht N f i := by
  apply Complex.ext
  · simp
  · unfold ht
    simp only [Complex.ofReal_im, Complex.im_sum, Complex.im_mul_ofReal, hf]
    simp

theorem padf_real (len left : Nat) (f : Nat → ℝ) (i : Nat) : (padf len left (fun k => (f k : ℂ)) i).im = 0 := by
  unfold padf
  split <;> simp

/-- The transforms of distributions. -/
theorem htFk_ok {len : Nat} {p : HtPars} (hp : p.Made) (h0 : 0 < len + p.left + p.right) (n : Nat) (f : Nat → Nat → ℝ) :
    ∃ p', p'.Made ∧ p'.left = p.left ∧ p'.right = p.right ∧ getHtransfFk len ((List.range n).map fun i => (List.range len).map (f i)) p =
      .ok (((List.range n).map fun i => (List.range (len + p.left + p.right)).map (padf len p.left fun k => (f i k : ℂ)),
        (List.range n).map fun i => (List.range (len + p.left + p.right)).map fun m =>
          ht (len + p.left + p.right) (padf len p.left fun k => (f i k : ℂ)) m - Complex.I * padf len p.left (fun k => (f i k : ℂ)) m), p') := by
  obtain ⟨k, hk, hk'⟩ := makeKer_ok hp h0
  refine ⟨{ p with ker := some k }, ?_, rfl, rfl, ?_⟩
  · intro k1 e
    obtain rfl := Option.some.inj e
    exact ⟨_, hk'⟩
  unfold getHtransfFk
  rw [hk]
  show (do
    let h ← (((List.range n).map fun i => (List.range len).map (f i)).map fun g : List ℝ => p.pad (g.map Complex.ofReal)).mapM fun f => (do
        let r ← hilbertFredriksen f (some k)
        pure (List.zipWith (fun (z x : ℂ) => (z.re : ℂ) - Complex.I * x) r f) : Py (List ℂ))
    pure ((((List.range n).map fun i => (List.range len).map (f i)).map fun g : List ℝ => p.pad (g.map Complex.ofReal), h),
      ({ p with ker := some k } : HtPars))) = _
  have e : (((List.range n).map fun i => (List.range len).map (f i)).map fun g : List ℝ => p.pad (g.map Complex.ofReal)) =
      (List.range n).map fun i => (List.range (len + p.left + p.right)).map (padf len p.left fun k => (f i k : ℂ)) := by
    rw [List.map_map]
    refine List.map_congr_left fun i _ => ?_
    show p.pad (((List.range len).map (f i)).map Complex.ofReal) = _
    rw [HtPars.pad, List.map_map, ← pad_list]
    rfl
  rw [e, List.mapM_map, mapM_map_ok _ (fun i => (List.range (len + p.left + p.right)).map fun m =>
          ht (len + p.left + p.right) (padf len p.left fun k => (f i k : ℂ)) m - Complex.I * padf len p.left (fun k => (f i k : ℂ)) m)]
  · rfl
  · intro i _
    show (do
      let r ← hilbertFredriksen ((List.range (len + p.left + p.right)).map (padf len p.left fun k => (f i k : ℂ))) (some k)
      pure (List.zipWith (fun (z x : ℂ) => (z.re : ℂ) - Complex.I * x) r _) : Py (List ℂ)) = _
    rw [hilbert_list h0 hk']
    show Except.ok _ = Except.ok _
    congr 1
    rw [List.zipWith_map, List.zipWith_self]
    refine List.map_congr_left fun m _ => ?_
    rw [ht_real _ (padf_real _ _ _)]

end VN2

end

end Verif
