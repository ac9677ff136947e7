import Verif.Spec.SpinBasis
import Verif.Lemmas.SpinTable
import Verif.Lemmas.PmtrSsq
import Verif.Props.Multiplets

/-! The result of the diagonalisation for 'ssq' indexing. -/

namespace Verif
open Verif.Spec Matrix

variable {n : Nat}

/-- The lowest projection of an even charge is 0, of an odd charge -1; its position. -/
def lowK (n c : Nat) : Nat := (szW n c - c % 2) / 2

theorem lowK_ok {c : Nat} (hev : n % 2 = 0) (hc : c ≤ n) : 2 * lowK n c + c % 2 = szW n c := by
  unfold lowK szW
  omega

/-- The states of all cells. -/
structure Cells (n : Nat) (si : SI) (H : Matrix (Occ n) (Occ n) ℂ)
    (cells : Nat → Nat → Nat → List ℝ × Arr) (ψ : Nat → Nat → Nat → Nat → Occ n → ℂ) : Prop where
  len : ∀ c k j, c ≤ n → k ≤ szW n c → j ≤ ssqE n c k → (cells c k j).1.length = ssqM n c k j
  dims : ∀ c k j, c ≤ n → k ≤ szW n c → j ≤ ssqE n c k →
    (cells c k j).2.dims = [(szCell si (c, k)).length, ssqM n c k j]
  val : ∀ c k j, c ≤ n → k ≤ szW n c → j ≤ ssqE n c k → ∀ p (hp : p < (szCell si (c, k)).length) (s : Occ n),
    si.getState ((szCell si (c, k))[p] : Nat) = .ok (ofOcc s) → ∀ i, i < ssqM n c k j →
      (cells c k j).2.val [p, i] = ψ c k j i s
  joint : ∀ c k j, c ≤ n → k ≤ szW n c → j ≤ ssqE n c k →
    Joint H c (-(szW n c : Int) + 2 * k) ((szW n c : Int) - 2 * ((ssqE n c k - j : Nat) : Int)) (ssqM n c k j)
      (fun i => (cells c k j).1.getD i 0) (ψ c k j)
  same : ∀ c k j k' j', c ≤ n → k ≤ szW n c → j ≤ ssqE n c k → k' ≤ szW n c → j' ≤ ssqE n c k' →
    ssqE n c k - j = ssqE n c k' - j' → (cells c k j).1 = (cells c k' j').1
  step : ∀ c k j j', c ≤ n → k + 1 ≤ szW n c → j ≤ ssqE n c k → j' ≤ ssqE n c (k + 1) →
    ssqE n c k - j = ssqE n c (k + 1) - j' → ∀ i, i < ssqM n c k j →
      ψ c (k + 1) j' i = raise ((szW n c : Int) - 2 * ((ssqE n c k - j : Nat) : Int))
        (-(szW n c : Int) + 2 * k) (ψ c k j i)

theorem cells_ok {qd : QD} (hn : 1 ≤ n) (hev : n % 2 = 0) (hsi : SI.init n "ssq" = .ok qd.si)
    {eigh : Eigh} (he : EighReal eigh) {H : Matrix (Occ n) (Occ n) ℂ} (hH : SpinConserving H)
    (hham : ∀ c ≤ n, ∃ ham, qd.hamlst c (lowK n c : Int) = some ham ∧
      ham.dims = [(szCell qd.si (c, lowK n c)).length, (szCell qd.si (c, lowK n c)).length] ∧
      ∀ p q (hp : p < (szCell qd.si (c, lowK n c)).length) (hq : q < (szCell qd.si (c, lowK n c)).length)
        (s s' : Occ n), qd.si.getState ((szCell qd.si (c, lowK n c))[p] : Nat) = .ok (ofOcc s) →
        qd.si.getState ((szCell qd.si (c, lowK n c))[q] : Nat) = .ok (ofOcc s') → ham.val [p, q] = H s s') :
    ∃ cells ψ, Cells n qd.si H cells ψ ∧ ∀ c ≤ n, qd.spinStates eigh c
      = .ok ((List.range (szW n c + 1)).map fun k => (List.range (ssqE n c k + 1)).map fun j =>
        some (cells c k j)) := by
  obtain ⟨hcons, hN, -, hns⟩ := SpinSI.facts ⟨hn, hev, "ssq", Or.inr rfl, hsi⟩
  obtain ⟨si', h1, hinv, hch, hr⟩ := init_inv n "ssq"
  rw [hsi] at h1
  cases h1
  have hix : qd.si.indexing = .ssq := by rw [hch]; simp [chooseIndexing, hev]
  -- the sectors
  have hsec : ∀ c k, ∃ st : Nat → Occ n, c ≤ n → k ≤ szW n c →
      qd.si.getLst (some c) (some (-(szW n c : Int) + 2 * (k : Int))) none = .ok (some (szCell qd.si (c, k))) ∧
      Sector n qd.si c (-(szW n c : Int) + 2 * (k : Int)) (szCell qd.si (c, k)) st := by
    intro c k
    by_cases h : c ≤ n ∧ k ≤ szW n c
    · obtain ⟨lst, st, g1, g2⟩ := sector_exists hcons hN (.inr hix) h.1 (adm_row hev h.1 h.2)
      have e : lst = szCell qd.si (c, k) := by
        obtain ⟨T, R, l, t1, t2, t3, -⟩ := hinv.sz_row (.inr hix) c k h.1 h.2
        have g1' := g1
        unfold SI.getLst at g1'
        simp only [t1, t2, py_bind_ok, hns, szToInd_range n c k h.1, t3, py_pure] at g1'
        cases g1'
        unfold szCell
        rw [t1, Option.getD_some, pyGet_getD t2, pyGet_getD t3]
      subst e
      exact ⟨st, fun _ _ => ⟨g1, g2⟩⟩
    · exact ⟨fun _ _ => false, fun h1 h2 => absurd ⟨h1, h2⟩ h⟩
  choose S hS using hsec
  have htab : ∀ c, ∃ (t : SpinTab) (e : Nat → List ℝ) (x : Nat → Nat → Occ n → ℂ), c ≤ n →
      qd.spinStates eigh c = .ok t ∧ t.length = szW n c + 1 ∧
      (∀ k, k ≤ szW n c → RowOk c (lowK n c) (fun k => szCell qd.si (c, k)) (S c)
        (fun δ => ssqM n c (lowK n c) (ssqE n c (lowK n c) - δ)) e x t k) ∧
      ∀ δ, δ ≤ ssqE n c (lowK n c) → (e δ).length = ssqM n c (lowK n c) (ssqE n c (lowK n c) - δ) ∧
        Joint H c (-(szW n c : Int) + 2 * (lowK n c : Nat)) ((szW n c : Int) - 2 * (δ : Int))
          (ssqM n c (lowK n c) (ssqE n c (lowK n c) - δ)) (fun i => (e δ).getD i 0) (x δ) := by
    intro c
    by_cases hc : c ≤ n
    · have hk0 := lowK_ok hev hc
      obtain ⟨ham, a1, a2, a3⟩ := hham c hc
      have hb := (hS c (lowK n c) hc (by omega)).2.basis
      obtain ⟨t, e, x, r⟩ := spinStates_ok hn hev hsi he hH hc hk0 (L := fun k => szCell qd.si (c, k)) (S := S c)
        (hS c (lowK n c) hc (by omega)).1 (fun k hk => (hS c k hc hk).2) a1 a2
        (fun p q hp hq => a3 p q hp hq _ _ (hb.get p hp) (hb.get q hq))
      exact ⟨t, e, x, fun _ => r⟩
    · exact ⟨[], fun _ => [], fun _ _ _ => 0, fun h => absurd h hc⟩
  choose t e x ht using htab
  have hcell : ∀ c k, ∃ cl : Nat → List ℝ × Arr, c ≤ n → k ≤ szW n c →
      (t c)[k]? = some ((List.range (ssqE n c k + 1)).map fun j => some (cl j)) ∧
      ∀ j, j ≤ ssqE n c k → CellIs (szCell qd.si (c, k)).length
        (ssqM n c (lowK n c) (ssqE n c (lowK n c) - (ssqE n c k - j))) (S c k) (e c (ssqE n c k - j))
        (fun i => chain ((szW n c : Int) - 2 * ((ssqE n c k - j : Nat) : Int))
          (-(szW n c : Int) + 2 * (lowK n c : Nat)) (lowK n c) (x c (ssqE n c k - j) i) k) (cl j) := by
    intro c k
    by_cases h : c ≤ n ∧ k ≤ szW n c
    · obtain ⟨cl, r⟩ := (ht c h.1).2.2.1 k h.2
      exact ⟨cl, fun _ _ => r⟩
    · exact ⟨fun _ => ([], Arr.zeros []), fun h1 h2 => absurd ⟨h1, h2⟩ h⟩
  choose cells hcells using hcell
  have hdep : ∀ c k j, c ≤ n → k ≤ szW n c → j ≤ ssqE n c k →
      ssqE n c k - j ≤ ssqE n c (lowK n c) ∧
      ssqM n c (lowK n c) (ssqE n c (lowK n c) - (ssqE n c k - j)) = ssqM n c k j := by
    intro c k j hc hk hj
    have h0 := lowK_ok hev hc
    have h1 : ssqE n c k ≤ ssqE n c (lowK n c) := by unfold ssqE; omega
    exact ⟨by omega, ssqM_depth _ _ _ _ _ _ (by omega)⟩
  have hJ : ∀ c, c ≤ n → ∀ δ, δ ≤ ssqE n c (lowK n c) →
      Joint H c (-(szW n c : Int) + 2 * (lowK n c : Nat)) ((szW n c : Int) - 2 * (δ : Int))
          (ssqM n c (lowK n c) (ssqE n c (lowK n c) - δ)) (fun i => (e c δ).getD i 0) (x c δ) :=
    fun c hc δ hδ => ((ht c hc).2.2.2 δ hδ).2
  refine ⟨cells, fun c k j i => chain ((szW n c : Int) - 2 * ((ssqE n c k - j : Nat) : Int))
          (-(szW n c : Int) + 2 * (lowK n c : Nat)) (lowK n c) (x c (ssqE n c k - j) i) k,
    ⟨?_, ?_, ?_, ?_, ?_, ?_⟩, ?_⟩
  · intro c k j hc hk hj
    obtain ⟨d1, d2⟩ := hdep c k j hc hk hj
    rw [((hcells c k hc hk).2 j hj).en, ((ht c hc).2.2.2 _ d1).1, d2]
  · intro c k j hc hk hj
    rw [((hcells c k hc hk).2 j hj).dims, (hdep c k j hc hk hj).2]
  · intro c k j hc hk hj p hp s hs i hi
    rw [((hcells c k hc hk).2 j hj).val p i hp (by rw [(hdep c k j hc hk hj).2]; exact hi),
      ofOcc_inj' ((hS c k hc hk).2.basis.get p hp) hs]
  · intro c k j hc hk hj
    obtain ⟨d1, d2⟩ := hdep c k j hc hk hj
    have := table_joint hev (lowK_ok hev hc) hH (hJ c hc) hk (δ := ssqE n c k - j) (by omega)
    rw [((hcells c k hc hk).2 j hj).en]
    rw [d2] at this
    exact this
  · intro c k j k' j' hc hk hj hk' hj' hd
    rw [((hcells c k hc hk).2 j hj).en, ((hcells c k' hc hk').2 j' hj').en, hd]
  · intro c k j j' hc hk hj hj' hd i hi
    obtain ⟨d1, d2⟩ := hdep c k j hc (by omega) hj
    have h0 := lowK_ok hev hc
    have := chain_step hev hH (k0 := lowK n c) (hJ c hc _ d1) k i (by rw [d2]; exact hi)
      (by unfold ssqE at *; omega) (by unfold ssqE at *; omega)
      (by unfold ssqE at *; omega) (by unfold ssqE at *; omega)
    rw [← hd]
    rw [this]
    congr 1
    ring
  · intro c hc
    rw [(ht c hc).1]
    congr 1
    refine List.ext_getElem? fun k => ?_
    by_cases hk : k ≤ szW n c
    · rw [(hcells c k hc hk).1, List.getElem?_map, List.getElem?_range (by omega)]
      rfl
    · rw [List.getElem?_eq_none (by rw [(ht c hc).2.1]; omega), List.getElem?_eq_none (by simp; omega)]

end Verif
