import Verif.Lemmas.Coh

/-! Closed forms for the currents of the approaches with coherences. -/

namespace Verif

open Finset
open scoped ComplexConjugate

noncomputable section

theorem sum_mk3 (s : Finset Nat) (f g k : Nat → ℂ) :
    ∑ x ∈ s, (f x, g x, k x) = (∑ x ∈ s, f x, ∑ x ∈ s, g x, ∑ x ∈ s, k x) := by
  refine Prod.ext ?_ (Prod.ext ?_ ?_)
  · simp [Prod.fst_sum]
  · simp [Prod.snd_sum, Prod.fst_sum]
  · simp [Prod.snd_sum]

section
variable {v : View} {la : Lab} (h : VMul v la)
include h

namespace VMul

theorem dens_excl {φ : Nat → ℝ} {c a ap : Nat} (hi : la.inc c a ap ≠ true) :
    dens v la φ c a ap = 0 := by
  unfold dens
  rw [if_neg hi]

/-- Events emitted for every pair of neighbouring states and every lead. -/
theorem pairEvents (body : Nat → Nat × Nat → Nat → Nat → Py (List CEv1))
    (g : Nat → Nat → Nat → Nat → CEv1)
    (hg : ∀ q c b l, q + 1 < v.ncharge → c ∈ v.row (q + 1) → b ∈ v.row q → l < v.nleads →
      body q (c, b) (la.ix1 q c b) l = .ok [g q c b l])
    (hl : ∀ q c b l, (g q c b l).ev.l = l) :
    ∃ evs, (collect (List.range (v.ncharge - 1)) fun (charge : Nat) => do
      let Cs ← v.states (charge + 1)
      let Bs ← v.states charge
      collect (prod2 Cs Bs) fun p => do
        let cb ← v.ind1 p.1 p.2 charge
        collect (List.range v.nleads) fun l => body charge p cb l) = .ok evs ∧
      (∀ ev, ev ∈ evs ↔ ∃ q c b l, c ∈ v.R (q + 1) ∧ b ∈ v.R q ∧ l < v.nleads ∧ ev = g q c b l) ∧
      ∀ l, l < v.nleads →
        current (evs.map (·.ev)) l
          = ∑ q ∈ range (v.ncharge - 1), ∑ c ∈ v.R (q + 1), ∑ b ∈ v.R q, (g q c b l).ev.i ∧
        energyCurrent (evs.map (·.ev)) l
          = ∑ q ∈ range (v.ncharge - 1), ∑ c ∈ v.R (q + 1), ∑ b ∈ v.R q, (g q c b l).ev.e := by
  refine ⟨(List.range (v.ncharge - 1)).flatMap fun q =>
    (prod2 (v.row (q + 1)) (v.row q)).flatMap fun p =>
      (List.range v.nleads).flatMap fun l => [g q p.1 p.2 l], ?_, ?_, ?_⟩
  · apply collect_ok
    intro q hq
    have hq' : q + 1 < v.ncharge := by have := List.mem_range.1 hq; omega
    rw [h.states_succ (by omega), h.states (by omega)]
    simp only [py_bind_ok]
    apply collect_ok
    rintro ⟨c, b⟩ hp
    obtain ⟨hc, hb⟩ := prod2_mem hp
    simp only at hc hb
    simp only
    rw [h.ind1 q c b hc hb]
    simp only [py_bind_ok]
    apply collect_ok
    intro l hl
    exact hg q c b l hq' hc hb (List.mem_range.1 hl)
  · intro ev
    simp only [List.mem_flatMap, List.mem_range, List.mem_singleton, prod2, List.mem_map]
    constructor
    · rintro ⟨q, hq, p, ⟨c, hc, b, hb, rfl⟩, l, hl, rfl⟩
      exact ⟨q, c, b, l, (h.mem_R).2 hc, (h.mem_R).2 hb, hl, rfl⟩
    · rintro ⟨q, c, b, l, hc, hb, hl, rfl⟩
      have hc' := (h.mem_R).1 hc
      have := h.row_lt hc'
      exact ⟨q, by omega, (c, b), ⟨c, hc', b, (h.mem_R).1 hb, rfl⟩, l, hl, rfl⟩
  · intro l hll
    constructor
    · rw [current_eq, List.map_map, sum_flatMap', sum_range_list]
      apply sum_congr rfl
      intro q _
      rw [sum_flatMap', View.R, View.R, ← sum_prod2 (h.nodup (q + 1)) (h.nodup q)
        (fun c b => (g q c b l).ev.i)]
      congr 1
      apply List.map_congr_left
      rintro ⟨c, b⟩ _
      rw [sum_flatMap']
      simp only [List.map_cons, List.map_nil, List.sum_cons, List.sum_nil, add_zero,
        Function.comp_apply, hl]
      exact leads_sum v.nleads (fun l => (g q c b l).ev.i) hll
    · rw [energyCurrent_eq, List.map_map, sum_flatMap', sum_range_list]
      apply sum_congr rfl
      intro q _
      rw [sum_flatMap', View.R, View.R, ← sum_prod2 (h.nodup (q + 1)) (h.nodup q)
        (fun c b => (g q c b l).ev.e)]
      congr 1
      apply List.map_congr_left
      rintro ⟨c, b⟩ _
      rw [sum_flatMap']
      simp only [List.map_cons, List.map_nil, List.sum_cons, List.sum_nil, add_zero,
        Function.comp_apply, hl]
      exact leads_sum v.nleads (fun l => (g q c b l).ev.e) hll

end VMul

omit h in
theorem dens_excl {v : View} {la : Lab} (h : VOk v la) :
    type_of% (@VMul.dens_excl v la h.toVMul) := VMul.dens_excl h.toVMul

omit h in
theorem pairEvents {v : View} {la : Lab} (h : VOk v la) :
    type_of% (@VMul.pairEvents v la h.toVMul) := VMul.pairEvents h.toVMul

namespace VN1

namespace VMul

theorem curB_ok (T : TMat) (φ : Vec) (hs : v.ndm0r ≤ φ.size) (w : Amp) {q c b l : Nat}
    (hb : b ∈ v.row q) :
    curB v T φ w c b (q : Int) l = .ok (∑ bp ∈ v.R q, T l c bp * dens v la φ.val q bp b * w.cur0,
      ∑ bp ∈ v.R q, T l b c * T l c bp * dens v la φ.val q bp b * w.cur0,
      ∑ bp ∈ v.R q, T l b c * T l c bp * dens v la φ.val q bp b * w.en0) := by
  have hq := h.row_lt hb
  unfold curB
  rw [h.states (by omega)]
  simp only [py_bind_ok]
  rw [sumM_toFinset (h.nodup q) (g := fun bp => (T l c bp * dens v la φ.val q bp b * w.cur0,
      T l b c * T l c bp * dens v la φ.val q bp b * w.cur0,
      T l b c * T l c bp * dens v la φ.val q bp b * w.en0))]
  · rw [sum_mk3]; rfl
  · intro bp hbp
    rw [h.isIncluded hbp hb]
    simp only [py_bind_ok]
    split
    · rw [h.phi0Element hbp hb φ hs]
      rfl
    · rename_i hi
      simp only [h.dens_excl hi, mul_zero, zero_mul]
      rfl

theorem curC_ok (T : TMat) (φ : Vec) (hs : v.ndm0r ≤ φ.size) (w : Amp) {q c b l : Nat}
    (hc : c ∈ v.row (q + 1)) :
    curC v T φ w c b ((q : Int) + 1) l
      = .ok (∑ cp ∈ v.R (q + 1), T l cp b * dens v la φ.val (q + 1) c cp * w.cur1,
      ∑ cp ∈ v.R (q + 1), T l b c * dens v la φ.val (q + 1) c cp * T l cp b * w.cur1,
      ∑ cp ∈ v.R (q + 1), T l b c * dens v la φ.val (q + 1) c cp * T l cp b * w.en1) := by
  have hq := h.row_lt hc
  unfold curC
  rw [h.states_succ (by omega)]
  simp only [py_bind_ok]
  rw [sumM_toFinset (h.nodup (q + 1)) (g := fun cp =>
      (T l cp b * dens v la φ.val (q + 1) c cp * w.cur1,
      T l b c * dens v la φ.val (q + 1) c cp * T l cp b * w.cur1,
      T l b c * dens v la φ.val (q + 1) c cp * T l cp b * w.en1))]
  · rw [sum_mk3]; rfl
  · intro cp hcp
    rw [show ((q : Int) + 1) = ((q + 1 : Nat) : Int) by omega, h.isIncluded hc hcp]
    simp only [py_bind_ok]
    split
    · rw [h.phi0Element hc hcp φ hs]
      rfl
    · rename_i hi
      simp only [h.dens_excl hi, mul_zero, zero_mul]
      rfl

theorem genCurrent_ok (T : TMat) (f : Nat → Nat → Amp) (φ : Vec) (hs : v.ndm0r ≤ φ.size) :
    ∃ evs, genCurrent v T f φ = .ok evs ∧
      (∀ ev ∈ evs, ∃ q c b l, c ∈ v.R (q + 1) ∧ b ∈ v.R q ∧ l < v.nleads ∧ ev.ev.l = l ∧
        ev.cb = la.ix1 q c b ∧ ev.phi1 =
          ∑ bp ∈ v.R q, T l c bp * dens v la φ.val q bp b * (f l (la.ix1 q c b)).cur0 +
          ∑ cp ∈ v.R (q + 1), T l cp b * dens v la φ.val (q + 1) c cp *
            (f l (la.ix1 q c b)).cur1) ∧
      ∀ l, l < v.nleads →
        current (evs.map (·.ev)) l = ∑ q ∈ range (v.ncharge - 1), ∑ c ∈ v.R (q + 1), ∑ b ∈ v.R q,
          -2 * (Coh.Z v T (fun l q x b _ => (f l (la.ix1 q x b)).cur0)
            (fun l q x _ b => (f l (la.ix1 q x b)).cur1) (dens v la φ.val) l q c b).im ∧
        energyCurrent (evs.map (·.ev)) l
          = ∑ q ∈ range (v.ncharge - 1), ∑ c ∈ v.R (q + 1), ∑ b ∈ v.R q,
          -2 * (Coh.Z v T (fun l q x b _ => (f l (la.ix1 q x b)).en0)
            (fun l q x _ b => (f l (la.ix1 q x b)).en1) (dens v la φ.val) l q c b).im := by
  obtain ⟨evs, g1, g2, g3⟩ := h.pairEvents
    (body := fun charge p cb l => do
      let w ← v.rd f l cb
      let x ← curB v T φ w p.1 p.2 charge l
      let y ← curC v T φ w p.1 p.2 (charge + 1) l
      pure [CEv1.mk ⟨l, -2 * (x.2.1 + y.2.1).im, -2 * (x.2.2 + y.2.2).im⟩ cb (x.1 + y.1)])
    (g := fun q c b l => ⟨⟨l, -2 * (Coh.Z v T (fun l q x b _ => (f l (la.ix1 q x b)).cur0)
            (fun l q x _ b => (f l (la.ix1 q x b)).cur1) (dens v la φ.val) l q c b).im,
          -2 * (Coh.Z v T (fun l q x b _ => (f l (la.ix1 q x b)).en0)
            (fun l q x _ b => (f l (la.ix1 q x b)).en1) (dens v la φ.val) l q c b).im⟩,
        la.ix1 q c b, ∑ bp ∈ v.R q, T l c bp * dens v la φ.val q bp b * (f l (la.ix1 q c b)).cur0 +
          ∑ cp ∈ v.R (q + 1), T l cp b * dens v la φ.val (q + 1) c cp *
            (f l (la.ix1 q c b)).cur1⟩)
    (by
      intro q c b l hq hc hb hl
      rw [h.rd_ok f l hc hb]
      simp only [py_bind_ok]
      rw [curB_ok h T φ hs _ hb, curC_ok h T φ hs _ hc]
      rfl)
    (by intros; rfl)
  refine ⟨evs, g1, ?_, g3⟩
  intro ev hev
  obtain ⟨q, c, b, l, hc, hb, hl, rfl⟩ := (g2 ev).1 hev
  exact ⟨q, c, b, l, hc, hb, hl, rfl, rfl, rfl⟩

end VMul

omit h in
theorem curB_ok {v : View} {la : Lab} (h : VOk v la) :
    type_of% (@VMul.curB_ok v la h.toVMul) := VMul.curB_ok h.toVMul

omit h in
theorem curC_ok {v : View} {la : Lab} (h : VOk v la) :
    type_of% (@VMul.curC_ok v la h.toVMul) := VMul.curC_ok h.toVMul

omit h in
theorem genCurrent_ok {v : View} {la : Lab} (h : VOk v la) :
    type_of% (@VMul.genCurrent_ok v la h.toVMul) := VMul.genCurrent_ok h.toVMul

end VN1

namespace Redfield

namespace VMul

theorem curB_ok (T : TMat) (f : Nat → Nat → Amp) (φ : Vec) (hs : v.ndm0r ≤ φ.size) {q c b l : Nat}
    (hc : c ∈ v.row (q + 1)) (hb : b ∈ v.row q) :
    curB v T f φ c b (q : Int) l
      = .ok (∑ bp ∈ v.R q, T l c bp * dens v la φ.val q bp b * (f l (la.ix1 q c bp)).cur0,
      ∑ bp ∈ v.R q, T l b c * T l c bp * dens v la φ.val q bp b * (f l (la.ix1 q c bp)).cur0,
      ∑ bp ∈ v.R q, T l b c * T l c bp * dens v la φ.val q bp b * (f l (la.ix1 q c bp)).en0) := by
  have hq := h.row_lt hb
  unfold curB
  rw [h.states (by omega)]
  simp only [py_bind_ok]
  rw [sumM_toFinset (h.nodup q) (g := fun bp =>
      (T l c bp * dens v la φ.val q bp b * (f l (la.ix1 q c bp)).cur0,
      T l b c * T l c bp * dens v la φ.val q bp b * (f l (la.ix1 q c bp)).cur0,
      T l b c * T l c bp * dens v la φ.val q bp b * (f l (la.ix1 q c bp)).en0))]
  · rw [sum_mk3]; rfl
  · intro bp hbp
    rw [h.isIncluded hbp hb]
    simp only [py_bind_ok]
    split
    · rw [h.phi0Element hbp hb φ hs, h.ind1 q c bp hc hbp]
      simp only [py_bind_ok]
      rw [h.rd_ok f l hc hbp]
      rfl
    · rename_i hi
      simp only [h.dens_excl hi, mul_zero, zero_mul]
      rfl

theorem curC_ok (T : TMat) (f : Nat → Nat → Amp) (φ : Vec) (hs : v.ndm0r ≤ φ.size) {q c b l : Nat}
    (hc : c ∈ v.row (q + 1)) (hb : b ∈ v.row q) :
    curC v T f φ c b (q : Int) ((q : Int) + 1) l
      = .ok (∑ cp ∈ v.R (q + 1), T l cp b * dens v la φ.val (q + 1) c cp *
          (f l (la.ix1 q cp b)).cur1,
      ∑ cp ∈ v.R (q + 1), T l b c * dens v la φ.val (q + 1) c cp * T l cp b *
          (f l (la.ix1 q cp b)).cur1,
      ∑ cp ∈ v.R (q + 1), T l b c * dens v la φ.val (q + 1) c cp * T l cp b *
          (f l (la.ix1 q cp b)).en1) := by
  have hq := h.row_lt hc
  unfold curC
  rw [h.states_succ (by omega)]
  simp only [py_bind_ok]
  rw [sumM_toFinset (h.nodup (q + 1)) (g := fun cp =>
      (T l cp b * dens v la φ.val (q + 1) c cp * (f l (la.ix1 q cp b)).cur1,
      T l b c * dens v la φ.val (q + 1) c cp * T l cp b * (f l (la.ix1 q cp b)).cur1,
      T l b c * dens v la φ.val (q + 1) c cp * T l cp b * (f l (la.ix1 q cp b)).en1))]
  · rw [sum_mk3]; rfl
  · intro cp hcp
    rw [show ((q : Int) + 1) = ((q + 1 : Nat) : Int) by omega, h.isIncluded hc hcp]
    simp only [py_bind_ok]
    split
    · rw [h.phi0Element hc hcp φ hs, h.ind1 q cp b hcp hb]
      simp only [py_bind_ok]
      rw [h.rd_ok f l hcp hb]
      rfl
    · rename_i hi
      simp only [h.dens_excl hi, mul_zero, zero_mul]
      rfl

theorem genCurrent_ok (T : TMat) (f : Nat → Nat → Amp) (φ : Vec) (hs : v.ndm0r ≤ φ.size) :
    ∃ evs, genCurrent v T f φ = .ok evs ∧
      (∀ ev ∈ evs, ∃ q c b l, c ∈ v.R (q + 1) ∧ b ∈ v.R q ∧ l < v.nleads ∧ ev.ev.l = l ∧
        ev.cb = la.ix1 q c b ∧ ev.phi1 =
          ∑ bp ∈ v.R q, T l c bp * dens v la φ.val q bp b * (f l (la.ix1 q c bp)).cur0 +
          ∑ cp ∈ v.R (q + 1), T l cp b * dens v la φ.val (q + 1) c cp *
            (f l (la.ix1 q cp b)).cur1) ∧
      ∀ l, l < v.nleads →
        current (evs.map (·.ev)) l = ∑ q ∈ range (v.ncharge - 1), ∑ c ∈ v.R (q + 1), ∑ b ∈ v.R q,
          -2 * (Coh.Z v T (fun l q x _ bp => (f l (la.ix1 q x bp)).cur0)
            (fun l q _ xp b => (f l (la.ix1 q xp b)).cur1) (dens v la φ.val) l q c b).im ∧
        energyCurrent (evs.map (·.ev)) l
          = ∑ q ∈ range (v.ncharge - 1), ∑ c ∈ v.R (q + 1), ∑ b ∈ v.R q,
          -2 * (Coh.Z v T (fun l q x _ bp => (f l (la.ix1 q x bp)).en0)
            (fun l q _ xp b => (f l (la.ix1 q xp b)).en1) (dens v la φ.val) l q c b).im := by
  obtain ⟨evs, g1, g2, g3⟩ := h.pairEvents
    (body := fun charge p cb l => do
      let x ← curB v T f φ p.1 p.2 charge l
      let y ← curC v T f φ p.1 p.2 charge (charge + 1) l
      pure [CEv1.mk ⟨l, -2 * (x.2.1 + y.2.1).im, -2 * (x.2.2 + y.2.2).im⟩ cb (x.1 + y.1)])
    (g := fun q c b l => ⟨⟨l, -2 * (Coh.Z v T (fun l q x _ bp => (f l (la.ix1 q x bp)).cur0)
            (fun l q _ xp b => (f l (la.ix1 q xp b)).cur1) (dens v la φ.val) l q c b).im,
          -2 * (Coh.Z v T (fun l q x _ bp => (f l (la.ix1 q x bp)).en0)
            (fun l q _ xp b => (f l (la.ix1 q xp b)).en1) (dens v la φ.val) l q c b).im⟩,
        la.ix1 q c b, ∑ bp ∈ v.R q, T l c bp * dens v la φ.val q bp b * (f l (la.ix1 q c bp)).cur0 +
          ∑ cp ∈ v.R (q + 1), T l cp b * dens v la φ.val (q + 1) c cp *
            (f l (la.ix1 q cp b)).cur1⟩)
    (by
      intro q c b l hq hc hb hl
      simp only
      rw [curB_ok h T f φ hs hc hb, curC_ok h T f φ hs hc hb]
      rfl)
    (by intros; rfl)
  refine ⟨evs, g1, ?_, g3⟩
  intro ev hev
  obtain ⟨q, c, b, l, hc, hb, hl, rfl⟩ := (g2 ev).1 hev
  exact ⟨q, c, b, l, hc, hb, hl, rfl, rfl, rfl⟩

end VMul

omit h in
theorem curB_ok {v : View} {la : Lab} (h : VOk v la) :
    type_of% (@VMul.curB_ok v la h.toVMul) := VMul.curB_ok h.toVMul

omit h in
theorem curC_ok {v : View} {la : Lab} (h : VOk v la) :
    type_of% (@VMul.curC_ok v la h.toVMul) := VMul.curC_ok h.toVMul

omit h in
theorem genCurrent_ok {v : View} {la : Lab} (h : VOk v la) :
    type_of% (@VMul.genCurrent_ok v la h.toVMul) := VMul.genCurrent_ok h.toVMul

end Redfield

end

end

end Verif
