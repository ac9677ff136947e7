import Verif.Lemmas.Congr
import Verif.Lemmas.Lindblad
import Verif.Lemmas.Pauli
import Verif.Lemmas.CohCur
import Verif.Spec.Merge
import Verif.Props.View

/-! C92: a lead may be divided into parts. -/

namespace Verif

open Finset
open scoped ComplexConjugate

noncomputable section

theorem VOk.withLeads {v : View} {la : Lab} (h : VOk v la) (n' : Nat) : VOk (v.withLeads n') la :=
  { len := h.len, last := h.last, nodup := h.nodup, disj := h.disj, ind0 := h.ind0, conj0 := h.conj0,
    inc_diag := h.inc_diag, inc_symm := h.inc_symm, can_diag := h.can_diag, can_off := h.can_off,
    lab_diag := h.lab_diag, lab_off := h.lab_off, lab_symm := h.lab_symm, np_le := h.np_le, ndm0r := h.ndm0r,
    ind1 := h.ind1, ix1_lt := h.ix1_lt, ix1_inj := h.ix1_inj, bool0 := h.bool0, can_ord := h.can_ord,
    lab_inj := h.lab_inj, lab_surj := h.lab_surj }

section
variable {n n' : Nat} {π : Nat → Nat} {x : Nat → ℝ} {L L' : Leads} (hd : Divided n n' π x L L')
include hd

/-- Sums over the parts. -/
theorem Divided.sum {β : Type} [AddCommGroup β] [Module ℝ β] (g g' : Nat → β)
    (hg : ∀ l, l < n' → g' l = x l ^ 2 • g (π l)) : ∑ l ∈ range n', g' l = ∑ l ∈ range n, g l := by
  rw [← sum_fiberwise_of_maps_to (s := range n') (t := range n) (g := π)
    (fun l hl => mem_range.2 (hd.lt l (mem_range.1 hl)))]
  refine sum_congr rfl fun l hl => ?_
  rw [sum_congr rfl (g := fun l' => x l' ^ 2 • g l), ← sum_smul, hd.one l (mem_range.1 hl), one_smul]
  intro l' hl'
  obtain ⟨h1, h2⟩ := mem_filter.1 hl'
  rw [hg l' (mem_range.1 h1), h2]

theorem Divided.zero : n' = 0 ↔ n = 0 := by
  constructor
  · rintro rfl
    by_contra hn
    have := hd.one 0 (by omega)
    simp at this
  · rintro rfl
    by_contra hn
    exact absurd (hd.lt 0 (by omega)) (by omega)

theorem Divided.sumM {β : Type} [AddCommGroup β] [Module ℝ β] (p : Prop) [Decidable p] (F F' : Nat → Py β)
    (g g' : Nat → β) (hF : ∀ l, F l = if p then .ok (g l) else .error .index)
    (hF' : ∀ l, F' l = if p then .ok (g' l) else .error .index)
    (hg : ∀ l, l < n' → g' l = x l ^ 2 • g (π l)) :
    Verif.sumM (List.range n') F' = Verif.sumM (List.range n) F := by
  by_cases hp : p
  · rw [sumM_range (g := g') (fun l _ => by rw [hF', if_pos hp]), sumM_range (g := g) (fun l _ => by rw [hF, if_pos hp]),
      hd.sum g g' hg]
  · have key : ∀ m (G : Nat → Py β), (∀ l, G l = .error .index) → 0 < m →
        Verif.sumM (List.range m) G = .error .index := by
      intro m G hG hm
      obtain ⟨m, rfl⟩ : ∃ m', m = m' + 1 := ⟨m - 1, by omega⟩
      unfold Verif.sumM
      rw [List.range_succ_eq_map, List.foldlM_cons, hG]
      rfl
    rcases Nat.eq_zero_or_pos n with h0 | h0
    · rw [hd.zero.2 h0, h0]; rfl
    · rw [key n F (fun l => by rw [hF, if_neg hp]) h0, key n' F' (fun l => by rw [hF', if_neg hp])
        (Nat.pos_of_ne_zero fun e => h0.ne' (hd.zero.1 e))]

end

/-- Writing one position for all leads. -/
theorem wr_leads {β : Type} (v : View) (k : Nat) (F : Nat → β) (m : Nat) (fct : Nat → Nat → β) :
    (List.range m).foldlM (fun fct l => v.wr fct l k (F l)) fct
      = if m = 0 ∨ k < v.ndm1 then .ok (fun l k' => if l < m ∧ k' = k then F l else fct l k') else .error .index := by
  induction m with
  | zero => simp <;> rfl
  | succ m ih =>
    rw [List.range_succ, List.foldlM_append, ih]
    by_cases hk : k < v.ndm1
    · rw [if_pos (.inr hk), if_pos (.inr hk)]
      rw [py_bind_ok, List.foldlM_cons]
      simp only [List.foldlM_nil, bind_pure]
      unfold View.wr
      rw [if_pos hk]
      refine congrArg Except.ok (funext fun l => funext fun k' => ?_)
      dsimp only
      by_cases e : k' = k
      · by_cases e1 : l = m
        · subst e1; simp [e]
        · by_cases e2 : l < m
          · simp [e, e1, e2, show l < m + 1 by omega]
          · simp [e, e1, e2, show ¬ l < m + 1 by omega]
      · simp [e]
    · rw [if_neg (show ¬ (m + 1 = 0 ∨ k < v.ndm1) by omega)]
      by_cases h0 : m = 0
      · subst h0
        rw [if_pos (.inl rfl)]
        rw [py_bind_ok, List.foldlM_cons]
        simp only [List.foldlM_nil, bind_pure]
        unfold View.wr
        rw [if_neg hk]
      · rw [if_neg (by omega)]
        rfl

section
variable {v : View} {n' : Nat} {π : Nat → Nat} {x : Nat → ℝ} {L L' : Leads} (hd : Divided v.nleads n' π x L L')
include hd

/-- The factors of the parts. -/
theorem fillFct_parts {β : Type} (z : β) (g : Nat → β → β) (hz : ∀ l, g l z = z) (f f' : Nat → Nat → Nat → β)
    (hf : ∀ l c b, l < n' → f' l c b = g l (f (π l) c b)) :
    (v.withLeads n').fillFct z f'
      = (fun fct l k => if l < n' then g l (fct (π l) k) else z) <$> v.fillFct z f := by
  have key := foldlM_map' (fun (fct : Nat → Nat → β) l k => if l < n' then g l (fct (π l) k) else z)
    (l := List.range (v.ncharge - 1))
    (f := fun fct (charge : Nat) => do
      let Cs ← v.states (charge + 1)
      let Bs ← v.states charge
      (prod2 Cs Bs).foldlM
        (fun fct p => do
          let cb ← v.ind1 p.1 p.2 charge
          (List.range v.nleads).foldlM (fun fct l => v.wr fct l cb (f l p.1 p.2)) fct) fct)
    (g := fun fct (charge : Nat) => do
      let Cs ← v.states (charge + 1)
      let Bs ← v.states charge
      (prod2 Cs Bs).foldlM
        (fun fct p => do
          let cb ← v.ind1 p.1 p.2 charge
          (List.range n').foldlM (fun fct l => (v.withLeads n').wr fct l cb (f' l p.1 p.2)) fct) fct) (by
    intro q _ s
    cases v.states ((q : Int) + 1) with
    | error e => rfl
    | ok Cs =>
      simp only [py_bind_ok]
      cases v.states (q : Int) with
      | error e => rfl
      | ok Bs =>
        simp only [py_bind_ok]
        apply foldlM_map' (fun (fct : Nat → Nat → β) l k => if l < n' then g l (fct (π l) k) else z)
        intro p _ s
        cases v.ind1 p.1 p.2 (q : Int) with
        | error e => rfl
        | ok cb =>
          simp only [py_bind_ok]
          rw [wr_leads, wr_leads]
          have e : (n' = 0 ∨ cb < (v.withLeads n').ndm1) ↔ (v.nleads = 0 ∨ cb < v.ndm1) := by
            rw [hd.zero]; rfl
          by_cases hk : v.nleads = 0 ∨ cb < v.ndm1
          · rw [if_pos hk, if_pos (e.2 hk)]
            refine congrArg Except.ok (funext fun l => funext fun k => ?_)
            dsimp only
            by_cases hl : l < n'
            · by_cases ek : k = cb
              · simp [hl, ek, hd.lt l hl, hf l p.1 p.2 hl]
              · simp [hl, ek]
            · simp [hl]
          · rw [if_neg hk, if_neg (fun h => hk (e.1 h))]
            rfl) (fun _ _ => z)
  unfold View.fillFct
  rw [← key]
  simp only [hz, ite_self]
  rfl

theorem Divided.fp (E : Nat → ℝ) {l : Nat} (hl : l < n') (c b : Nat) :
    funcPauli (E c - E b) (L'.mu l) (L'.T l) (L'.Dm l) (L'.Dp l) L'.itype
      = funcPauli (E c - E b) (L.mu (π l)) (L.T (π l)) (L.Dm (π l)) (L.Dp (π l)) L.itype := by
  rw [hd.mu l hl, hd.temp l hl, hd.Dm l hl, hd.Dp l hl, hd.itype]

/-- Sums over the leads that read one factor. -/
theorem Divided.read {γ β : Type} [AddCommGroup β] [Module ℝ β] (f f' : Nat → Nat → γ) (k : Nat) (G G' : Nat → γ → β)
    (hg : ∀ l, l < n' → G' l (f' l k) = x l ^ 2 • G (π l) (f (π l) k)) :
    (Verif.sumM (List.range n') fun l => do
      let w ← (v.withLeads n').rd f' l k
      pure (G' l w)) = (Verif.sumM (List.range v.nleads) fun l => do
      let w ← v.rd f l k
      pure (G l w)) := by
  refine hd.sumM (k < v.ndm1) _ _ (fun l => G l (f l k)) (fun l => G' l (f' l k)) ?_ ?_ hg
  · intro l; unfold View.rd; split <;> rfl
  · intro l; unfold View.rd
    show (if k < v.ndm1 then _ else _) >>= _ = _
    split <;> rfl

/-- Sums over the leads that read two factors. -/
theorem Divided.read2 {γ β : Type} [AddCommGroup β] [Module ℝ β] (f f' : Nat → Nat → γ) (k k' : Nat)
    (G G' : Nat → γ → γ → β)
    (hg : ∀ l, l < n' → G' l (f' l k) (f' l k') = x l ^ 2 • G (π l) (f (π l) k) (f (π l) k')) :
    (Verif.sumM (List.range n') fun l => do
      let w ← (v.withLeads n').rd f' l k
      let w' ← (v.withLeads n').rd f' l k'
      pure (G' l w w')) = (Verif.sumM (List.range v.nleads) fun l => do
      let w ← v.rd f l k
      let w' ← v.rd f l k'
      pure (G l w w')) := by
  refine hd.sumM (k < v.ndm1 ∧ k' < v.ndm1) _ _ (fun l => G l (f l k) (f l k')) (fun l => G' l (f' l k) (f' l k')) ?_ ?_ hg
  · intro l; unfold View.rd
    by_cases h1 : k < v.ndm1
    · by_cases h2 : k' < v.ndm1
      · simp [h1, h2] <;> rfl
      · simp [h1, h2] <;> rfl
    · simp [h1] <;> rfl
  · intro l; unfold View.rd
    show ((if k < v.ndm1 then _ else _) >>= fun w => (if k' < v.ndm1 then _ else _) >>= _) = _
    by_cases h1 : k < v.ndm1
    · by_cases h2 : k' < v.ndm1
      · simp [h1, h2] <;> rfl
      · simp [h1, h2] <;> rfl
    · simp [h1] <;> rfl

omit hd in
/-- The rest of the indexing is the same. -/
theorem withLeads_blocks (b bp : Nat) (q : Int) (fA fC fA' fC' : Nat → Nat → Py ℂ) (fL fR fL' fR' : Nat → Py ℂ)
    (hA : ∀ a ap, fA' a ap = fA a ap) (hL : ∀ a, fL' a = fL a) (hR : ∀ a, fR' a = fR a)
    (hC : ∀ a ap, fC' a ap = fC a ap) :
    (v.withLeads n').blocks b bp q fA' fL' fR' fC' = v.blocks b bp q fA fL fR fC := by
  obtain rfl : fA' = fA := funext fun a => funext fun ap => hA a ap
  obtain rfl : fC' = fC := funext fun a => funext fun ap => hC a ap
  obtain rfl : fL' = fL := funext hL
  obtain rfl : fR' = fR := funext hR
  rfl

omit hd in
theorem withLeads_kernel (symq : Bool) (E : Nat → ℝ) (coup coup' : Nat → Nat → Int → Py (List KCall))
    (hc : ∀ b bp q, coup' b bp q = coup b bp q) :
    (v.withLeads n').assemble (v.withLeads n').ndm0r symq ((v.withLeads n').genKern E coup')
      = v.assemble v.ndm0r symq (v.genKern E coup) := by
  obtain rfl : coup' = coup := funext fun b => funext fun bp => funext fun q => hc b bp q
  rfl

theorem Divided.shared {evs evs' : List CEv} (h1 : ∀ l, l < n' → current evs' l = x l ^ 2 * current evs (π l))
    (h2 : ∀ l, l < n' → energyCurrent evs' l = x l ^ 2 * energyCurrent evs (π l)) :
    Shared v.nleads n' π x L L' evs evs' := by
  have h3 : ∀ l, l < n' → heatCurrent L' evs' l = x l ^ 2 * heatCurrent L evs (π l) := by
    intro l hl
    unfold heatCurrent
    rw [h1 l hl, h2 l hl, hd.mu l hl]; ring
  have key : ∀ (g g' : Nat → ℝ), (∀ l, l < n' → g' l = x l ^ 2 * g (π l)) → ∀ l, l < v.nleads →
      ∑ l' ∈ range n' with π l' = l, g' l' = g l := by
    intro g g' hg l hl
    rw [sum_congr rfl (g := fun l' => x l' ^ 2 * g l), ← sum_mul, hd.one l hl, one_mul]
    intro l' hl'
    obtain ⟨e1, e2⟩ := mem_filter.1 hl'
    rw [hg l' (mem_range.1 e1), e2]
  exact ⟨h1, h2, h3, key _ _ h1, key _ _ h2, key _ _ h3⟩

/-! ### Pauli -/

theorem Pauli.genFct_parts (E : Nat → ℝ) : Pauli.genFct (v.withLeads n') E L'
    = (fun f l k => if l < n' then (x l ^ 2 * (f (π l) k).1, x l ^ 2 * (f (π l) k).2) else (0, 0))
      <$> Pauli.genFct v E L := by
  refine fillFct_parts hd (0, 0) (fun l w => (x l ^ 2 * w.1, x l ^ 2 * w.2)) (by simp) _ _ ?_
  intro l c b hl
  unfold Pauli.amp
  rw [hd.fp E hl, hd.tba l hl, hd.tba l hl]
  have : ((x l : ℂ) * L.Tba (π l) b c * ((x l : ℂ) * L.Tba (π l) c b)).re
      = x l ^ 2 * (L.Tba (π l) b c * L.Tba (π l) c b).re := by
    rw [show (x l : ℂ) * L.Tba (π l) b c * ((x l : ℂ) * L.Tba (π l) c b)
      = ((x l ^ 2 : ℝ) : ℂ) * (L.Tba (π l) b c * L.Tba (π l) c b) by push_cast; ring, Complex.re_ofReal_mul]
  dsimp only
  rw [this, mul_assoc, mul_assoc]

theorem Pauli.kernel_parts (symq : Bool) (f f' : Nat → Nat → ℝ × ℝ)
    (hf : ∀ l, l < n' → ∀ k, f' l k = (x l ^ 2 * (f (π l) k).1, x l ^ 2 * (f (π l) k).2)) :
    Pauli.kernel (v.withLeads n') symq f' = Pauli.kernel v symq f := by
  have e1 : ∀ k, (sumM (List.range (v.withLeads n').nleads) fun l => do
      let w ← (v.withLeads n').rd f' l k
      pure (-w.2, w.1)) = (sumM (List.range v.nleads) fun l => do
      let w ← v.rd f l k
      pure (-w.2, w.1)) := fun k => hd.read f f' k (fun _ w => (-w.2, w.1)) (fun _ w => (-w.2, w.1))
        fun l hl => by rw [hf l hl]; exact Prod.ext (by simp) (by simp)
  have e2 : ∀ k, (sumM (List.range (v.withLeads n').nleads) fun l => do
      let w ← (v.withLeads n').rd f' l k
      pure (-w.1, w.2)) = (sumM (List.range v.nleads) fun l => do
      let w ← v.rd f l k
      pure (-w.1, w.2)) := fun k => hd.read f f' k (fun _ w => (-w.1, w.2)) (fun _ w => (-w.1, w.2))
        fun l hl => by rw [hf l hl]; exact Prod.ext (by simp) (by simp)
  have hc : ∀ b q, Pauli.coup (v.withLeads n') f' b q = Pauli.coup v f b q := by
    intro b q
    unfold Pauli.coup
    simp only [e1, e2]
    rfl
  unfold Pauli.kernel Pauli.genKern
  simp only [hc]
  rfl

/-- **C92** for the Pauli approach. A lead may be divided into parts: the kernel is the same, and for every state each
part carries its fraction of the currents. -/
theorem c92_pauli {la : Lab} (h : VOk v la) (E : Nat → ℝ) {f : Nat → Nat → ℝ × ℝ} (hf : Pauli.genFct v E L = .ok f) :
    ∃ f', Pauli.genFct (v.withLeads n') E L' = .ok f' ∧
    (∀ symq, Pauli.kernel (v.withLeads n') symq f' = Pauli.kernel v symq f) ∧
    ∀ φ : Vec, v.npauli ≤ φ.size → ∃ evs evs', Pauli.genCurrent v E f φ = .ok evs ∧
      Pauli.genCurrent (v.withLeads n') E f' φ = .ok evs' ∧ Shared v.nleads n' π x L L' evs evs' := by
  let f' : Nat → Nat → ℝ × ℝ :=
    fun l k => if l < n' then (x l ^ 2 * (f (π l) k).1, x l ^ 2 * (f (π l) k).2) else (0, 0)
  have e : ∀ l, l < n' → ∀ k, f' l k = (x l ^ 2 * (f (π l) k).1, x l ^ 2 * (f (π l) k).2) :=
    fun l hl k => if_pos hl
  refine ⟨f', by rw [Pauli.genFct_parts hd, hf]; rfl, fun symq => Pauli.kernel_parts hd symq f f' e, ?_⟩
  intro φ hs
  obtain ⟨evs, g, c⟩ := Pauli.genCurrent_ok h E f φ hs
  obtain ⟨evs', g', c'⟩ := Pauli.genCurrent_ok (h.withLeads n') E f' φ hs
  refine ⟨evs, evs', g, g', hd.shared (fun l hl => ?_) (fun l hl => ?_)⟩
  · rw [(c' l hl).1, (c _ (hd.lt l hl)).1]
    simp only [mul_sum, e l hl]
    refine sum_congr rfl fun q _ => sum_congr rfl fun c _ => sum_congr rfl fun b _ => ?_
    ring
  · rw [(c' l hl).2, (c _ (hd.lt l hl)).2]
    simp only [mul_sum, e l hl]
    refine sum_congr rfl fun q _ => sum_congr rfl fun c _ => sum_congr rfl fun b _ => ?_
    ring

/-! ### Lindblad -/

theorem Lindblad.jump_parts (t t' : Nat → Nat → Nat → ℂ) (ht : ∀ l, l < n' → ∀ b a, t' l b a = x l * t (π l) b a)
    (b bp a ap : Nat) : Lindblad.jump (v.withLeads n') t' b bp a ap = Lindblad.jump v t b bp a ap := by
  unfold Lindblad.jump
  have := hd.sumM True (fun l => (pure (t l b a * conj (t l bp ap)) : Py ℂ)) (fun l => pure (t' l b a * conj (t' l bp ap)))
    (fun l => t l b a * conj (t l bp ap)) (fun l => t' l b a * conj (t' l bp ap)) (fun l => by rw [if_pos trivial]; rfl)
    (fun l => by rw [if_pos trivial]; rfl) (fun l hl => by
      rw [ht l hl, ht l hl, map_mul, Complex.conj_ofReal, Complex.real_smul]; push_cast; ring)
  exact congrArg (fun s : Py ℂ => s >>= fun s => pure (Complex.I * s)) this

theorem Lindblad.decay_parts (t t' : Nat → Nat → Nat → ℂ) (ht : ∀ l, l < n' → ∀ b a, t' l b a = x l * t (π l) b a)
    (q : Int) (y z : Nat) : Lindblad.decay (v.withLeads n') t' q y z = Lindblad.decay v t q y z := by
  have e : ∀ a, (Verif.sumM (List.range (v.withLeads n').nleads) fun l =>
      (pure (-(1 / 2) * conj (t' l a y) * t' l a z) : Py ℂ))
      = Verif.sumM (List.range v.nleads) fun l => (pure (-(1 / 2) * conj (t l a y) * t l a z) : Py ℂ) := fun a =>
    hd.sumM True _ _ (fun l => -(1 / 2) * conj (t l a y) * t l a z) (fun l => -(1 / 2) * conj (t' l a y) * t' l a z)
      (fun l => by rw [if_pos trivial]; rfl) (fun l => by rw [if_pos trivial]; rfl) (fun l hl => by
      rw [ht l hl, ht l hl, map_mul, Complex.conj_ofReal, Complex.real_smul]; push_cast; ring)
  unfold Lindblad.decay
  simp only [e]
  rfl

theorem Lindblad.kernel_parts (symq : Bool) (E : Nat → ℝ) (t t' : Nat → Nat → Nat → ℂ)
    (ht : ∀ l, l < n' → ∀ b a, t' l b a = x l * t (π l) b a) :
    Lindblad.kernel (v.withLeads n') symq E t' = Lindblad.kernel v symq E t := by
  unfold Lindblad.kernel
  apply withLeads_kernel
  intro b bp q
  unfold Lindblad.coup
  apply withLeads_blocks
  · intro a ap; exact Lindblad.jump_parts hd t t' ht b bp a ap
  · intro a; exact Lindblad.decay_parts hd t t' ht q b a
  · intro a; exact Lindblad.decay_parts hd t t' ht q a bp
  · intro a ap; exact Lindblad.jump_parts hd t t' ht b bp a ap

omit hd in
theorem Lindblad.wr_leads (b a : Nat) (u d : Nat → ℂ) (m : Nat) (t : Nat → Nat → Nat → ℂ) :
    (List.range m).foldlM (fun t l => (pure (Lindblad.wr3 (Lindblad.wr3 t l b a (u l)) l a b (d l)) : Py _)) t
      = .ok fun l b' a' => if l < m then (if b' = a ∧ a' = b then d l else if b' = b ∧ a' = a then u l else t l b' a')
        else t l b' a' := by
  induction m with
  | zero => simp <;> rfl
  | succ m ih =>
    rw [List.range_succ, List.foldlM_append, ih, py_bind_ok, List.foldlM_cons]
    simp only [List.foldlM_nil, bind_pure]
    refine congrArg Except.ok (funext fun l => funext fun b' => funext fun a' => ?_)
    unfold Lindblad.wr3
    by_cases e : l = m
    · subst e
      simp
    · by_cases e' : l < m
      · simp [e, e', show l < m + 1 by omega]
      · simp [e, e', show ¬ l < m + 1 by omega]

theorem Lindblad.genFct_parts (E : Nat → ℝ) : Lindblad.genFct (v.withLeads n') E L'
    = (fun t l b a => if l < n' then (x l : ℂ) * t (π l) b a else 0) <$> Lindblad.genFct v E L := by
  have key := foldlM_map' (fun (t : Nat → Nat → Nat → ℂ) l b a => if l < n' then (x l : ℂ) * t (π l) b a else 0)
    (l := List.range (v.ncharge - 1))
    (f := fun t (charge : Nat) => do
      let Bs ← v.states (charge + 1)
      let As ← v.states charge
      (prod2 Bs As).foldlM
        (fun t p =>
          (List.range v.nleads).foldlM
            (fun t l =>
              let r := funcPauli (E p.1 - E p.2) (L.mu l) (L.T l) (L.Dm l) (L.Dp l) L.itype
              let t := Lindblad.wr3 t l p.1 p.2 (Real.sqrt r.1 * L.Tba l p.1 p.2)
              pure (Lindblad.wr3 t l p.2 p.1 (Real.sqrt r.2 * L.Tba l p.2 p.1))) t) t)
    (g := fun t (charge : Nat) => do
      let Bs ← v.states (charge + 1)
      let As ← v.states charge
      (prod2 Bs As).foldlM
        (fun t p =>
          (List.range n').foldlM
            (fun t l =>
              let r := funcPauli (E p.1 - E p.2) (L'.mu l) (L'.T l) (L'.Dm l) (L'.Dp l) L'.itype
              let t := Lindblad.wr3 t l p.1 p.2 (Real.sqrt r.1 * L'.Tba l p.1 p.2)
              pure (Lindblad.wr3 t l p.2 p.1 (Real.sqrt r.2 * L'.Tba l p.2 p.1))) t) t) (by
    intro q _ t
    cases v.states ((q : Int) + 1) with
    | error e => rfl
    | ok Bs =>
      simp only [py_bind_ok]
      cases v.states (q : Int) with
      | error e => rfl
      | ok As =>
        simp only [py_bind_ok]
        apply foldlM_map' (fun (t : Nat → Nat → Nat → ℂ) l b a => if l < n' then (x l : ℂ) * t (π l) b a else 0)
        intro p _ t
        rw [Lindblad.wr_leads p.1 p.2
          (fun l => Real.sqrt (funcPauli (E p.1 - E p.2) (L.mu l) (L.T l) (L.Dm l) (L.Dp l) L.itype).1 * L.Tba l p.1 p.2)
          (fun l => Real.sqrt (funcPauli (E p.1 - E p.2) (L.mu l) (L.T l) (L.Dm l) (L.Dp l) L.itype).2 * L.Tba l p.2 p.1),
          Lindblad.wr_leads p.1 p.2
          (fun l => Real.sqrt (funcPauli (E p.1 - E p.2) (L'.mu l) (L'.T l) (L'.Dm l) (L'.Dp l) L'.itype).1
            * L'.Tba l p.1 p.2)
          (fun l => Real.sqrt (funcPauli (E p.1 - E p.2) (L'.mu l) (L'.T l) (L'.Dm l) (L'.Dp l) L'.itype).2
            * L'.Tba l p.2 p.1)]
        refine congrArg Except.ok (funext fun l => funext fun b => funext fun a => ?_)
        dsimp only
        by_cases hl : l < n'
        · rw [hd.fp E hl, hd.tba l hl, hd.tba l hl]
          simp only [hl, hd.lt l hl, if_true]
          split
          · ring
          · split
            · ring
            · rfl
        · simp [hl]) (fun _ _ _ => 0)
  unfold Lindblad.genFct
  rw [← key]
  simp only [mul_zero, ite_self]
  rfl

theorem Lindblad.flow_parts (t t' : Nat → Nat → Nat → ℂ) (ht : ∀ l, l < n' → ∀ b a, t' l b a = x l * t (π l) b a)
    (ρ : Nat → Nat → Nat → ℂ) (w : Nat → Nat → ℂ) {l : Nat} (hl : l < n') :
    (Lindblad.flow (v.withLeads n') t' ρ w l).re = x l ^ 2 * (Lindblad.flow v t ρ w (π l)).re := by
  rw [← Complex.re_ofReal_mul]
  refine congrArg Complex.re ?_
  have hP : ∀ q z b bp, Lindblad.P t' ρ l q z b bp = ((x l ^ 2 : ℝ) : ℂ) * Lindblad.P t ρ (π l) q z b bp := by
    intro q z b bp
    unfold Lindblad.P
    rw [ht l hl, ht l hl, map_mul, Complex.conj_ofReal]
    push_cast; ring
  unfold Lindblad.flow
  show ∑ q ∈ range (v.ncharge - 1), ∑ x ∈ v.R (q + 1), ∑ b ∈ v.R q, (∑ xp ∈ v.R (q + 1), _ + ∑ bp ∈ v.R q, _) = _
  simp only [hP, mul_sum, mul_add]
  refine sum_congr rfl fun q _ => sum_congr rfl fun c _ => sum_congr rfl fun b _ => ?_
  congr 1 <;> exact sum_congr rfl fun _ _ => by ring

/-- **C92** for the Lindblad approach. -/
theorem c92_lindblad {la : Lab} (h : VOk v la) (E : Nat → ℝ) {t : Nat → Nat → Nat → ℂ}
    (ht : Lindblad.genFct v E L = .ok t) :
    ∃ t', Lindblad.genFct (v.withLeads n') E L' = .ok t' ∧
    (∀ symq, Lindblad.kernel (v.withLeads n') symq E t' = Lindblad.kernel v symq E t) ∧
    ∀ φ : Vec, v.ndm0r ≤ φ.size → ∃ evs evs', Lindblad.genCurrent v E t φ = .ok evs ∧
      Lindblad.genCurrent (v.withLeads n') E t' φ = .ok evs' ∧ Shared v.nleads n' π x L L' evs evs' := by
  let t' : Nat → Nat → Nat → ℂ := fun l b a => if l < n' then (x l : ℂ) * t (π l) b a else 0
  have e : ∀ l, l < n' → ∀ b a, t' l b a = x l * t (π l) b a := fun l hl b a => if_pos hl
  refine ⟨t', by rw [Lindblad.genFct_parts hd, ht]; rfl, fun symq => Lindblad.kernel_parts hd symq E t t' e, ?_⟩
  intro φ hs
  obtain ⟨evs, g, c⟩ := Lindblad.genCurrent_ok h E t φ hs
  obtain ⟨evs', g', c'⟩ := Lindblad.genCurrent_ok (h.withLeads n') E t' φ hs
  refine ⟨evs, evs', g, g', hd.shared (fun l hl => ?_) (fun l hl => ?_)⟩
  · rw [(c' l hl).1, (c _ (hd.lt l hl)).1]
    exact Lindblad.flow_parts hd t t' e _ _ hl
  · rw [(c' l hl).2, (c _ (hd.lt l hl)).2]
    exact Lindblad.flow_parts hd t t' e _ _ hl

/-! ### 1vN and Redfield -/

theorem genFct1vN_parts (lib : NumLib) (E : Nat → ℝ) : genFct1vN (v.withLeads n') lib E L'
    = (fun f l k => if l < n' then f (π l) k else ⟨0, 0, 0, 0⟩) <$> genFct1vN v lib E L := by
  refine fillFct_parts hd (⟨0, 0, 0, 0⟩ : Amp) (fun _ w => w) (fun _ => rfl) _ _ ?_
  intro l c b hl
  unfold amp1vN
  rw [hd.mu l hl, hd.temp l hl, hd.Dm l hl, hd.Dp l hl, hd.itype, hd.limit]

section
variable (T T' : Nat → Nat → Nat → ℂ) (hT : ∀ l, l < n' → ∀ b a, T' l b a = x l * T (π l) b a)
  (f f' : Nat → Nat → Amp) (hf : ∀ l, l < n' → ∀ k, f' l k = f (π l) k)
include hT hf

omit hd hT hf in
/-- Two amplitudes of a part and a number. -/
theorem two_amp (l : Nat) (T1 T2 w : ℂ) : ((x l : ℂ) * T1) * ((x l : ℂ) * T2) * w = x l ^ 2 • (T1 * T2 * w) := by
  rw [Complex.real_smul]; push_cast; ring

omit hT hf in
/-- Two sums over states of sums over the leads. -/
theorem states2_parts (As Cs : Py (List Nat)) (ix jx : Nat → Py Nat) (G G' H H' : Nat → Nat → Amp → ℂ)
    (hG : ∀ a k l, l < n' → G' a l (f' l k) = x l ^ 2 • G a (π l) (f (π l) k))
    (hH : ∀ a k l, l < n' → H' a l (f' l k) = x l ^ 2 • H a (π l) (f (π l) k)) :
    (do
      let As ← As
      let s1 ← sumM As fun a => do
        let k ← ix a
        sumM (List.range n') fun l => do
          let w ← (v.withLeads n').rd f' l k
          pure (G' a l w)
      let Cs ← Cs
      let s2 ← sumM Cs fun a => do
        let k ← jx a
        sumM (List.range n') fun l => do
          let w ← (v.withLeads n').rd f' l k
          pure (H' a l w)
      pure (s1 + s2) : Py ℂ) = (do
      let As ← As
      let s1 ← sumM As fun a => do
        let k ← ix a
        sumM (List.range v.nleads) fun l => do
          let w ← v.rd f l k
          pure (G a l w)
      let Cs ← Cs
      let s2 ← sumM Cs fun a => do
        let k ← jx a
        sumM (List.range v.nleads) fun l => do
          let w ← v.rd f l k
          pure (H a l w)
      pure (s1 + s2) : Py ℂ) := by
  have e1 := fun a k => hd.read f f' k (G a) (G' a) (hG a k)
  have e2 := fun a k => hd.read f f' k (H a) (H' a) (hH a k)
  simp only [e1, e2]

theorem VN1.kernel_parts (symq : Bool) (E : Nat → ℝ) :
    VN1.kernel (v.withLeads n') symq E T' f' = VN1.kernel v symq E T f := by
  unfold VN1.kernel
  apply withLeads_kernel
  intro b bp q
  unfold VN1.coup
  apply withLeads_blocks
  · intro a ap
    exact bind_congr fun k => bind_congr fun k' => hd.read2 f f' k k'
      (fun l w w' => T l b a * T l ap bp * conj w.cur0 - T l b a * T l ap bp * w'.cur0)
      (fun l w w' => T' l b a * T' l ap bp * conj w.cur0 - T' l b a * T' l ap bp * w'.cur0) (by
        intro l hl
        simp only [hT l hl, hf l hl, two_amp, smul_sub])
  · intro c
    exact states2_parts hd f f' _ _ _ _ (fun a l w => T l b a * T l a c * conj w.cur1)
      (fun a l w => T' l b a * T' l a c * conj w.cur1) (fun a l w => T l b a * T l a c * w.cur0)
      (fun a l w => T' l b a * T' l a c * w.cur0)
      (fun a k l hl => by simp only [hT l hl, hf l hl, two_amp])
      (fun a k l hl => by simp only [hT l hl, hf l hl, two_amp])
  · intro c
    exact states2_parts hd f f' _ _ _ _ (fun a l w => -T l c a * T l a bp * w.cur1)
      (fun a l w => -T' l c a * T' l a bp * w.cur1) (fun a l w => -T l c a * T l a bp * conj w.cur0)
      (fun a l w => -T' l c a * T' l a bp * conj w.cur0)
      (fun a k l hl => by simp only [hT l hl, hf l hl, ← mul_neg, two_amp])
      (fun a k l hl => by simp only [hT l hl, hf l hl, ← mul_neg, two_amp])
  · intro c cp
    exact bind_congr fun k => bind_congr fun k' => hd.read2 f f' k k'
      (fun l w w' => T l b c * T l cp bp * w.cur1 - T l b c * T l cp bp * conj w'.cur1)
      (fun l w w' => T' l b c * T' l cp bp * w.cur1 - T' l b c * T' l cp bp * conj w'.cur1) (by
        intro l hl
        simp only [hT l hl, hf l hl, two_amp, smul_sub])

theorem Redfield.kernel_parts (symq : Bool) (E : Nat → ℝ) :
    Redfield.kernel (v.withLeads n') symq E T' f' = Redfield.kernel v symq E T f := by
  unfold Redfield.kernel
  apply withLeads_kernel
  intro b bp q
  unfold Redfield.coup
  apply withLeads_blocks
  · intro a ap
    exact bind_congr fun k => bind_congr fun k' => hd.read2 f f' k k'
      (fun l w w' => T l b a * T l ap bp * conj w.cur0 - T l b a * T l ap bp * w'.cur0)
      (fun l w w' => T' l b a * T' l ap bp * conj w.cur0 - T' l b a * T' l ap bp * w'.cur0) (by
        intro l hl
        simp only [hT l hl, hf l hl, two_amp, smul_sub])
  · intro c
    exact states2_parts hd f f' _ _ _ _ (fun a l w => T l b a * T l a c * conj w.cur1)
      (fun a l w => T' l b a * T' l a c * conj w.cur1) (fun a l w => T l b a * T l a c * w.cur0)
      (fun a l w => T' l b a * T' l a c * w.cur0)
      (fun a k l hl => by simp only [hT l hl, hf l hl, two_amp])
      (fun a k l hl => by simp only [hT l hl, hf l hl, two_amp])
  · intro c
    exact states2_parts hd f f' _ _ _ _ (fun a l w => -T l c a * T l a bp * w.cur1)
      (fun a l w => -T' l c a * T' l a bp * w.cur1) (fun a l w => -T l c a * T l a bp * conj w.cur0)
      (fun a l w => -T' l c a * T' l a bp * conj w.cur0)
      (fun a k l hl => by simp only [hT l hl, hf l hl, ← mul_neg, two_amp])
      (fun a k l hl => by simp only [hT l hl, hf l hl, ← mul_neg, two_amp])
  · intro c cp
    exact bind_congr fun k => bind_congr fun k' => hd.read2 f f' k k'
      (fun l w w' => T l b c * T l cp bp * w.cur1 - T l b c * T l cp bp * conj w'.cur1)
      (fun l w w' => T' l b c * T' l cp bp * w.cur1 - T' l b c * T' l cp bp * conj w'.cur1) (by
        intro l hl
        simp only [hT l hl, hf l hl, two_amp, smul_sub])

omit hd hf in
theorem Z_parts (k0 k1 k0' k1' : Nat → Nat → Nat → Nat → Nat → ℂ) (ρ : Nat → Nat → Nat → ℂ) {l : Nat} (hl : l < n')
    (e0 : ∀ q c b bp, k0' l q c b bp = k0 (π l) q c b bp) (e1 : ∀ q c cp b, k1' l q c cp b = k1 (π l) q c cp b)
    (q c b : Nat) :
    (Coh.Z (v.withLeads n') T' k0' k1' ρ l q c b).im = x l ^ 2 * (Coh.Z v T k0 k1 ρ (π l) q c b).im := by
  rw [← Complex.im_ofReal_mul]
  refine congrArg Complex.im ?_
  unfold Coh.Z
  show ∑ bp ∈ v.R q, _ + ∑ xp ∈ v.R (q + 1), _ = _
  rw [mul_add, mul_sum, mul_sum]
  congr 1
  · refine sum_congr rfl fun bp _ => ?_
    rw [hT l hl, hT l hl, e0]; push_cast; ring
  · refine sum_congr rfl fun bp _ => ?_
    rw [hT l hl, hT l hl, e1]; push_cast; ring

end

/-- **C92** for the 1vN approach. -/
theorem c92_1vN {la : Lab} (h : VOk v la) (lib : NumLib) (E : Nat → ℝ) {f : Nat → Nat → Amp}
    (hf : genFct1vN v lib E L = .ok f) :
    ∃ f', genFct1vN (v.withLeads n') lib E L' = .ok f' ∧
    (∀ symq, VN1.kernel (v.withLeads n') symq E L'.Tba f' = VN1.kernel v symq E L.Tba f) ∧
    ∀ φ : Vec, v.ndm0r ≤ φ.size → ∃ evs evs', VN1.genCurrent v L.Tba f φ = .ok evs ∧
      VN1.genCurrent (v.withLeads n') L'.Tba f' φ = .ok evs' ∧
      Shared v.nleads n' π x L L' (evs.map (·.ev)) (evs'.map (·.ev)) := by
  let f' : Nat → Nat → Amp := fun l k => if l < n' then f (π l) k else ⟨0, 0, 0, 0⟩
  have e : ∀ l, l < n' → ∀ k, f' l k = f (π l) k := fun l hl k => if_pos hl
  refine ⟨f', by rw [genFct1vN_parts hd, hf]; rfl,
    fun symq => VN1.kernel_parts hd L.Tba L'.Tba hd.tba f f' e symq E, ?_⟩
  intro φ hs
  obtain ⟨evs, g, _, c⟩ := VN1.genCurrent_ok h L.Tba f φ hs
  obtain ⟨evs', g', _, c'⟩ := VN1.genCurrent_ok (h.withLeads n') L'.Tba f' φ hs
  refine ⟨evs, evs', g, g', hd.shared (fun l hl => ?_) (fun l hl => ?_)⟩
  · rw [(c' l hl).1, (c _ (hd.lt l hl)).1]
    simp only [mul_sum]
    refine sum_congr rfl fun q _ => sum_congr rfl fun c _ => sum_congr rfl fun b _ => ?_
    refine (congrArg (-2 * ·) (Z_parts L.Tba L'.Tba hd.tba (fun l q c b _ => (f l (la.ix1 q c b)).cur0)
      (fun l q c _ b => (f l (la.ix1 q c b)).cur1) _ _ _ hl (fun q c b _ => by rw [e l hl])
      (fun q c _ b => by rw [e l hl]) q c b)).trans ?_
    exact mul_left_comm _ _ _
  · rw [(c' l hl).2, (c _ (hd.lt l hl)).2]
    simp only [mul_sum]
    refine sum_congr rfl fun q _ => sum_congr rfl fun c _ => sum_congr rfl fun b _ => ?_
    refine (congrArg (-2 * ·) (Z_parts L.Tba L'.Tba hd.tba (fun l q c b _ => (f l (la.ix1 q c b)).en0)
      (fun l q c _ b => (f l (la.ix1 q c b)).en1) _ _ _ hl (fun q c b _ => by rw [e l hl])
      (fun q c _ b => by rw [e l hl]) q c b)).trans ?_
    exact mul_left_comm _ _ _

/-- **C92** for the Redfield approach. -/
theorem c92_redfield {la : Lab} (h : VOk v la) (lib : NumLib) (E : Nat → ℝ) {f : Nat → Nat → Amp}
    (hf : genFct1vN v lib E L = .ok f) :
    ∃ f', genFct1vN (v.withLeads n') lib E L' = .ok f' ∧
    (∀ symq, Redfield.kernel (v.withLeads n') symq E L'.Tba f' = Redfield.kernel v symq E L.Tba f) ∧
    ∀ φ : Vec, v.ndm0r ≤ φ.size → ∃ evs evs', Redfield.genCurrent v L.Tba f φ = .ok evs ∧
      Redfield.genCurrent (v.withLeads n') L'.Tba f' φ = .ok evs' ∧
      Shared v.nleads n' π x L L' (evs.map (·.ev)) (evs'.map (·.ev)) := by
  let f' : Nat → Nat → Amp := fun l k => if l < n' then f (π l) k else ⟨0, 0, 0, 0⟩
  have e : ∀ l, l < n' → ∀ k, f' l k = f (π l) k := fun l hl k => if_pos hl
  refine ⟨f', by rw [genFct1vN_parts hd, hf]; rfl,
    fun symq => Redfield.kernel_parts hd L.Tba L'.Tba hd.tba f f' e symq E, ?_⟩
  intro φ hs
  obtain ⟨evs, g, _, c⟩ := Redfield.genCurrent_ok h L.Tba f φ hs
  obtain ⟨evs', g', _, c'⟩ := Redfield.genCurrent_ok (h.withLeads n') L'.Tba f' φ hs
  refine ⟨evs, evs', g, g', hd.shared (fun l hl => ?_) (fun l hl => ?_)⟩
  · rw [(c' l hl).1, (c _ (hd.lt l hl)).1]
    simp only [mul_sum]
    refine sum_congr rfl fun q _ => sum_congr rfl fun c _ => sum_congr rfl fun b _ => ?_
    refine (congrArg (-2 * ·) (Z_parts L.Tba L'.Tba hd.tba (fun l q c _ bp => (f l (la.ix1 q c bp)).cur0)
      (fun l q _ cp b => (f l (la.ix1 q cp b)).cur1) _ _ _ hl (fun q c _ bp => by rw [e l hl])
      (fun q _ cp b => by rw [e l hl]) q c b)).trans ?_
    exact mul_left_comm _ _ _
  · rw [(c' l hl).2, (c _ (hd.lt l hl)).2]
    simp only [mul_sum]
    refine sum_congr rfl fun q _ => sum_congr rfl fun c _ => sum_congr rfl fun b _ => ?_
    refine (congrArg (-2 * ·) (Z_parts L.Tba L'.Tba hd.tba (fun l q c _ bp => (f l (la.ix1 q c bp)).en0)
      (fun l q _ cp b => (f l (la.ix1 q cp b)).en1) _ _ _ hl (fun q c _ bp => by rw [e l hl])
      (fun q _ cp b => by rw [e l hl]) q c b)).trans ?_
    exact mul_left_comm _ _ _

end

/-- The hypotheses of the theorems for C92 hold for two orbitals and two leads, of which the second is divided into two
parts with the amplitudes 3/5 and 4/5. -/
example (lib : NumLib) : ∃ (v : View) (la : Lab) (E : Nat → ℝ) (L L' : Leads) (x : Nat → ℝ) (f : Nat → Nat → Amp)
    (g : Nat → Nat → ℝ × ℝ), VOk v la ∧ v.nleads = 2 ∧ Divided v.nleads 3 (fun l => if l = 0 then 0 else 1) x L L' ∧
    genFct1vN v lib E L = .ok f ∧ Pauli.genFct v E L = .ok g ∧ L.Tba 0 0 1 ≠ 0 ∧ L.mu 0 ≠ L.mu 1 ∧ x 1 ≠ x 2 := by
  obtain ⟨d, _, hv, hst, _, hn⟩ := view_example' 2
  let x : Nat → ℝ := fun l => if l = 0 then 1 else if l = 1 then 3 / 5 else 4 / 5
  let L : Leads := ⟨fun l => l, fun l => l + 1, fun _ => -60, fun _ => 60, fun l _ _ => l + 1, 0, 10000⟩
  let π : Nat → Nat := fun l => if l = 0 then 0 else 1
  let L' : Leads := ⟨fun l => L.mu (π l), fun l => L.T (π l), fun _ => -60, fun _ => 60,
    fun l b a => x l * L.Tba (π l) b a, 0, 10000⟩
  obtain ⟨f, gf, _⟩ := fillFct_ok hv (⟨0, 0, 0, 0⟩ : Amp) (amp1vN lib (fun b => (b : ℝ)) L)
  obtain ⟨g, gg, _⟩ := fillFct_ok hv ((0, 0) : ℝ × ℝ) (Pauli.amp (fun b => (b : ℝ)) L)
  refine ⟨d.view 2, d.labOf, fun b => b, L, L', x, f, g, hv, rfl, ⟨?_, ?_, fun _ _ => rfl, fun _ _ => rfl,
    fun _ _ => rfl, fun _ _ => rfl, fun _ _ _ _ => rfl, rfl, rfl⟩, gf, gg, by simp [L], by simp [L], by
    norm_num [x]⟩
  · intro l _
    show (if l = 0 then 0 else 1) < 2
    split <;> omega
  · intro l hl
    have : l = 0 ∨ l = 1 := by
      have : l < 2 := hl
      omega
    rcases this with rfl | rfl
    · norm_num [sum_filter, sum_range_succ, x]
    · norm_num [sum_filter, sum_range_succ, x]

end

end Verif
