import Verif.Lemmas.Neumann2Terms

/-! The equations for `Phi[1](k)` as equations between matrices. -/

namespace Verif

open Finset

noncomputable section

namespace VN2

/-- The states below. -/
theorem _root_.Verif.VOkC.Lo_succ {v : View} {lab ix1 : Nat → Nat → Nat → Nat} (_ : VOkC v lab ix1) (q : Nat) :
    v.Lo (q + 1) = v.R q := by
  simp [View.Lo, View.low, View.R]

section

variable {s : Terms} {lab ix1 : Nat → Nat → Nat → Nat} {D : Dot}

theorem IsDot.sum_charge (d : IsDot D s.v s.E s.T) (h : VOkC s.v lab ix1) (c : Nat) (g : Nat → ℂ) :
    (∑ m ∈ D.states, if D.charge m = c then g m else 0) = ∑ m ∈ s.v.R c, g m := by
  rw [← sum_filter]
  refine sum_congr ?_ fun _ _ => rfl
  ext m
  simp only [mem_filter, h.mem_R]
  constructor
  · rintro ⟨h1, h2⟩
    obtain ⟨c', hc'⟩ := (d.states m).1 h1
    rw [d.charge c' m hc'] at h2
    rwa [h2] at hc'
  · intro hm
    exact ⟨(d.states m).2 ⟨c, hm⟩, d.charge c m hm⟩

theorem IsDot.sum_low (d : IsDot D s.v s.E s.T) (h : VOkC s.v lab ix1) (q : Nat) (g : Nat → ℂ) :
    (∑ m ∈ D.states, if q = D.charge m + 1 then g m else 0) = ∑ m ∈ s.v.Lo q, g m := by
  rcases q with _ | q
  · rw [sum_eq_zero]
    · simp [View.Lo, View.low]
    · intro m _; rw [if_neg (by omega)]
  · rw [h.Lo_succ q, ← d.sum_charge h]
    refine sum_congr rfl fun m _ => ?_
    have : (q + 1 = D.charge m + 1) ↔ (D.charge m = q) := by omega
    simp only [this]

/-- A matrix with elements from charge `q` to `q + 1`. -/
def First (D : Dot) (X : Mx) : Prop := ∀ m n, D.charge m ≠ D.charge n + 1 → X m n = 0

theorem mix_first (d : IsDot D s.v s.E s.T) (h : VOkC s.v lab ix1) {X : Mx} (hX : First D X) (l : Nat) (f g : ℂ)
    {p r m n : Nat} (hm : m ∈ s.v.row p) (hn : n ∈ s.v.row r) :
    D.mix l f g X m n = ∑ u ∈ s.v.R (r + 1), f * (s.T l m u * X u n) + ∑ u ∈ s.v.Lo p, g * (X m u * s.T l u n) := by
  unfold Dot.mix
  rw [d.T, sum_add_distrib, ← d.sum_charge h, ← d.sum_low h]
  have cm := d.charge _ _ hm
  have cn := d.charge _ _ hn
  congr 1
  · refine sum_congr rfl fun u _ => ?_
    split
    · rfl
    · rw [hX u n (by rw [cn]; assumption)]; ring
  · refine sum_congr rfl fun u _ => ?_
    split
    · rfl
    · rw [hX m u (by rw [cm]; assumption)]; ring

theorem mix_adj (d : IsDot D s.v s.E s.T) (h : VOkC s.v lab ix1) {X : Mx} (hX : First D fun m n => X n m) (l : Nat) (f g : ℂ)
    {p r m n : Nat} (hm : m ∈ s.v.row p) (hn : n ∈ s.v.row r) :
    D.mix l f g X m n = ∑ u ∈ s.v.Lo r, f * (s.T l m u * X u n) + ∑ u ∈ s.v.R (p + 1), g * (X m u * s.T l u n) := by
  unfold Dot.mix
  rw [d.T, sum_add_distrib, ← d.sum_charge h, ← d.sum_low h]
  have cm := d.charge _ _ hm
  have cn := d.charge _ _ hn
  congr 1
  · refine sum_congr rfl fun u _ => ?_
    split
    · rfl
    · have := hX n u (by rw [cn]; assumption)
      simp only at this
      rw [this]; ring
  · refine sum_congr rfl fun u _ => ?_
    split
    · rfl
    · have := hX u m (by rw [cm]; assumption)
      simp only at this
      rw [this]; ring

theorem anti_two (d : IsDot D s.v s.E s.T) (h : VOkC s.v lab ix1) (l : Nat) (Ek : ℝ) (Y Z : ℝ → Mx) {q c b : Nat}
    (hc : c ∈ s.v.row (q + 1)) (hb : b ∈ s.v.row q) :
    D.anti l (D.two Ek Y Z) c b =
      ∑ r ∈ s.v.R q, s.T l c r * Y (Ek - s.E r + s.E b) r b +
      ∑ r ∈ s.v.R (q + 2), s.T l c r * Z (-(Ek - s.E r + s.E b)) r b +
      ∑ r ∈ s.v.R (q + 1), Y (Ek - s.E c + s.E r) c r * s.T l r b +
      ∑ r ∈ s.v.Lo q, Z (-(Ek - s.E c + s.E r)) c r * s.T l r b := by
  unfold Dot.anti Dot.two
  have cc := d.charge _ _ hc
  have cb := d.charge _ _ hb
  rw [d.T, d.E, cc, cb, ← d.sum_charge h, ← d.sum_charge h, ← d.sum_charge h, ← d.sum_low h, ← sum_add_distrib,
    ← sum_add_distrib, ← sum_add_distrib]
  refine sum_congr rfl fun r _ => ?_
  by_cases h1 : D.charge r = q
  · simp [h1]
  by_cases h2 : D.charge r = q + 2
  · simp only [h2]
    rw [if_neg (by omega), if_pos trivial, if_neg (by omega), if_neg (by omega), if_neg (by omega), if_pos trivial,
      if_neg (by omega), if_neg (by omega)]
    ring
  by_cases h3 : D.charge r = q + 1
  · simp only [h3]
    rw [if_neg (by omega), if_neg (by omega), if_pos trivial, if_neg (by omega), if_neg (by omega), if_pos trivial,
      if_neg (by omega)]
    ring
  by_cases h4 : q = D.charge r + 1
  · rw [if_neg h1, if_neg h2, if_neg (Ne.symm h3), if_pos (by omega), if_neg h1, if_neg h2, if_neg h3, if_pos h4]
    ring
  · rw [if_neg h1, if_neg h2, if_neg (Ne.symm h3), if_neg (by omega), if_neg h1, if_neg h2, if_neg h3, if_neg h4]
    ring

/-- Charges of states below. -/
theorem low_row (h : VOkC s.v lab ix1) {q a : Nat} (ha : a ∈ s.v.Lo q) : a ∈ s.v.row (q - 1) ∧ q - 1 + 1 = q := by
  obtain ⟨h0, h1, _⟩ := h.low_mem (List.mem_toFinset.1 ha)
  exact ⟨h1, by omega⟩

theorem sum3 {A B C : Finset Nat} (f : Nat → Nat → Nat → ℂ) :
    ∑ a ∈ A, ∑ b ∈ B, ∑ c ∈ C, f a b c = ∑ c ∈ C, ∑ a ∈ A, ∑ b ∈ B, f a b c := by
  rw [sum_comm' (s := C) (t := fun _ => A) (s' := fun _ => C) (t' := A) (by simp [and_comm])]
  exact sum_congr rfl fun a _ => sum_comm

/-- The action of `kern1`. -/
theorem locSum_eq (d : IsDot D s.v s.E s.T) (h : VOkC s.v lab ix1) (A : Dot.Leads) (Ek : ℝ) {X : Mx} (hX : First D X)
    (x : Nat → ℂ) (hx : ∀ q c b, c ∈ s.v.row (q + 1) → b ∈ s.v.row q → X c b = x (ix1 q c b))
    {q c b : Nat} (hc : c ∈ s.v.row (q + 1)) (hb : b ∈ s.v.row q) :
    locSum s ix1 A.F A.G Ek x q c b = ((Ek - s.E c + s.E b : ℝ) : ℂ) * X c b - D.localTerm A Ek X c b := by
  have e1 : D.localTerm A Ek X c b = ∑ l ∈ range s.v.nleads, (
      ∑ r ∈ s.v.R q, s.T l c r * (∑ u ∈ s.v.R (q + 1), A.G l (Ek - s.E r + s.E b) * (s.T l r u * x (ix1 q u b)) +
        ∑ u ∈ s.v.Lo q, A.F l (Ek - s.E r + s.E b) * (x (ix1 (q - 1) r u) * s.T l u b)) +
      ∑ r ∈ s.v.R (q + 2), s.T l c r * -(∑ u ∈ s.v.R (q + 1), (starRingEnd ℂ) (A.F l (-(Ek - s.E r + s.E b))) * (s.T l r u * x (ix1 q u b)) +
        ∑ u ∈ s.v.R (q + 1), (starRingEnd ℂ) (A.G l (-(Ek - s.E r + s.E b))) * (x (ix1 (q + 1) r u) * s.T l u b)) +
      ∑ r ∈ s.v.R (q + 1), (∑ u ∈ s.v.R (q + 2), A.G l (Ek - s.E c + s.E r) * (s.T l c u * x (ix1 (q + 1) u r)) +
        ∑ u ∈ s.v.R q, A.F l (Ek - s.E c + s.E r) * (x (ix1 q c u) * s.T l u r)) * s.T l r b +
      ∑ r ∈ s.v.Lo q, -(∑ u ∈ s.v.R q, (starRingEnd ℂ) (A.F l (-(Ek - s.E c + s.E r))) * (s.T l c u * x (ix1 (q - 1) u r)) +
        ∑ u ∈ s.v.R q, (starRingEnd ℂ) (A.G l (-(Ek - s.E c + s.E r))) * (x (ix1 q c u) * s.T l u r)) * s.T l r b) := by
    unfold Dot.localTerm
    rw [d.nleads]
    refine sum_congr rfl fun l _ => ?_
    rw [anti_two d h l Ek _ _ hc hb]
    refine congrArg₂ _ (congrArg₂ _ (congrArg₂ _ ?_ ?_) ?_) ?_
    · refine sum_congr rfl fun r hr => ?_
      have hr := h.mem_R.1 hr
      rw [mix_first d h hX _ _ _ hr hb]
      congr 2
      · exact sum_congr rfl fun u hu => by rw [hx q u b (h.mem_R.1 hu) hb]
      · refine sum_congr rfl fun u hu => ?_
        obtain ⟨g1, g2⟩ := low_row h hu
        rw [hx (q - 1) r u (by rwa [g2]) g1]
    · refine sum_congr rfl fun r hr => ?_
      have hr := h.mem_R.1 hr
      rw [mix_first d h hX _ _ _ hr hb, h.Lo_succ]
      congr 3
      · exact sum_congr rfl fun u hu => by rw [hx q u b (h.mem_R.1 hu) hb]
      · exact sum_congr rfl fun u hu => by rw [hx (q + 1) r u hr (h.mem_R.1 hu)]
    · refine sum_congr rfl fun r hr => ?_
      have hr := h.mem_R.1 hr
      rw [mix_first d h hX _ _ _ hc hr, h.Lo_succ]
      congr 2
      · exact sum_congr rfl fun u hu => by rw [hx (q + 1) u r (h.mem_R.1 hu) hr]
      · exact sum_congr rfl fun u hu => by rw [hx q c u hc (h.mem_R.1 hu)]
    · refine sum_congr rfl fun r hr => ?_
      obtain ⟨g1, g2⟩ := low_row h hr
      rw [mix_first d h hX _ _ _ hc g1, h.Lo_succ, g2]
      congr 3
      · exact sum_congr rfl fun u hu => by rw [hx (q - 1) u r (by rw [g2]; exact h.mem_R.1 hu) g1]
      · exact sum_congr rfl fun u hu => by rw [hx q c u hc (h.mem_R.1 hu)]
  rw [e1, hx q c b hc hb, locSum]
  rw [sum3 (A := s.v.R q) (B := s.v.Lo q), sum3 (A := s.v.R (q + 2)) (B := s.v.R (q + 1)), sub_eq_add_neg (_ * _)]
  congr 1
  rw [sum_comm (s := s.v.R q) (t := range s.v.nleads), sum_comm (s := s.v.R (q + 1)) (t := range s.v.nleads),
    ← sum_add_distrib, ← sum_add_distrib, ← sum_add_distrib, ← sum_neg_distrib]
  refine sum_congr rfl fun l _ => ?_
  have k1 : ∑ r ∈ s.v.R q, ∑ u ∈ s.v.Lo q, -(s.T l c r * s.T l u b *
        (A.F l (Ek - s.E r + s.E b) - (starRingEnd ℂ) (A.F l (-(Ek - s.E c + s.E u))))) * x (ix1 (q - 1) r u) =
      -(∑ r ∈ s.v.R q, ∑ u ∈ s.v.Lo q, s.T l c r * (A.F l (Ek - s.E r + s.E b) * (x (ix1 (q - 1) r u) * s.T l u b))) +
      ∑ r ∈ s.v.Lo q, ∑ u ∈ s.v.R q, (starRingEnd ℂ) (A.F l (-(Ek - s.E c + s.E r))) * (s.T l c u * x (ix1 (q - 1) u r)) * s.T l r b := by
    rw [sum_comm (s := s.v.Lo q)]
    simp only [← sum_neg_distrib, ← sum_add_distrib]
    exact sum_congr rfl fun r _ => sum_congr rfl fun u _ => by ring
  have k2 : ∑ r ∈ s.v.R q, (∑ u ∈ s.v.R (q + 1), -(s.T l r u * s.T l u b * A.F l (Ek - s.E c + s.E u)) * x (ix1 q c r) +
        ∑ u ∈ s.v.Lo q, -(-s.T l r u * s.T l u b * (starRingEnd ℂ) (A.G l (-(Ek - s.E c + s.E u)))) * x (ix1 q c r)) =
      -(∑ r ∈ s.v.R (q + 1), ∑ u ∈ s.v.R q, A.F l (Ek - s.E c + s.E r) * (x (ix1 q c u) * s.T l u r) * s.T l r b) +
      ∑ r ∈ s.v.Lo q, ∑ u ∈ s.v.R q, (starRingEnd ℂ) (A.G l (-(Ek - s.E c + s.E r))) * (x (ix1 q c u) * s.T l u r) * s.T l r b := by
    rw [sum_comm (s := s.v.Lo q), sum_comm (s := s.v.R (q + 1)), sum_add_distrib]
    simp only [← sum_neg_distrib]
    congr 1 <;> exact sum_congr rfl fun r _ => sum_congr rfl fun u _ => by ring
  have k3 : ∑ r ∈ s.v.R (q + 1), (∑ u ∈ s.v.R q, -(s.T l c u * s.T l u r * A.G l (Ek - s.E u + s.E b)) * x (ix1 q r b) +
        ∑ u ∈ s.v.R (q + 2), -(-s.T l c u * s.T l u r * (starRingEnd ℂ) (A.F l (-(Ek - s.E u + s.E b)))) * x (ix1 q r b)) =
      -(∑ r ∈ s.v.R q, ∑ u ∈ s.v.R (q + 1), s.T l c r * (A.G l (Ek - s.E r + s.E b) * (s.T l r u * x (ix1 q u b)))) +
      ∑ r ∈ s.v.R (q + 2), ∑ u ∈ s.v.R (q + 1), s.T l c r * ((starRingEnd ℂ) (A.F l (-(Ek - s.E r + s.E b))) * (s.T l r u * x (ix1 q u b))) := by
    rw [sum_comm (s := s.v.R (q + 2)), sum_comm (s := s.v.R q), sum_add_distrib]
    simp only [← sum_neg_distrib]
    congr 1 <;> exact sum_congr rfl fun r _ => sum_congr rfl fun u _ => by ring
  have k4 : ∑ r ∈ s.v.R (q + 2), ∑ u ∈ s.v.R (q + 1), -(s.T l c r * s.T l u b *
        (A.G l (Ek - s.E c + s.E u) - (starRingEnd ℂ) (A.G l (-(Ek - s.E r + s.E b))))) * x (ix1 (q + 1) r u) =
      -(∑ r ∈ s.v.R (q + 1), ∑ u ∈ s.v.R (q + 2), A.G l (Ek - s.E c + s.E r) * (s.T l c u * x (ix1 (q + 1) u r)) * s.T l r b) +
      ∑ r ∈ s.v.R (q + 2), ∑ u ∈ s.v.R (q + 1), s.T l c r * ((starRingEnd ℂ) (A.G l (-(Ek - s.E r + s.E b))) * (x (ix1 (q + 1) r u) * s.T l u b)) := by
    rw [sum_comm (s := s.v.R (q + 1))]
    simp only [← sum_neg_distrib, ← sum_add_distrib]
    exact sum_congr rfl fun r _ => sum_congr rfl fun u _ => by ring
  rw [k1, k2, k3, k4]
  simp only [mul_add, add_mul, mul_neg, neg_mul, mul_sum, sum_mul, sum_add_distrib, sum_neg_distrib, neg_add]
  ring

/-- The sum of the eight terms. -/
theorem itrSum_eq (d : IsDot D s.v s.E s.T) (h : VOkC s.v lab ix1) (A : Dot.Leads) (Ek : ℝ) (l : Nat)
    {U V : Nat → ℝ → Mx} (hU : ∀ l e, First D fun m n => U l e n m) (hV : ∀ l e, First D (V l e))
    (u w : Nat → Nat → ℝ → ℂ)
    (hu : ∀ l < s.v.nleads, ∀ q c b, c ∈ s.v.row (q + 1) → b ∈ s.v.row q → ∀ e, U l e b c = u l (ix1 q c b) e)
    (hw : ∀ l < s.v.nleads, ∀ q c b, c ∈ s.v.row (q + 1) → b ∈ s.v.row q → ∀ e, V l e c b = w l (ix1 q c b) e)
    {q c b : Nat} (hc : c ∈ s.v.row (q + 1)) (hb : b ∈ s.v.row q) :
    itrSum s ix1 u w Ek l (A.f l) (1 - A.f l) q c b = D.nonlocalTerm A Ek l U V c b := by
  have e1 : D.nonlocalTerm A Ek l U V c b = ∑ l1 ∈ range s.v.nleads, (
      ∑ r ∈ s.v.R q, s.T l1 c r * -(∑ a ∈ s.v.Lo q, A.f l * (s.T l r a * u l1 (ix1 (q - 1) b a) (Ek - s.E r + s.E b)) +
        ∑ a ∈ s.v.R (q + 1), (1 - A.f l) * (u l1 (ix1 q a r) (Ek - s.E r + s.E b) * s.T l a b)) +
      ∑ r ∈ s.v.R (q + 2), s.T l1 c r * (∑ a ∈ s.v.R (q + 1), A.f l * (s.T l r a * w l1 (ix1 q a b) (-(Ek - s.E r + s.E b))) +
        ∑ a ∈ s.v.R (q + 1), (1 - A.f l) * (w l1 (ix1 (q + 1) r a) (-(Ek - s.E r + s.E b)) * s.T l a b)) +
      ∑ r ∈ s.v.R (q + 1), -(∑ a ∈ s.v.R q, A.f l * (s.T l c a * u l1 (ix1 q r a) (Ek - s.E c + s.E r)) +
        ∑ a ∈ s.v.R (q + 2), (1 - A.f l) * (u l1 (ix1 (q + 1) a c) (Ek - s.E c + s.E r) * s.T l a r)) * s.T l1 r b +
      ∑ r ∈ s.v.Lo q, (∑ a ∈ s.v.R q, A.f l * (s.T l c a * w l1 (ix1 (q - 1) a r) (-(Ek - s.E c + s.E r))) +
        ∑ a ∈ s.v.R q, (1 - A.f l) * (w l1 (ix1 q c a) (-(Ek - s.E c + s.E r)) * s.T l a r)) * s.T l1 r b) := by
    unfold Dot.nonlocalTerm
    rw [d.nleads]
    refine sum_congr rfl fun l1 hl1 => ?_
    have hl1 := mem_range.1 hl1
    rw [anti_two d h l1 Ek _ _ hc hb]
    refine congrArg₂ _ (congrArg₂ _ (congrArg₂ _ ?_ ?_) ?_) ?_
    · refine sum_congr rfl fun r hr => ?_
      have hr := h.mem_R.1 hr
      rw [mix_adj d h (hU l1 _) _ _ _ hr hb]
      congr 3
      · refine sum_congr rfl fun a ha => ?_
        obtain ⟨g1, g2⟩ := low_row h ha
        rw [hu l1 hl1 (q - 1) b a (by rwa [g2]) g1]
      · exact sum_congr rfl fun a ha => by rw [hu l1 hl1 q a r (h.mem_R.1 ha) hr]
    · refine sum_congr rfl fun r hr => ?_
      have hr := h.mem_R.1 hr
      rw [mix_first d h (hV l1 _) _ _ _ hr hb, h.Lo_succ]
      congr 2
      · exact sum_congr rfl fun a ha => by rw [hw l1 hl1 q a b (h.mem_R.1 ha) hb]
      · exact sum_congr rfl fun a ha => by rw [hw l1 hl1 (q + 1) r a hr (h.mem_R.1 ha)]
    · refine sum_congr rfl fun r hr => ?_
      have hr := h.mem_R.1 hr
      rw [mix_adj d h (hU l1 _) _ _ _ hc hr, h.Lo_succ]
      congr 3
      · exact sum_congr rfl fun a ha => by rw [hu l1 hl1 q r a hr (h.mem_R.1 ha)]
      · exact sum_congr rfl fun a ha => by rw [hu l1 hl1 (q + 1) a c (h.mem_R.1 ha) hc]
    · refine sum_congr rfl fun r hr => ?_
      obtain ⟨g1, g2⟩ := low_row h hr
      rw [mix_first d h (hV l1 _) _ _ _ hc g1, h.Lo_succ, g2]
      congr 2
      · exact sum_congr rfl fun a ha => by rw [hw l1 hl1 (q - 1) a r (by rw [g2]; exact h.mem_R.1 ha) g1]
      · exact sum_congr rfl fun a ha => by rw [hw l1 hl1 q c a hc (h.mem_R.1 ha)]
  rw [e1, itrSum]
  rw [sum3 (A := s.v.Lo q) (B := s.v.R q), sum3 (A := s.v.R q) (B := s.v.R (q + 1)), sum3 (A := s.v.R (q + 1)) (B := s.v.R (q + 2)),
    sum3 (A := s.v.R (q + 2)) (B := s.v.R (q + 1)), sum3 (A := s.v.R (q + 2)) (B := s.v.R (q + 1)),
    sum3 (A := s.v.R q) (B := s.v.Lo q), sum3 (A := s.v.R q) (B := s.v.Lo q)]
  simp only [← sum_add_distrib (s := range s.v.nleads)]
  refine sum_congr rfl fun l1 _ => ?_
  have k1 : ∑ a ∈ s.v.Lo q, ∑ r ∈ s.v.R q, -s.T l1 c r * s.T l r a * A.f l * u l1 (ix1 (q - 1) b a) (Ek - s.E r + s.E b) =
      -∑ r ∈ s.v.R q, ∑ a ∈ s.v.Lo q, s.T l1 c r * (A.f l * (s.T l r a * u l1 (ix1 (q - 1) b a) (Ek - s.E r + s.E b))) := by
    rw [sum_comm]
    simp only [← sum_neg_distrib]
    exact sum_congr rfl fun r _ => sum_congr rfl fun u _ => by ring
  have k2 : ∑ r ∈ s.v.R q, ∑ a ∈ s.v.R (q + 1),
        (-s.T l1 c r * u l1 (ix1 q a r) (Ek - s.E r + s.E b) * (1 - A.f l) * s.T l a b +
         -s.T l c r * A.f l * u l1 (ix1 q a r) (Ek - s.E c + s.E a) * s.T l1 a b) =
      -∑ r ∈ s.v.R q, ∑ a ∈ s.v.R (q + 1), s.T l1 c r * ((1 - A.f l) * (u l1 (ix1 q a r) (Ek - s.E r + s.E b) * s.T l a b)) +
      -∑ r ∈ s.v.R (q + 1), ∑ a ∈ s.v.R q, A.f l * (s.T l c a * u l1 (ix1 q r a) (Ek - s.E c + s.E r)) * s.T l1 r b := by
    rw [sum_comm (s := s.v.R (q + 1))]
    simp only [← sum_neg_distrib, ← sum_add_distrib]
    exact sum_congr rfl fun r _ => sum_congr rfl fun u _ => by ring
  have k3 : ∑ a ∈ s.v.R (q + 1), ∑ r ∈ s.v.R (q + 2), s.T l1 c r * s.T l r a * A.f l * w l1 (ix1 q a b) (-(Ek - s.E r + s.E b)) =
      ∑ r ∈ s.v.R (q + 2), ∑ a ∈ s.v.R (q + 1), s.T l1 c r * (A.f l * (s.T l r a * w l1 (ix1 q a b) (-(Ek - s.E r + s.E b)))) := by
    rw [sum_comm]
    exact sum_congr rfl fun r _ => sum_congr rfl fun u _ => by ring
  have k4 : ∑ r ∈ s.v.R (q + 2), ∑ a ∈ s.v.R (q + 1),
        s.T l1 c r * w l1 (ix1 (q + 1) r a) (-(Ek - s.E r + s.E b)) * (1 - A.f l) * s.T l a b =
      ∑ r ∈ s.v.R (q + 2), ∑ a ∈ s.v.R (q + 1),
        s.T l1 c r * ((1 - A.f l) * (w l1 (ix1 (q + 1) r a) (-(Ek - s.E r + s.E b)) * s.T l a b)) :=
    sum_congr rfl fun r _ => sum_congr rfl fun u _ => by ring
  have k5 : ∑ a ∈ s.v.R (q + 2), ∑ r ∈ s.v.R (q + 1),
        -u l1 (ix1 (q + 1) a c) (Ek - s.E c + s.E r) * (1 - A.f l) * s.T l a r * s.T l1 r b =
      -∑ r ∈ s.v.R (q + 1), ∑ a ∈ s.v.R (q + 2),
        (1 - A.f l) * (u l1 (ix1 (q + 1) a c) (Ek - s.E c + s.E r) * s.T l a r) * s.T l1 r b := by
    rw [sum_comm]
    simp only [← sum_neg_distrib]
    exact sum_congr rfl fun r _ => sum_congr rfl fun u _ => by ring
  have k6 : ∑ a ∈ s.v.R q, ∑ r ∈ s.v.Lo q, s.T l c a * A.f l * w l1 (ix1 (q - 1) a r) (-(Ek - s.E c + s.E r)) * s.T l1 r b =
      ∑ r ∈ s.v.Lo q, ∑ a ∈ s.v.R q, A.f l * (s.T l c a * w l1 (ix1 (q - 1) a r) (-(Ek - s.E c + s.E r))) * s.T l1 r b := by
    rw [sum_comm]
    exact sum_congr rfl fun r _ => sum_congr rfl fun u _ => by ring
  have k7 : ∑ a ∈ s.v.R q, ∑ r ∈ s.v.Lo q, w l1 (ix1 q c a) (-(Ek - s.E c + s.E r)) * (1 - A.f l) * s.T l a r * s.T l1 r b =
      ∑ r ∈ s.v.Lo q, ∑ a ∈ s.v.R q, (1 - A.f l) * (w l1 (ix1 q c a) (-(Ek - s.E c + s.E r)) * s.T l a r) * s.T l1 r b := by
    rw [sum_comm]
    exact sum_congr rfl fun r _ => sum_congr rfl fun u _ => by ring
  rw [k1, k2, k3, k4, k5, k6, k7]
  clear k1 k2 k3 k4 k5 k6 k7 e1
  simp only [mul_add, add_mul, mul_neg, neg_mul, mul_sum, sum_mul, sum_add_distrib, sum_neg_distrib, neg_add]
  ring

end

end VN2

end

end Verif
