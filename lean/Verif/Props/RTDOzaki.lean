import Verif.Props.RTDObj

/-! The Ozaki expansion of an RTD object: when it is made, and which leads it covers. -/

namespace Verif

open Finset
open scoped ComplexConjugate

noncomputable section

namespace RTD

variable {lib : Lib}

theorem setup_bw (o : Obj lib) :
    (o.sys.needOzaki ∧ o.bw < o.sys.bwT ∧ o.setup.poles = some (lib.ozaki o.sys.bwT) ∧ o.setup.bw = o.sys.bwT) ∨
    (¬ (o.sys.needOzaki ∧ o.bw < o.sys.bwT) ∧ o.setup.poles = o.poles ∧ o.setup.bw = o.bw) := by
  unfold Obj.setup
  simp only
  split
  · rename_i h; exact Or.inl ⟨h.1, h.2, rfl, rfl⟩
  · rename_i h; exact Or.inr ⟨h, rfl, rfl⟩

/-- The poles are those for the recorded bandwidth. -/
def Poled (o : Obj lib) : Prop := (o.bw = 0 ∧ o.poles = none) ∨ (0 < o.bw ∧ o.poles = some (lib.ozaki o.bw))

theorem setup_poled {o : Obj lib} (h : Poled o) : Poled o.setup := by
  have h0 : 0 ≤ o.bw := by rcases h with h | h <;> linarith [h.1]
  rcases setup_bw o with ⟨_, h2, h3, h4⟩ | ⟨_, h3, h4⟩
  · right
    rw [h4, h3]
    exact ⟨by linarith, rfl⟩
  · unfold Poled
    rw [h4, h3]
    exact h

theorem solve_poled {o : Obj lib} (hi : Inv o) (h : Poled o) : Poled o.solve.1 := by
  by_cases ha : Able o
  · have e1 := (solve_fields hi ha).2.2.2.2
    have e2 : o.solve.1.poles = o.setup.poles := by
      have key := solve_able hi ha
      rcases hr : result lib o.sys o.setup.poles o.symq o.funOff with er | st
      · rw [hr] at key; exact key.2.2
      · rw [hr] at key; exact key.2.2.1
    unfold Poled
    rw [e1, e2]
    exact setup_poled h
  · unfold Obj.solve
    rw [prepare_unable ha]
    exact h

theorem Hist.poled {o : Obj lib} (h : Hist lib o) : Poled o := by
  induction h with
  | new hv symq funOff => exact Or.inl ⟨rfl, rfl⟩
  | option h b ih => exact ih
  | params h E nmany L tl ns ih => exact ih
  | states h hv ih => exact ih
  | solve h ih => exact solve_poled h.inv ih

theorem minT_le (y : Sys) {l : Nat} (hl : l < y.v.nleads) : y.minT ≤ y.L.T l := by
  unfold Sys.minT
  have key : ∀ (xs : List Nat) (m : ℝ), xs.foldl (fun m l => min m (y.L.T l)) m ≤ m ∧
      ∀ l ∈ xs, xs.foldl (fun m l => min m (y.L.T l)) m ≤ y.L.T l := by
    intro xs
    induction xs with
    | nil => intro m; simp
    | cons x xs ih =>
      intro m
      obtain ⟨h1, h2⟩ := ih (min m (y.L.T x))
      refine ⟨h1.trans (min_le_left _ _), fun l hl => ?_⟩
      rcases List.mem_cons.1 hl with rfl | hl
      · exact h1.trans (min_le_right _ _)
      · exact h2 l hl
  exact (key _ _).2 l (List.mem_range.2 hl)

theorem minT_pos (y : Sys) (hn : 0 < y.v.nleads) (h : ∀ l < y.v.nleads, 0 < y.L.T l) : 0 < y.minT := by
  unfold Sys.minT
  have key : ∀ (xs : List Nat) (m : ℝ), 0 < m → (∀ l ∈ xs, 0 < y.L.T l) →
      0 < xs.foldl (fun m l => min m (y.L.T l)) m := by
    intro xs
    induction xs with
    | nil => intro m hm _; simpa
    | cons x xs ih =>
      intro m hm hx
      exact ih _ (lt_min hm (hx x List.mem_cons_self)) fun l hl => hx l (List.mem_cons_of_mem _ hl)
  exact key _ _ (h 0 hn) fun l hl => h l (List.mem_range.1 hl)

/-- **C67**, if all leads have the bandwidth of the first one, the expansion used in a calculation is one for a ratio of
bandwidth and temperature which is at least that of each lead. -/
theorem c67_covered_partial {o : Obj lib} (h : Hist lib o) (hs : o.solve.2 = .ok ()) (hn : o.sys.needOzaki)
    (hl : 0 < o.sys.v.nleads) (hT : ∀ l < o.sys.v.nleads, 0 < o.sys.L.T l)
    (hD : ∀ l < o.sys.v.nleads, |o.sys.L.Dm l| + |o.sys.L.Dp l| = |o.sys.L.Dm 0| + |o.sys.L.Dp 0|)
    (h0 : 0 < |o.sys.L.Dm 0| + |o.sys.L.Dp 0|) :
    ∃ B, o.solve.1.poles = some (lib.ozaki B) ∧
      ∀ l < o.sys.v.nleads, (|o.sys.L.Dm l| + |o.sys.L.Dp l|) / 2 / o.sys.L.T l ≤ B := by
  have ha := ((c66_runs h).1 hs).1
  have hm := minT_pos o.sys hl hT
  have hb : 0 < o.sys.bwT := by unfold Sys.bwT; positivity
  have hle : o.sys.bwT ≤ o.setup.bw := by
    rcases setup_bw o with ⟨_, _, _, h4⟩ | ⟨h1, _, h4⟩
    · exact h4.ge
    · rw [h4]
      by_contra hc
      exact h1 ⟨hn, not_le.1 hc⟩
  have e1 := (solve_fields h.inv ha).2.2.2.2
  have hp := (Hist.solve h).poled
  rcases hp with hp | hp
  · rw [e1] at hp; linarith [hp.1]
  · refine ⟨_, hp.2, fun l hl' => ?_⟩
    rw [e1]
    refine le_trans ?_ hle
    unfold Sys.bwT
    rw [hD l hl']
    exact div_le_div_of_nonneg_left (by positivity) hm (minT_le o.sys hl')

/-- **C67**, a calculation does not fail for want of an expansion, if the temperatures are exactly equal or not close to
each other, or an amplitude is complex, and the first lead has a band. -/
theorem c67_runs_partial {o : Obj lib} (h : Hist lib o) {la : Lab} (hv : VOk o.sys.v la)
    (hall : o.funOff = true → AllCoherences o.sys.v la)
    (ha : (o.prepared = true ∧ o.changed = false) ∨ o.off = true) (hl : 0 < o.sys.v.nleads)
    (hT : ∀ l < o.sys.v.nleads, 0 < o.sys.L.T l) (h0 : 0 < |o.sys.L.Dm 0| + |o.sys.L.Dp 0|)
    (hc : o.sys.needOzaki ∨ o.sys.Plain) : o.solve.2 = .ok () := by
  refine (c66_runs h).2 ⟨ha, ?_⟩
  obtain ⟨fct, hf, _⟩ := Pauli.genFct_ok hv o.sys.E o.sys.L
  have he : Evaluable (o.sys.inp lib o.setup.poles) := by
    rcases hc with hn | hp
    · left
      have hm := minT_pos o.sys hl hT
      have hb : 0 < o.sys.bwT := by unfold Sys.bwT; positivity
      show o.setup.poles.isSome
      rcases setup_bw o with ⟨_, _, h3, _⟩ | ⟨h1, h3, h4⟩
      · rw [h3]; rfl
      · rw [h3]
        rcases h.poled with hp | hp
        · exact absurd ⟨hn, by rw [hp.1]; exact hb⟩ h1
        · rw [hp.2]; rfl
    · exact Or.inr hp
  obtain ⟨st, hst⟩ := genKern_some (s := o.sys.inp lib o.setup.poles) hv he fct o.funOff o.symq hall
  refine ⟨st, ?_⟩
  unfold result
  rw [hf]
  exact hst

/-! ### Temperatures that are close to each other -/

theorem both_inv {β : Type} {p q : Py (List β)} {r : List β} (h : both p q = .ok r) :
    (∃ a, p = .ok a) ∧ ∃ b, q = .ok b := by
  unfold both at h
  obtain ⟨a, ha, h⟩ := bind_ok_inv h
  obtain ⟨b, hb, h⟩ := bind_ok_inv h
  exact ⟨⟨a, ha⟩, b, hb⟩

/-- Without poles the exchange integral of two leads of different temperature cannot be calculated. -/
theorem genKern_no_poles {s : In} {la : Lab} (h : VOk s.v la) (hp : s.poles = none) {q b c r0 r1 : Nat}
    (hb : b ∈ s.v.row q) (hc : c ∈ s.v.row (q + 1)) (h0 : r0 < s.v.nleads) (h1 : r1 < s.v.nleads)
    (hT : 1e-10 ≤ |s.L.T r1 - s.L.T r0|)
    (ht1 : s.cut2 ≤ ‖s.L.Tba r0 c b‖ * ‖s.L.Tba r1 c b‖)
    (ht2 : s.cut3 < (‖s.L.Tba r0 c b‖ * ‖s.L.Tba r1 c b‖) ^ 2)
    (fct : Nat → Nat → ℝ × ℝ) (off : Bool) (st st' : St) : genKern s fct off st ≠ .ok st' := by
  intro hst
  unfold genKern at hst
  obtain ⟨k1, hk, _⟩ := bind_ok_inv hst
  have hcol := ((calls1_inv h hk).1 q b hb).1
  generalize valD (col2 s b q) = r at hcol
  unfold col2 at hcol
  obtain ⟨i0, _, hcol⟩ := bind_ok_inv hcol
  obtain ⟨g, hg, _⟩ := collect_inv hcol
  have hg := hg (r0, r1) (by
    simp only [prod2, List.mem_flatMap, List.mem_map, List.mem_range]
    exact ⟨r0, h0, r1, h1, rfl⟩)
  obtain ⟨l1, hl1, hg⟩ := bind_ok_inv hg
  rw [h.states_succ (h.row_lt hb)] at hl1
  simp only [Except.ok.injEq] at hl1
  subst hl1
  obtain ⟨g1, hg1, _⟩ := collect_inv hg
  have hvx := hg1 c hc
  unfold vertex at hvx
  have hcut2 : 0 ≤ s.cut3 := maxT_cut3 s
  have ne : ‖s.L.Tba r0 c b‖ ≠ 0 := by
    intro e
    rw [e] at ht2
    simp at ht2
    linarith
  simp only [if_neg ne] at hvx
  obtain ⟨i1, _, hvx⟩ := bind_ok_inv hvx
  obtain ⟨_, _, hbl⟩ := both_inv hvx
  obtain ⟨⟨_, hsame⟩, _⟩ := both_inv hbl
  unfold blockSame at hsame
  obtain ⟨l2, hl2, hsame⟩ := bind_ok_inv hsame
  rw [h.states (h.row_lt hb).le] at hl2
  simp only [Except.ok.injEq] at hl2
  subst hl2
  obtain ⟨g2, hg2, _⟩ := collect_inv hsame
  have hs := hg2 b hb
  have n1 : ‖s.L.Tba r0 c b * conj (s.L.Tba r1 c b)‖ = ‖s.L.Tba r0 c b‖ * ‖s.L.Tba r1 c b‖ := by
    rw [norm_mul, RCLike.norm_conj]
  simp only at hs
  rw [if_neg (by rw [n1]; exact not_lt.2 ht1)] at hs
  obtain ⟨_, _, hs⟩ := both_inv hs
  obtain ⟨_, _, hs⟩ := both_inv hs
  obtain ⟨l3, hl3, hs⟩ := bind_ok_inv hs
  rw [h.states_succ (h.row_lt hb)] at hl3
  simp only [Except.ok.injEq] at hl3
  subst hl3
  obtain ⟨g3, hg3, _⟩ := collect_inv hs
  have hx := hg3 c hc
  unfold addX at hx
  rw [if_pos] at hx
  · obtain ⟨i, hi, _⟩ := bind_ok_inv hx
    unfold integralX at hi
    rw [if_neg fun hh => absurd hT (not_le.2 hh.1), hp] at hi
    simp at hi
  · rw [norm_mul, norm_mul, n1, RCLike.norm_conj]
    show s.cut3 < _
    calc s.cut3 < _ := ht2
      _ = _ := by ring

/-- **C67** fails for temperatures that `np.isclose` takes for equal and `integralX` does not: no expansion is made, and
every calculation with real amplitudes raises an error. -/
theorem c67_close_false {o : Obj lib} (h : Hist lib o) (hp : o.poles = none)
    (hclose : ∀ l < o.sys.v.nleads, isclose (o.sys.L.T l) (o.sys.L.T 0))
    (hreal : ∀ l a b, (o.sys.L.Tba l a b).im = 0) {la : Lab} (hv : VOk o.sys.v la) {q b c r0 r1 : Nat}
    (hb : b ∈ o.sys.v.row q) (hc : c ∈ o.sys.v.row (q + 1)) (h0 : r0 < o.sys.v.nleads) (h1 : r1 < o.sys.v.nleads)
    (hT : 1e-10 ≤ |o.sys.L.T r1 - o.sys.L.T r0|)
    (ht1 : (o.sys.inp lib none).cut2 ≤ ‖o.sys.L.Tba r0 c b‖ * ‖o.sys.L.Tba r1 c b‖)
    (ht2 : (o.sys.inp lib none).cut3 < (‖o.sys.L.Tba r0 c b‖ * ‖o.sys.L.Tba r1 c b‖) ^ 2) :
    o.solve.2 ≠ .ok () := by
  intro hs
  obtain ⟨_, st, hr⟩ := (c66_runs h).1 hs
  have hpole : o.setup.poles = none := by
    rcases setup_bw o with ⟨hn, _⟩ | ⟨_, h3, _⟩
    · exfalso
      rcases hn with hn | ⟨l, _, a, _, b, _, hn⟩
      · exact hn hclose
      · rw [hreal] at hn; simp at hn
    · rw [h3, hp]
  rw [hpole] at hr
  unfold result at hr
  obtain ⟨fct, _, hr⟩ := bind_ok_inv hr
  exact genKern_no_poles (s := o.sys.inp lib none) hv rfl hb hc h0 h1 hT ht1 ht2 fct _ _ _ hr

/-! ### Examples -/

/-- The system of `sysT` with other temperatures and bands. -/
def sysU (v : View) (t : Nat → Nat → ℂ) (T D : Nat → ℝ) : Sys :=
  { sysT v t with L := { (sysT v t).L with T := T, Dm := fun l => -D l, Dp := D } }

theorem sysU_ok (lib : Lib) {v : View} {la : Lab} (hv : VOk v la) (hall : AllCoherences v la) (hl : v.nleads = 2)
    {t : Nat → Nat → ℂ} {T D : Nat → ℝ} (hT : ∀ l, 0 < T l) (hD : 0 < D 0) (ht : (t 1 1).im ≠ 0) :
    (Obj.new lib (sysU v t T D) true true).solve.2 = .ok () ∧ (sysU v t T D).needOzaki := by
  have need : (sysU v t T D).needOzaki := by
    right
    refine ⟨1, by show 1 < v.nleads; omega, 1, show 1 < 4 by decide, 0, show 0 < 4 by decide, ?_⟩
    simpa [sysU, sysT] using ht
  have ho : Hist lib (Obj.new lib (sysU v t T D) true true) := .new ⟨la, hv⟩ _ _
  refine ⟨c67_runs_partial ho (la := la) hv (fun _ => hall) (Or.inr rfl) (by show 0 < v.nleads; omega)
    (fun l _ => hT l) ?_ (Or.inl need), need⟩
  simp only [Obj.new, sysU]
  rw [abs_neg]
  positivity

/-- The hypotheses of `c67_covered_partial` and `c67_runs_partial` hold for leads of temperatures 2 and 1. -/
example (lib : Lib) : ∃ B, 60 ≤ B ∧ ∃ o : Obj lib, Hist lib o ∧ o.solve.2 = .ok () ∧ o.sys.L.T 0 = 2 ∧ o.sys.L.T 1 = 1 ∧
    o.solve.1.poles = some (lib.ozaki B) := by
  obtain ⟨d, _, hv, hall, _, _⟩ := view_all
  let o : Obj lib := Obj.new lib (sysU (d.view 2) (fun _ _ => Complex.I) (fun l => if l = 0 then 2 else 1) fun _ => 60)
    true true
  have ho : Hist lib o := .new ⟨_, hv⟩ _ _
  have hT : ∀ l : Nat, (0 : ℝ) < if l = 0 then 2 else 1 := fun l => by split_ifs <;> norm_num
  obtain ⟨hs, hn⟩ := sysU_ok lib (v := d.view 2) (t := fun _ _ => Complex.I) (T := fun l => if l = 0 then 2 else 1)
    (D := fun _ => 60) hv hall rfl hT (by norm_num) (by simp)
  obtain ⟨B, hB, hB'⟩ := c67_covered_partial ho hs hn Nat.zero_lt_two (fun l _ => hT l) (fun _ _ => rfl)
    (by simp [o, Obj.new, sysU])
  refine ⟨B, ?_, o, ho, hs, by simp [o, Obj.new, sysU], by simp [o, Obj.new, sysU], hB⟩
  have := hB' 1 Nat.one_lt_two
  simp only [o, Obj.new, sysU] at this
  norm_num at this
  exact this

/-- **C67** fails if a lead has a larger band than the first lead: temperatures 1 and half-bandwidths 60 and 600, but the
expansion is one for the ratio 60. -/
theorem c67_band_false (lib : Lib) : ∃ o : Obj lib, Hist lib o ∧ o.solve.2 = .ok () ∧ o.sys.v.nleads = 2 ∧
    (|o.sys.L.Dm 1| + |o.sys.L.Dp 1|) / 2 / o.sys.L.T 1 = 600 ∧ o.solve.1.poles = some (lib.ozaki 60) := by
  obtain ⟨d, _, hv, hall, _, _⟩ := view_all
  let o : Obj lib := Obj.new lib (sysU (d.view 2) (fun _ _ => Complex.I) (fun _ => 1) fun l => if l = 0 then 60 else 600)
    true true
  have ho : Hist lib o := .new ⟨_, hv⟩ _ _
  obtain ⟨hs, hn⟩ := sysU_ok lib (v := d.view 2) (t := fun _ _ => Complex.I) (T := fun _ => 1)
    (D := fun l => if l = 0 then 60 else 600) hv hall rfl (fun _ => by norm_num) (by norm_num) (by simp)
  refine ⟨o, ho, hs, rfl, ?_, ?_⟩
  · simp only [o, Obj.new, sysU]
    norm_num
  · have hb : o.sys.bwT = 60 := by
      have : o.sys.minT = 1 := by simp [Sys.minT, o, Obj.new, sysU, sysT, DM.view, List.range_succ]
      unfold Sys.bwT
      rw [this]
      simp only [o, Obj.new, sysU]
      norm_num
    obtain ⟨_, st, hr⟩ := (c66_runs ho).1 hs
    have key := solve_able ho.inv (Or.inr rfl)
    rw [hr] at key
    rw [key.2.2.1]
    rcases setup_bw o with ⟨_, _, h3, _⟩ | ⟨h1, _⟩
    · rw [h3, hb]
    · exact absurd ⟨hn, by rw [hb]; simp [o, Obj.new]⟩ h1

/-- The hypotheses of `c67_close_false` hold: temperatures 1 and 1.000005, amplitudes 1. -/
example (lib : Lib) : ∃ o : Obj lib, Hist lib o ∧ o.sys.L.T 0 = 1 ∧ o.sys.L.T 1 = 1.000005 ∧ o.solve.2 ≠ .ok () := by
  obtain ⟨d, _, hv, hall, hs, _⟩ := view_all
  let y := sysU (d.view 2) (fun _ _ => 1) (fun l => if l = 0 then 1 else 1.000005) fun _ => 60
  let o : Obj lib := Obj.new lib y true true
  have ho : Hist lib o := .new ⟨_, hv⟩ _ _
  have hm : (y.inp lib none).maxT = 1.000005 := by
    simp [In.maxT, Sys.inp, y, sysU, sysT, DM.view, List.range_succ]
    norm_num
  have n0 : ‖y.L.Tba 0 1 0‖ = 1 := by simp [y, sysU, sysT]
  have n1 : ‖y.L.Tba 1 1 0‖ = 1 := by simp [y, sysU, sysT]
  refine ⟨o, ho, by simp [o, Obj.new, y, sysU], by simp [o, Obj.new, y, sysU],
    c67_close_false ho rfl ?_ ?_ (la := d.labOf) hv (q := 0) (b := 0) (c := 1) (r0 := 0) (r1 := 1) ?_ ?_ Nat.zero_lt_two
      Nat.one_lt_two ?_ ?_ ?_⟩
  · intro l _
    simp only [isclose, o, Obj.new, y, sysU]
    split_ifs <;> norm_num [abs_le]
  · exact fun l a b => by simpa [o, Obj.new, y, sysU] using (sysT_plain (d.view 2) 1).2 l a b
  · simp [o, Obj.new, y, sysU, sysT, DM.view, View.row, hs]
  · simp [o, Obj.new, y, sysU, sysT, DM.view, View.row, hs]
  · simp only [o, Obj.new, y, sysU]
    norm_num [le_abs]
  · show (y.inp lib none).cut2 ≤ ‖y.L.Tba 0 1 0‖ * ‖y.L.Tba 1 1 0‖
    rw [n0, n1, In.cut2, hm]
    norm_num
  · show (y.inp lib none).cut3 < (‖y.L.Tba 0 1 0‖ * ‖y.L.Tba 1 1 0‖) ^ 2
    rw [n0, n1, In.cut3, hm]
    norm_num

end RTD

end

end Verif
