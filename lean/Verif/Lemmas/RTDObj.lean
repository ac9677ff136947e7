import Verif.Model.RTDObj
import Verif.Lemmas.RTDOut

/-! The arrays and flags of an RTD object. -/

namespace Verif

open Finset

noncomputable section

namespace RTD

theorem ten_ext {a b : Ten} (h1 : a.leads = b.leads) (h2 : a.rows = b.rows) (h3 : a.cols = b.cols)
    (h4 : ∀ l i j, a.val l i j = b.val l i j) : a = b := by
  cases a; cases b
  simp only at h1 h2 h3 h4
  subst h1 h2 h3
  congr
  funext l i j
  exact h4 l i j

/-! ### `ImGamma` -/

/-- The flag `ImGamma` in addition. -/
def orIm (b : Bool) (a : Acc) : Acc := ⟨a.mats, b || a.im⟩

theorem call_orIm (v : View) (b : Bool) (a : Acc) (k : Call) : call v (orIm b a) k = orIm b <$> call v a k := by
  cases k <;> simp [call, orIm, map_bind]

theorem run_orIm (v : View) (b : Bool) (a : Acc) (ks : List Call) : run v (orIm b a) ks = orIm b <$> run v a ks := by
  induction ks generalizing a with
  | nil => rfl
  | cons k ks ih =>
    unfold run at ih ⊢
    rw [List.foldlM_cons, List.foldlM_cons, call_orIm, map_bind]
    rcases call v a k with e | a'
    · rfl
    · exact ih a'

/-- `generate_kern` does not read `ImGamma`, and only ever sets it. -/
theorem genKern_orIm (s : In) (fct : Nat → Nat → ℝ × ℝ) (off b : Bool) (st : St) :
    genKern s fct off ⟨st.kern, orIm b st.acc⟩ = (fun x : St => ⟨x.kern, orIm b x.acc⟩) <$> genKern s fct off st := by
  unfold genKern
  rcases calls1 s fct off with e | k1
  · rfl
  · simp only [py_bind_ok, run_orIm]
    rcases run s.v st.acc k1 with e | a1
    · rfl
    · cases off
      · rfl
      · rcases calls2 s with e | k2
        · rfl
        · show (run s.v (orIm b a1) k2 >>= _) = _
          rw [run_orIm]
          simp only [if_true, py_bind_ok]
          rcases run s.v a1 k2 with e | a2
          · rfl
          · show addCorr s.v ⟨_, orIm b a2⟩ = _
            simp only [py_bind_ok, addCorr, orIm]
            rcases corrs a2.mats s.v.nleads with e | w <;> rfl

/-! ### Arrays which are not touched -/

theorem run_keep {v : View} {a a' : Acc} {ks : List Call} (h : run v a ks = .ok a') {n : Name}
    (hn : ∀ k ∈ ks, k.name ≠ some n) : a'.mats.ten n = a.mats.ten n := by
  have hs := congrFun (run_made h).sh n
  simp only [Mats.sh, Prod.mk.injEq] at hs
  refine ten_ext hs.1 hs.2.1 hs.2.2 fun l i j => ?_
  rw [run_val h, sum_zero, add_zero]
  intro k hk
  exact atOf_name (hn k hk)

/-- The calls that write to `Lnn`. -/
def Call.isLnn : Call → Bool
  | .lnn .. => true
  | _ => false

theorem call_lnn {v : View} {a a' : Acc} {k : Call} (h : call v a k = .ok a') :
    a'.mats.Lnn.rows = a.mats.Lnn.rows ∧ a'.mats.Lnn.cols = a.mats.Lnn.cols ∧
      (k.isLnn = false → a'.mats.Lnn = a.mats.Lnn) := by
  have add : ∀ {m m' : Mats} {n : Name} {l : Nat} {i j : Int} {x : ℝ}, m.add n l i j x = .ok m' → m'.Lnn = m.Lnn := by
    intro m m' n l i j x h
    unfold Mats.add at h
    obtain ⟨t, _, h⟩ := bind_ok_inv h
    simp only [py_pure, Except.ok.injEq] at h
    subst h; rfl
  cases k with
  | dd l fm fp bb aa mi =>
    simp only [call] at h
    obtain ⟨m1, h1, h⟩ := bind_ok_inv h
    obtain ⟨m2, h2, h⟩ := bind_ok_inv h
    simp only [py_pure, Except.ok.injEq] at h
    subst h
    simp [add h2, add h1]
  | two r fct i0 i1 a3 q3 a4 q4 =>
    simp only [call] at h
    obtain ⟨i3, h3, h⟩ := bind_ok_inv h
    obtain ⟨i4, h4, h⟩ := bind_ok_inv h
    obtain ⟨m1, k1, h⟩ := bind_ok_inv h
    obtain ⟨m2, k2, h⟩ := bind_ok_inv h
    obtain ⟨m3, k3, h⟩ := bind_ok_inv h
    obtain ⟨m4, k4, h⟩ := bind_ok_inv h
    simp only [py_pure, Except.ok.injEq] at h
    subst h
    simp [add k4, add k3, add k2, add k1]
  | elem fct l b bp q a ap q' mi =>
    simp only [call] at h
    obtain ⟨i, h1, h⟩ := bind_ok_inv h
    obtain ⟨j, h2, h⟩ := bind_ok_inv h
    obtain ⟨m1, k1, h⟩ := bind_ok_inv h
    simp only [py_pure, Except.ok.injEq] at h
    subst h
    simp [add k1]
  | lnn a1 b1 q fct =>
    simp only [call] at h
    obtain ⟨i, h1, h⟩ := bind_ok_inv h
    obtain ⟨t, h2, h⟩ := bind_ok_inv h
    simp only [py_pure, Except.ok.injEq] at h
    subst h
    unfold Mat.add at h2
    obtain ⟨r, _, h2⟩ := bind_ok_inv h2
    obtain ⟨c, _, h2⟩ := bind_ok_inv h2
    simp only [py_pure, Except.ok.injEq] at h2
    subst h2
    simp [Call.isLnn]
  | imGamma =>
    simp only [call, py_pure, Except.ok.injEq] at h
    subst h
    simp

theorem run_lnn {v : View} {a a' : Acc} {ks : List Call} (h : run v a ks = .ok a') :
    a'.mats.Lnn.rows = a.mats.Lnn.rows ∧ a'.mats.Lnn.cols = a.mats.Lnn.cols ∧
      ((∀ k ∈ ks, k.isLnn = false) → a'.mats.Lnn = a.mats.Lnn) := by
  induction ks generalizing a with
  | nil =>
    simp only [run, List.foldlM_nil, py_pure, Except.ok.injEq] at h
    subst h; simp
  | cons k ks ih =>
    unfold run at h
    rw [List.foldlM_cons] at h
    obtain ⟨a1, h1, h⟩ := bind_ok_inv h
    obtain ⟨r1, c1, e1⟩ := call_lnn h1
    obtain ⟨r2, c2, e2⟩ := ih h
    refine ⟨r2.trans r1, c2.trans c1, fun hk => ?_⟩
    rw [e2 fun x hx => hk x (List.mem_cons_of_mem _ hx), e1 (hk k List.mem_cons_self)]

/-! ### The first loop without corrections -/

theorem calls1_off {s : In} {la : Lab} (h : VOk s.v la) {fct : Nat → Nat → ℝ × ℝ} {ks : List Call}
    (hk : calls1 s fct false = .ok ks) : ∀ k ∈ ks, k.isLnn = false ∧ k.name ≠ some .ReWdn ∧ k.name ≠ some .ImWdn ∧
      k.name ≠ some .ReWnd ∧ k.name ≠ some .ImWnd := by
  obtain ⟨key, rfl⟩ := calls1_inv h hk
  intro k hk
  obtain ⟨q, hq, hk⟩ := List.mem_flatMap.1 hk
  obtain ⟨b, hb, hk⟩ := List.mem_flatMap.1 hk
  simp only [one, List.mem_append] at hk
  have hE : ∀ {e : Nat → Nat → Int → Int → Nat → List Call} {n : Name},
      (∀ a b bb aa l, ∀ k ∈ e a b bb aa l, k = .imGamma ∨ ∃ x y, k = .dd l x y bb aa n) →
      k ∈ groupE s.v la e q b → k = .imGamma ∨ ∃ l x y bb aa, k = .dd l x y bb aa n := by
    intro e n he hk
    simp only [groupE, List.mem_append, List.mem_flatMap] at hk
    rcases hk with ⟨a, _, l, _, hk⟩ | ⟨a, _, l, _, hk⟩ <;>
    · rcases he _ _ _ _ _ _ hk with rfl | ⟨x, y, rfl⟩
      · exact Or.inl rfl
      · exact Or.inr ⟨_, _, _, _, _, rfl⟩
  rcases hk with (((hk | hk) | hk) | hk) | hk
  · simp only [group1, List.mem_append, List.mem_flatMap, List.mem_singleton] at hk
    rcases hk with ⟨_, _, _, _, rfl⟩ | ⟨_, _, _, _, rfl⟩ <;> simp [Call.name, Call.isLnn]
  · obtain ⟨r, f, i0, i1, a1, a3, q3, a4, q4, rfl, _⟩ := col2_calls (view_mem h hb) (key q b hb).1 k hk
    simp [Call.name, Call.isLnn]
  · have := hE (n := .WE1) (e := energy1 s) (by
      intro a b bb aa l k hk
      simp only [energy1, List.mem_append, List.mem_singleton] at hk
      rcases hk with hk | rfl
      · split at hk
        · left; simpa using hk
        · simp at hk
      · exact Or.inr ⟨_, _, rfl⟩) hk
    rcases this with rfl | ⟨l, x, y, bb, aa, rfl⟩ <;> simp [Call.name, Call.isLnn]
  · have := hE (n := .WE2) (e := energy2 s) (by
      intro a b bb aa l k hk
      simp only [energy2, List.mem_append, List.mem_singleton, List.mem_flatMap] at hk
      rcases hk with ⟨_, _, hk⟩ | rfl
      · split at hk
        · left; simpa using hk
        · simp at hk
      · exact Or.inr ⟨_, _, rfl⟩) hk
    rcases this with rfl | ⟨l, x, y, bb, aa, rfl⟩ <;> simp [Call.name, Call.isLnn]
  · simp [nd, valD] at hk

/-! ### Poles that are not used -/

section
variable (s : In) (p : Option s.lib.Poles)

/-- Other poles. -/
def In.withPoles : In := ⟨s.v, s.E, s.nmany, s.L, s.tl, s.nsingle, s.lib, p⟩

theorem collect_congr {α β : Type} {l : List α} {f g : α → Py (List β)} (h : ∀ x ∈ l, f x = g x) :
    collect l f = collect l g := by
  unfold collect
  have key : ∀ acc : List β, l.foldlM (fun acc x => do let r ← f x; pure (acc ++ r)) acc =
      l.foldlM (fun acc x => do let r ← g x; pure (acc ++ r)) acc := by
    induction l with
    | nil => exact fun _ => rfl
    | cons a l ih =>
      intro acc
      rw [List.foldlM_cons, List.foldlM_cons, h a List.mem_cons_self]
      refine congrArg _ (funext fun r => ih (fun x hx => h x (List.mem_cons_of_mem _ hx)) r)
  exact key []

variable {s p}

theorem addD_poles {x : Vert} (hT : s.L.T x.r1 = s.L.T x.r0) (t2 : ℂ) (him : t2.im = 0) (hc : 0 ≤ s.cut3)
    (p1 eta1 : Int) (E2 E3 : ℝ) (a3 : Nat) (q3 : Int) (a4 : Nat) (q4 : Int) :
    addD (s.withPoles p) x t2 p1 eta1 E2 E3 a3 q3 a4 q4 = addD s x t2 p1 eta1 E2 E3 a3 q3 a4 q4 := by
  have hd : decide (|t2.im| > s.cut3) = false := by simp [him, hc]
  have hd' : decide (|t2.im| > (s.withPoles p).cut3) = false := hd
  unfold addD integralD
  rw [hd, hd']
  simp only [In.withPoles, hT, sub_self, abs_zero]
  norm_num
  rfl

theorem addX_poles {x : Vert} (hT : s.L.T x.r1 = s.L.T x.r0) (t2 : ℂ) (him : t2.im = 0) (hc : 0 ≤ s.cut3)
    (p1 eta1 : Int) (E2 E3 : ℝ) (a3 : Nat) (q3 : Int) (a4 : Nat) (q4 : Int) :
    addX (s.withPoles p) x t2 p1 eta1 E2 E3 a3 q3 a4 q4 = addX s x t2 p1 eta1 E2 E3 a3 q3 a4 q4 := by
  have hd : decide (|t2.im| > s.cut3) = false := by simp [him, hc]
  have hd' : decide (|t2.im| > (s.withPoles p).cut3) = false := hd
  unfold addX integralX
  rw [hd, hd']
  simp only [In.withPoles, hT, sub_self, abs_zero]
  norm_num
  rfl

/-- Real amplitudes and equal temperatures. -/
structure Plain (s : In) : Prop where
  T : ∀ l, l < s.v.nleads → s.L.T l = s.L.T 0
  im : ∀ l a b, (s.L.Tba l a b).im = 0

theorem blocks_poles (hp : Plain s) {x : Vert} (h0 : x.r0 < s.v.nleads) (h1 : x.r1 < s.v.nleads) {t : ℂ} (ht : t.im = 0)
    (a0 a1p : Nat) (q : Int) : blockUp (s.withPoles p) x t a0 a1p q = blockUp s x t a0 a1p q ∧
      blockDown (s.withPoles p) x t a0 a1p q = blockDown s x t a0 a1p q ∧
      blockSame (s.withPoles p) x t a0 a1p q = blockSame s x t a0 a1p q ∧
      blockNext (s.withPoles p) x t a0 a1p q = blockNext s x t a0 a1p q := by
  have hT : s.L.T x.r1 = s.L.T x.r0 := by rw [hp.T _ h0, hp.T _ h1]
  have hc := maxT_cut3 s
  have e1 : (s.withPoles p).v = s.v := rfl
  have e2 : (s.withPoles p).L = s.L := rfl
  have e3 : (s.withPoles p).E = s.E := rfl
  have e4 : (s.withPoles p).cut2 = s.cut2 := rfl
  have hD := fun t2 him => addD_poles (p := p) hT t2 him hc
  have hX := fun t2 him => addX_poles (p := p) hT t2 him hc
  have hi := hp.im
  refine ⟨?_, ?_, ?_, ?_⟩
  · unfold blockUp
    simp only [e1, e2, e3, e4, hD, hX, Complex.mul_im, Complex.conj_im, hi, ht, mul_zero, zero_mul, add_zero, neg_zero]
  · unfold blockDown
    simp only [e1, e2, e3, e4, hD, hX, Complex.mul_im, Complex.conj_im, hi, ht, mul_zero, zero_mul, add_zero, neg_zero]
  · unfold blockSame
    simp only [e1, e2, e3, e4, hD, hX, Complex.mul_im, Complex.conj_im, hi, ht, mul_zero, zero_mul, add_zero, neg_zero]
  · unfold blockNext
    simp only [e1, e2, e3, hD, hX, Complex.mul_im, Complex.conj_im, hi, ht, mul_zero, zero_mul, add_zero, neg_zero]

theorem col2_poles (hp : Plain s) (a0 : Nat) (q : Int) : col2 (s.withPoles p) a0 q = col2 s a0 q := by
  unfold col2
  refine congrArg _ (funext fun i0 => collect_congr fun r hr => ?_)
  obtain ⟨h0, h1⟩ : r.1 < s.v.nleads ∧ r.2 < s.v.nleads := by
    have e : (s.withPoles p).v = s.v := rfl
    rw [e] at hr
    simp only [prod2, List.mem_flatMap, List.mem_map, List.mem_range] at hr
    obtain ⟨x, hx, y, hy, rfl⟩ := hr
    exact ⟨hx, hy⟩
  refine congrArg _ (funext fun l1 => collect_congr fun a1p _ => ?_)
  unfold vertex
  have key := fun i1 => blocks_poles (p := p) hp (x := ⟨r.1, r.2, i0, i1, s.E a1p - s.E a0⟩) h0 h1
    (t := s.L.Tba r.1 a1p a0) (hp.im _ _ _) a0 a1p q
  show (if ‖s.L.Tba r.1 a1p a0‖ = 0 then _ else _) = (if ‖s.L.Tba r.1 a1p a0‖ = 0 then _ else _)
  split
  · rfl
  · refine congrArg _ (funext fun i1 => ?_)
    obtain ⟨b1, b2, b3, b4⟩ := key i1
    show both (both (blockUp (s.withPoles p) _ _ _ _ _) _) _ = _
    exact congrArg₂ both (congrArg₂ both b1 b2) (congrArg₂ both b3 b4)

/-- With real amplitudes and equal temperatures the poles do not matter. -/
theorem genKern_poles (hp : Plain s) (fct : Nat → Nat → ℝ × ℝ) (off : Bool) (st : St) :
    genKern (s.withPoles p) fct off st = genKern s fct off st := by
  have : calls1 (s.withPoles p) fct off = calls1 s fct off := by
    unfold calls1
    simp only [col2_poles hp]
    rfl
  unfold genKern
  rw [this]
  rfl

end

/-! ### Cleaning -/

theorem clean_arrays (off symq : Bool) (v : View) : clean off (arrays v symq) = arrays v symq := by
  cases off <;> simp only [clean, arrays, fresh, Ten.clear, Mat.zeros, Prod.mk.injEq, true_and, if_true, if_false,
    Bool.false_eq_true] <;> refine congrArg₂ Mats.mk ?_ rfl <;> funext n <;> cases n <;> rfl

/-- Arrays are as new after `generate_kern` and `clean_arrays`, if the flag of the object is that of the last
calculation. -/
theorem clean_genKern {s : In} {la : Lab} (h : VOk s.v la) {fct : Nat → Nat → ℝ × ℝ} {off symq : Bool} {st : St}
    (hst : genKern s fct off (fresh s.v symq) = .ok st) : clean off (st.kern, st.acc.mats) = arrays s.v symq := by
  obtain ⟨S⟩ := genKern_steps hst
  have hlnn : st.acc.mats.Lnn.rows = 2 * s.v.ndm0 - 2 * s.v.npauli ∧
      st.acc.mats.Lnn.cols = 2 * s.v.ndm0 - 2 * s.v.npauli ∧
      (off = false → st.acc.mats.Lnn = (fresh s.v symq).acc.mats.Lnn ∧
        ∀ n, (n = .ReWdn ∨ n = .ImWdn ∨ n = .ReWnd ∨ n = .ImWnd) →
          st.acc.mats.ten n = (fresh s.v symq).acc.mats.ten n) := by
    unfold genKern at hst
    obtain ⟨k1, h1, hst⟩ := bind_ok_inv hst
    obtain ⟨a1, r1, hst⟩ := bind_ok_inv hst
    obtain ⟨lr, lc, le⟩ := run_lnn r1
    rcases off with _ | _
    · simp only [Bool.false_eq_true, if_false, py_pure, Except.ok.injEq] at hst
      subst hst
      have ho := calls1_off h h1
      refine ⟨lr, lc, fun _ => ⟨le fun k hk => (ho k hk).1, fun n hn => run_keep r1 fun k hk => ?_⟩⟩
      obtain ⟨_, o1, o2, o3, o4⟩ := ho k hk
      rcases hn with rfl | rfl | rfl | rfl <;> assumption
    · simp only [if_true] at hst
      obtain ⟨k2, h2, hst⟩ := bind_ok_inv hst
      obtain ⟨a2, r2, hst⟩ := bind_ok_inv hst
      obtain ⟨lr2, lc2, _⟩ := run_lnn r2
      unfold addCorr at hst
      obtain ⟨w, hw, hst⟩ := bind_ok_inv hst
      simp only [py_pure, Except.ok.injEq] at hst
      subst hst
      exact ⟨lr2.trans lr, lc2.trans lc, by simp⟩
  have sh : ∀ n, Ten.clear (st.acc.mats.ten n) = (fresh s.v symq).acc.mats.ten n := by
    intro n
    have hs := congrFun (S.sh.trans (fresh_sh s.v symq).symm) n
    simp only [Mats.sh, Prod.mk.injEq] at hs
    exact ten_ext hs.1 hs.2.1 hs.2.2 fun l i j => (fresh_val _ _ _ _ _ _).symm
  unfold clean arrays
  refine Prod.ext ?_ ?_
  · simp only [S.kern.1, S.kern.2.1, fresh]
  · show Mats.mk _ _ = Mats.mk _ _
    congr 1
    · funext n
      rcases off with _ | _
      · have := (hlnn.2.2 rfl).2 n
        cases n <;> first | exact this (by simp) | exact sh _
      · cases n <;> exact sh _
    · rcases off with _ | _
      · simp only [Bool.false_eq_true, if_false]
        exact (hlnn.2.2 rfl).1
      · simp only [if_true, hlnn.1, hlnn.2.1]

end RTD

end

end Verif
