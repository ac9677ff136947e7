import Verif.Lemmas.Congr
import Verif.Spec.Shift
import Verif.Props.Coherent
import Verif.Props.View

/-! C68: moving the zero of energy changes no kernel and no particle or heat current. -/

namespace Verif

open Finset

noncomputable section

/-- An increment of the currents with every electron carrying the energy `δ` more. -/
def CEv.sh (δ : ℝ) (ev : CEv) : CEv := ⟨ev.l, ev.i, ev.e + δ * ev.i⟩

theorem current_sh (δ : ℝ) (evs : List CEv) (l : Nat) :
    current (evs.map (CEv.sh δ)) l = current evs l ∧
    energyCurrent (evs.map (CEv.sh δ)) l = energyCurrent evs l + δ * current evs l := by
  have key : ∀ (evs : List CEv) (s t : ℝ),
      (evs.map (CEv.sh δ)).foldl (fun s ev => if ev.l = l then s + ev.i else s) s
        = evs.foldl (fun s ev => if ev.l = l then s + ev.i else s) s ∧
      (evs.map (CEv.sh δ)).foldl (fun s ev => if ev.l = l then s + ev.e else s) (t + δ * s)
        = evs.foldl (fun s ev => if ev.l = l then s + ev.e else s) t
          + δ * evs.foldl (fun s ev => if ev.l = l then s + ev.i else s) s := by
    intro evs
    induction evs with
    | nil => intro s t; exact ⟨rfl, rfl⟩
    | cons a evs ih =>
      intro s t
      simp only [List.map_cons, List.foldl_cons]
      by_cases e : a.l = l
      · have e' : (a.sh δ).l = l := e
        rw [if_pos e, if_pos e, if_pos e', if_pos e']
        have := ih (s + a.i) (t + a.e)
        rw [show t + a.e + δ * (s + a.i) = t + δ * s + (a.e + δ * a.i) by ring] at this
        exact this
      · have e' : ¬ (a.sh δ).l = l := e
        rw [if_neg e, if_neg e, if_neg e', if_neg e']
        exact ih s t
  refine ⟨(key evs 0 0).1, ?_⟩
  have := (key evs 0 0).2
  rw [show (0 : ℝ) + δ * 0 = 0 by ring] at this
  exact this

theorem funcPauli_sh (δ x mu T Dm Dp Dm' Dp' : ℝ) (it : Int)
    (hm : Dm' = if it = 1 then Dm else Dm + δ) (hp : Dp' = if it = 1 then Dp else Dp + δ) :
    funcPauli (x + δ) (mu + δ) T Dm' Dp' it = funcPauli x mu T Dm Dp it := by
  unfold funcPauli
  by_cases e : it = 1
  · simp [e]
  · rw [hm, hp, if_neg e, if_neg e]
    simp only [add_sub_add_right_eq_sub]

/-- Factors with every electron carrying the energy `δ` more. -/
def Amp.sh (δ : ℝ) (w : Amp) : Amp := ⟨w.cur0, w.cur1, w.en0 + δ * w.cur0, w.en1 + δ * w.cur1⟩

theorem func1vN_sh (lib : NumLib) (δ x mu T Dm Dp Dm' Dp' : ℝ) (it lim : Int)
    (hm : Dm' = if it = 1 then Dm else Dm + δ) (hp : Dp' = if it = 1 then Dp else Dp + δ) :
    func1vN lib (x + δ) (mu + δ) T Dm' Dp' it lim = (func1vN lib x mu T Dm Dp it lim).sh δ := by
  have ext : ∀ a b : Amp, a.cur0 = b.cur0 → a.cur1 = b.cur1 → a.en0 = b.en0 → a.en1 = b.en1 → a = b := by
    rintro ⟨⟩ ⟨⟩ h1 h2 h3 h4
    dsimp only at h1 h2 h3 h4
    subst h1 h2 h3 h4
    rfl
  unfold func1vN
  by_cases e1 : it = 1
  · rw [hm, hp, if_pos e1, if_pos e1]
    subst e1
    simp only [one_ne_zero, if_false, if_true]
    unfold func1vN1 Amp.sh
    simp only [add_sub_add_right_eq_sub]
    apply ext <;> dsimp only <;> push_cast <;> ring
  · rw [hm, hp, if_neg e1, if_neg e1]
    split
    · unfold func1vN0 Amp.sh
      simp only [add_sub_add_right_eq_sub]
      apply ext <;> dsimp only <;> push_cast <;> ring
    · split
      · unfold func1vN2 Amp.sh
        simp only [add_sub_add_right_eq_sub]
        apply ext <;> dsimp only <;> push_cast <;> ring
      · unfold func1vN3 Amp.sh
        split
        · simp only [add_sub_add_right_eq_sub]
          apply ext <;> dsimp only <;> push_cast <;> ring
        · simp

section
variable {v : View} {la : Lab} (h : VOk v la) {δ e0 : ℝ} {E E' : Nat → ℝ} {L L' : Leads}
  (hs : Shifted v δ e0 E E' L L')
include hs

theorem Shifted.diff {q b bp : Nat} (hb : b ∈ v.row q) (hbp : bp ∈ v.row q) : E' b - E' bp = E b - E bp := by
  rw [hs.energy q b hb, hs.energy q bp hbp]; ring

theorem Shifted.step {q c b : Nat} (hc : c ∈ v.row (q + 1)) (hb : b ∈ v.row q) :
    E' c - E' b = E c - E b + δ := by
  rw [hs.energy (q + 1) c hc, hs.energy q b hb]; push_cast; ring

theorem Shifted.fp {q c b : Nat} (l : Nat) (hc : c ∈ v.row (q + 1)) (hb : b ∈ v.row q) :
    funcPauli (E' c - E' b) (L'.mu l) (L'.T l) (L'.Dm l) (L'.Dp l) L'.itype
      = funcPauli (E c - E b) (L.mu l) (L.T l) (L.Dm l) (L.Dp l) L.itype := by
  rw [hs.step hc hb, hs.mu, hs.temp, hs.itype]
  exact funcPauli_sh _ _ _ _ _ _ _ _ _ (hs.Dm l) (hs.Dp l)

theorem Shifted.heat (evs : List CEv) (l : Nat) :
    heatCurrent L' (evs.map (CEv.sh δ)) l = heatCurrent L evs l := by
  unfold heatCurrent
  obtain ⟨h1, h2⟩ := current_sh δ evs l
  rw [h1, h2, hs.mu]; ring

include h

/-- **C68** for the Pauli approach. With the zero of energy moved, the factors and hence the kernel are the same.
For every state the particle currents and the heat currents are the same, and the energy currents differ by `δ` per
electron. -/
theorem c68_pauli :
    Pauli.genFct v E' L' = Pauli.genFct v E L ∧
    (∀ symq, (Pauli.genFct v E' L' >>= Pauli.kernel v symq) = (Pauli.genFct v E L >>= Pauli.kernel v symq)) ∧
    ∀ fct φ evs, Pauli.genCurrent v E fct φ = .ok evs →
      ∃ evs', Pauli.genCurrent v E' fct φ = .ok evs' ∧ ∀ l, current evs' l = current evs l ∧
        energyCurrent evs' l = energyCurrent evs l + δ * current evs l ∧
        heatCurrent L' evs' l = heatCurrent L evs l := by
  have e1 : Pauli.genFct v E' L' = Pauli.genFct v E L := by
    unfold Pauli.genFct
    apply fillFct_congr h
    intro q c b l hc hb
    unfold Pauli.amp
    rw [hs.fp l hc hb, hs.tba, hs.tba]
  have e2 : ∀ fct φ, Pauli.genCurrent v E' fct φ = List.map (CEv.sh δ) <$> Pauli.genCurrent v E fct φ := by
    intro fct φ
    unfold Pauli.genCurrent
    apply collect_map
    intro q hq
    have hq' := List.mem_range.1 hq
    rw [h.states_succ (by omega)]
    simp only [py_bind_ok]
    apply collect_map
    intro c hc
    rw [h.states (by omega)]
    cases g1 : v.ind0 c c ((q : Int) + 1) with
    | error e => rfl
    | ok cc =>
      simp only [py_bind_ok]
      apply collect_map
      intro b hb
      cases g2 : v.ind0 b b (q : Int) with
      | error e => rfl
      | ok bb =>
        rw [h.ind1 q _ _ hc hb]
        simp only [py_bind_ok]
        apply collect_map
        intro l _
        cases g3 : φ.get bb with
        | error e => rfl
        | ok pb =>
          cases g4 : φ.get cc with
          | error e => rfl
          | ok pc =>
            simp only [py_bind_ok]
            cases g5 : v.rd fct l (la.ix1 q c b) with
            | error e => rfl
            | ok w =>
              have := hs.step hc hb
              refine congrArg Except.ok (congrArg (fun x => [x]) ?_)
              unfold CEv.sh
              dsimp only
              rw [show -(E' b - E' c) = -(E b - E c) + δ by linarith]
              congr 1
              ring
  refine ⟨e1, fun symq => by rw [e1], ?_⟩
  intro fct φ evs g
  refine ⟨evs.map (CEv.sh δ), by rw [e2, g]; rfl, fun l => ⟨(current_sh δ evs l).1, (current_sh δ evs l).2, hs.heat evs l⟩⟩

/-- Kernels with coherences: the energy terms are the same. -/
theorem genKern_sh (coup : Nat → Nat → Int → Py (List KCall)) : v.genKern E' coup = v.genKern E coup := by
  unfold View.genKern
  apply collect_congr
  intro q hq
  have hq' := List.mem_range.1 hq
  rw [h.states (by omega)]
  simp only [py_bind_ok]
  apply collect_congr
  intro p hp
  obtain ⟨h1, h2⟩ := combsR2_mem hp
  rw [hs.diff h1 h2]

/-- **C68** for the Lindblad approach. -/
theorem c68_lindblad :
    Lindblad.genFct v E' L' = Lindblad.genFct v E L ∧
    (∀ symq, (Lindblad.genFct v E' L' >>= Lindblad.kernel v symq E') =
      (Lindblad.genFct v E L >>= Lindblad.kernel v symq E)) ∧
    ∀ t φ evs, Lindblad.genCurrent v E t φ = .ok evs →
      ∃ evs', Lindblad.genCurrent v E' t φ = .ok evs' ∧ ∀ l, current evs' l = current evs l ∧
        energyCurrent evs' l = energyCurrent evs l + δ * current evs l ∧
        heatCurrent L' evs' l = heatCurrent L evs l := by
  have e1 : Lindblad.genFct v E' L' = Lindblad.genFct v E L := by
    unfold Lindblad.genFct
    apply foldlM_congr'
    intro q hq s
    have hq' := List.mem_range.1 hq
    rw [h.states_succ (by omega), h.states (by omega)]
    simp only [py_bind_ok]
    apply foldlM_congr'
    intro p hp s
    obtain ⟨h1, h2⟩ := prod2_mem hp
    apply foldlM_congr'
    intro l _ s
    rw [hs.fp l h1 h2, hs.tba, hs.tba]
  have e2 : ∀ t φ, Lindblad.genCurrent v E' t φ = List.map (CEv.sh δ) <$> Lindblad.genCurrent v E t φ := by
    intro t φ
    unfold Lindblad.genCurrent
    apply collect_map
    intro q hq
    have hq' := List.mem_range.1 hq
    rw [h.states (by omega)]
    simp only [py_bind_ok]
    apply collect_map
    rintro ⟨b, bp⟩ hp
    obtain ⟨h1, h2⟩ := prod2_mem hp
    dsimp only at h1 h2 ⊢
    cases g1 : v.isIncluded b bp (q : Int) with
    | error e => rfl
    | ok i =>
      simp only [py_bind_ok]
      cases i with
      | false => rfl
      | true =>
        simp only [if_true]
        cases g2 : v.phi0Element φ b bp (q : Int) with
        | error e => rfl
        | ok ph =>
          simp only [py_bind_ok]
          apply collect_map
          intro l _
          have key : Lindblad.curTerm v E' t ph b bp (q : Int) l
              = CEv.sh δ <$> Lindblad.curTerm v E t ph b bp (q : Int) l := by
            unfold Lindblad.curTerm
            rw [h.states_pred (by omega), h.states_succ (by omega)]
            simp only [py_bind_ok]
            let m : ℂ × ℂ →+ ℂ × ℂ := ⟨⟨fun x => (x.1, x.2 + δ * x.1), by simp⟩, by
              intro x y; ext <;> simp <;> ring⟩
            have k1 := sumM_map m (l := v.low q)
              (f := fun a => (pure (-(t l a b * ph * (starRingEnd ℂ) (t l a bp)),
                ((E a - 1 / 2 * (E b + E bp) : ℝ) : ℂ) * (t l a b * ph * (starRingEnd ℂ) (t l a bp))) : Py (ℂ × ℂ)))
              (g := fun a => (pure (-(t l a b * ph * (starRingEnd ℂ) (t l a bp)),
                ((E' a - 1 / 2 * (E' b + E' bp) : ℝ) : ℂ) * (t l a b * ph * (starRingEnd ℂ) (t l a bp))) : Py (ℂ × ℂ)))
              (by
                intro a ha
                obtain ⟨q', rfl, ha'⟩ : ∃ q', q = q' + 1 ∧ a ∈ v.row q' := by
                  rcases q with _ | q'
                  · simp [View.low] at ha
                  · exact ⟨q', rfl, by simpa [View.low] using ha⟩
                refine congrArg Except.ok (Prod.ext rfl ?_)
                show _ = ((E a - 1 / 2 * (E b + E bp) : ℝ) : ℂ) * _ + (δ : ℂ) * -_
                rw [hs.energy _ a ha', hs.energy _ b h1, hs.energy _ bp h2]
                push_cast; ring)
            have k2 := sumM_map m (l := v.row (q + 1))
              (f := fun a => (pure (t l a b * ph * (starRingEnd ℂ) (t l a bp),
                ((E a - 1 / 2 * (E b + E bp) : ℝ) : ℂ) * (t l a b * ph * (starRingEnd ℂ) (t l a bp))) : Py (ℂ × ℂ)))
              (g := fun a => (pure (t l a b * ph * (starRingEnd ℂ) (t l a bp),
                ((E' a - 1 / 2 * (E' b + E' bp) : ℝ) : ℂ) * (t l a b * ph * (starRingEnd ℂ) (t l a bp))) : Py (ℂ × ℂ)))
              (by
                intro a ha
                refine congrArg Except.ok (Prod.ext rfl ?_)
                show _ = ((E a - 1 / 2 * (E b + E bp) : ℝ) : ℂ) * _ + (δ : ℂ) * _
                rw [hs.energy _ a ha, hs.energy _ b h1, hs.energy _ bp h2]
                push_cast; ring)
            rw [k1, k2]
            generalize sumM (v.low q) (fun a => (pure (-(t l a b * ph * (starRingEnd ℂ) (t l a bp)),
                ((E a - 1 / 2 * (E b + E bp) : ℝ) : ℂ) * (t l a b * ph * (starRingEnd ℂ) (t l a bp))) :
                Py (ℂ × ℂ))) = X
            generalize sumM (v.row (q + 1)) (fun a => (pure (t l a b * ph * (starRingEnd ℂ) (t l a bp),
                ((E a - 1 / 2 * (E b + E bp) : ℝ) : ℂ) * (t l a b * ph * (starRingEnd ℂ) (t l a bp))) :
                Py (ℂ × ℂ))) = Y
            cases X with
            | error e => rfl
            | ok x =>
              cases Y with
              | error e => rfl
              | ok y =>
                refine congrArg Except.ok ?_
                unfold CEv.sh
                dsimp only
                congr 1
                simp [m]
                ring
          rw [key]
          cases g3 : Lindblad.curTerm v E t ph b bp (q : Int) l with
          | error e => rfl
          | ok ev => rfl
  refine ⟨e1, fun symq => ?_, ?_⟩
  · rw [e1]
    cases Lindblad.genFct v E L with
    | error e => rfl
    | ok t =>
      show Lindblad.kernel v symq E' t = Lindblad.kernel v symq E t
      unfold Lindblad.kernel
      rw [genKern_sh h hs]
  intro fct φ evs g
  exact ⟨evs.map (CEv.sh δ), by rw [e2, g]; rfl,
    fun l => ⟨(current_sh δ evs l).1, (current_sh δ evs l).2, hs.heat evs l⟩⟩

/-- The factors of 1vN and Redfield move by `δ` per electron. -/
theorem genFct1vN_sh (lib : NumLib) :
    genFct1vN v lib E' L' = (fun f l k => (f l k).sh δ) <$> genFct1vN v lib E L := by
  have := fillFct_map h (Amp.sh δ) ⟨0, 0, 0, 0⟩ (amp1vN lib E L)
  unfold genFct1vN
  rw [← this, show Amp.sh δ ⟨0, 0, 0, 0⟩ = ⟨0, 0, 0, 0⟩ by simp [Amp.sh]]
  apply fillFct_congr h
  intro q c b l hc hb
  unfold amp1vN
  rw [hs.step hc hb, hs.mu, hs.temp, hs.itype, hs.limit]
  exact func1vN_sh lib _ _ _ _ _ _ _ _ _ _ (hs.Dm l) (hs.Dp l)

end

theorem sh_cur0 (δ : ℝ) (w : Amp) : (w.sh δ).cur0 = w.cur0 := rfl

theorem sh_cur1 (δ : ℝ) (w : Amp) : (w.sh δ).cur1 = w.cur1 := rfl

theorem rd_sh (v : View) (δ : ℝ) (f : Nat → Nat → Amp) (l k : Nat) :
    v.rd (fun l k => (f l k).sh δ) l k = Amp.sh δ <$> v.rd f l k := by
  unfold View.rd
  split <;> rfl

/-- The map of the three sums `phi1_l`, `current_l`, `energy_current_l`. -/
def sh3 (δ : ℝ) : ℂ × ℂ × ℂ →+ ℂ × ℂ × ℂ :=
  ⟨⟨fun x => (x.1, x.2.1, x.2.2 + δ * x.2.1), by simp⟩, by
    intro x y
    refine Prod.ext rfl (Prod.ext rfl ?_)
    show _ + _ + (δ : ℂ) * (_ + _) = _ + (δ : ℂ) * _ + (_ + (δ : ℂ) * _)
    ring⟩

/-- The map of the increments. -/
def CEv1.sh (δ : ℝ) (ev : CEv1) : CEv1 := ⟨ev.ev.sh δ, ev.cb, ev.phi1⟩

theorem ev_sh (δ : ℝ) (l cb : Nat) (x y : ℂ × ℂ × ℂ) :
    CEv1.mk ⟨l, -2 * ((sh3 δ x).2.1 + (sh3 δ y).2.1).im, -2 * ((sh3 δ x).2.2 + (sh3 δ y).2.2).im⟩ cb
      ((sh3 δ x).1 + (sh3 δ y).1)
    = (CEv1.mk ⟨l, -2 * (x.2.1 + y.2.1).im, -2 * (x.2.2 + y.2.2).im⟩ cb (x.1 + y.1)).sh δ := by
  unfold CEv1.sh CEv.sh
  congr 2
  simp [sh3]
  ring

namespace VN1

theorem coup_sh (v : View) (δ : ℝ) (T : Nat → Nat → Nat → ℂ) (f : Nat → Nat → Amp) :
    coup v T (fun l k => (f l k).sh δ) = coup v T f := by
  funext b bp q
  have eA : fctA v T (fun l k => (f l k).sh δ) b bp q = fctA v T f b bp q := by
    funext a ap
    unfold fctA
    simp only [rd_sh, sh_cur0, sh_cur1, bind_map_left]
  have eL : fctL v T (fun l k => (f l k).sh δ) b bp q = fctL v T f b bp q := by
    funext a
    unfold fctL
    simp only [rd_sh, sh_cur0, sh_cur1, bind_map_left]
  have eR : fctR v T (fun l k => (f l k).sh δ) b bp q = fctR v T f b bp q := by
    funext a
    unfold fctR
    simp only [rd_sh, sh_cur0, sh_cur1, bind_map_left]
  have eC : fctC v T (fun l k => (f l k).sh δ) b bp q = fctC v T f b bp q := by
    funext a ap
    unfold fctC
    simp only [rd_sh, sh_cur0, sh_cur1, bind_map_left]
  unfold coup
  rw [eA, eL, eR, eC]

theorem curB_sh (v : View) (δ : ℝ) (T : Nat → Nat → Nat → ℂ) (w : Amp) (φ : Vec) (c b : Nat) (q : Int) (l : Nat) :
    curB v T φ (w.sh δ) c b q l = sh3 δ <$> curB v T φ w c b q l := by
  unfold curB
  cases v.states q with
  | error e => rfl
  | ok Bs =>
    simp only [py_bind_ok]
    apply sumM_map
    intro bp _
    cases v.isIncluded bp b q with
    | error e => rfl
    | ok i =>
      cases i with
      | false => exact congrArg Except.ok (map_zero (sh3 δ)).symm
      | true =>
        simp only [py_bind_ok, if_true]
        cases v.phi0Element φ bp b q with
        | error e => rfl
        | ok p =>
          refine congrArg Except.ok (Prod.ext rfl (Prod.ext rfl ?_))
          simp [sh3, Amp.sh]; ring

theorem curC_sh (v : View) (δ : ℝ) (T : Nat → Nat → Nat → ℂ) (w : Amp) (φ : Vec) (c b : Nat) (q : Int) (l : Nat) :
    curC v T φ (w.sh δ) c b q l = sh3 δ <$> curC v T φ w c b q l := by
  unfold curC
  cases v.states q with
  | error e => rfl
  | ok Bs =>
    simp only [py_bind_ok]
    apply sumM_map
    intro cp _
    cases v.isIncluded c cp q with
    | error e => rfl
    | ok i =>
      cases i with
      | false => exact congrArg Except.ok (map_zero (sh3 δ)).symm
      | true =>
        simp only [py_bind_ok, if_true]
        cases v.phi0Element φ c cp q with
        | error e => rfl
        | ok p =>
          refine congrArg Except.ok (Prod.ext rfl (Prod.ext rfl ?_))
          simp [sh3, Amp.sh]; ring

theorem genCurrent_sh (v : View) (δ : ℝ) (T : Nat → Nat → Nat → ℂ) (f : Nat → Nat → Amp) (φ : Vec) :
    genCurrent v T (fun l k => (f l k).sh δ) φ = List.map (CEv1.sh δ) <$> genCurrent v T f φ := by
  unfold genCurrent
  apply collect_map
  intro q _
  cases v.states ((q : Int) + 1) with
  | error e => rfl
  | ok Cs =>
    cases v.states (q : Int) with
    | error e => rfl
    | ok Bs =>
      simp only [py_bind_ok]
      apply collect_map
      intro p _
      cases v.ind1 p.1 p.2 (q : Int) with
      | error e => rfl
      | ok cb =>
        simp only [py_bind_ok]
        apply collect_map
        intro l _
        rw [rd_sh]
        cases v.rd f l cb with
        | error e => rfl
        | ok w =>
          rw [show Amp.sh δ <$> (Except.ok w : Py Amp) = .ok (w.sh δ) from rfl]
          simp only [py_bind_ok]
          rw [curB_sh, curC_sh]
          cases curB v T φ w p.1 p.2 (q : Int) l with
          | error e => rfl
          | ok x =>
            cases curC v T φ w p.1 p.2 ((q : Int) + 1) l with
            | error e => rfl
            | ok y => exact congrArg Except.ok (congrArg (fun x => [x]) (ev_sh δ l cb x y))

end VN1

namespace Redfield

theorem coup_sh (v : View) (δ : ℝ) (T : Nat → Nat → Nat → ℂ) (f : Nat → Nat → Amp) :
    coup v T (fun l k => (f l k).sh δ) = coup v T f := by
  funext b bp q
  have eA : fctA v T (fun l k => (f l k).sh δ) b bp q = fctA v T f b bp q := by
    funext a ap
    unfold fctA
    simp only [rd_sh, sh_cur0, sh_cur1, bind_map_left]
  have eL : fctL v T (fun l k => (f l k).sh δ) b q = fctL v T f b q := by
    funext a
    unfold fctL
    simp only [rd_sh, sh_cur0, sh_cur1, bind_map_left]
  have eR : fctR v T (fun l k => (f l k).sh δ) bp q = fctR v T f bp q := by
    funext a
    unfold fctR
    simp only [rd_sh, sh_cur0, sh_cur1, bind_map_left]
  have eC : fctC v T (fun l k => (f l k).sh δ) b bp q = fctC v T f b bp q := by
    funext a ap
    unfold fctC
    simp only [rd_sh, sh_cur0, sh_cur1, bind_map_left]
  unfold coup
  rw [eA, eL, eR, eC]

theorem curB_sh (v : View) (δ : ℝ) (T : Nat → Nat → Nat → ℂ) (f : Nat → Nat → Amp) (φ : Vec) (c b : Nat) (q : Int)
    (l : Nat) : curB v T (fun l k => (f l k).sh δ) φ c b q l = sh3 δ <$> curB v T f φ c b q l := by
  unfold curB
  cases v.states q with
  | error e => rfl
  | ok Bs =>
    simp only [py_bind_ok]
    apply sumM_map
    intro bp _
    cases v.isIncluded bp b q with
    | error e => rfl
    | ok i =>
      cases i with
      | false => exact congrArg Except.ok (map_zero (sh3 δ)).symm
      | true =>
        simp only [py_bind_ok, if_true]
        cases v.phi0Element φ bp b q with
        | error e => rfl
        | ok p =>
          simp only [py_bind_ok]
          cases v.ind1 c bp q with
          | error e => rfl
          | ok cbp =>
            simp only [py_bind_ok]
            rw [rd_sh]
            cases v.rd f l cbp with
            | error e => rfl
            | ok w =>
              refine congrArg Except.ok (Prod.ext rfl (Prod.ext rfl ?_))
              simp [sh3, Amp.sh]; ring

theorem curC_sh (v : View) (δ : ℝ) (T : Nat → Nat → Nat → ℂ) (f : Nat → Nat → Amp) (φ : Vec) (c b : Nat) (q q' : Int)
    (l : Nat) : curC v T (fun l k => (f l k).sh δ) φ c b q q' l = sh3 δ <$> curC v T f φ c b q q' l := by
  unfold curC
  cases v.states q' with
  | error e => rfl
  | ok Bs =>
    simp only [py_bind_ok]
    apply sumM_map
    intro cp _
    cases v.isIncluded c cp q' with
    | error e => rfl
    | ok i =>
      cases i with
      | false => exact congrArg Except.ok (map_zero (sh3 δ)).symm
      | true =>
        simp only [py_bind_ok, if_true]
        cases v.phi0Element φ c cp q' with
        | error e => rfl
        | ok p =>
          simp only [py_bind_ok]
          cases v.ind1 cp b q with
          | error e => rfl
          | ok cpb =>
            simp only [py_bind_ok]
            rw [rd_sh]
            cases v.rd f l cpb with
            | error e => rfl
            | ok w =>
              refine congrArg Except.ok (Prod.ext rfl (Prod.ext rfl ?_))
              simp [sh3, Amp.sh]; ring

theorem genCurrent_sh (v : View) (δ : ℝ) (T : Nat → Nat → Nat → ℂ) (f : Nat → Nat → Amp) (φ : Vec) :
    genCurrent v T (fun l k => (f l k).sh δ) φ = List.map (CEv1.sh δ) <$> genCurrent v T f φ := by
  unfold genCurrent
  apply collect_map
  intro q _
  cases v.states ((q : Int) + 1) with
  | error e => rfl
  | ok Cs =>
    cases v.states (q : Int) with
    | error e => rfl
    | ok Bs =>
      simp only [py_bind_ok]
      apply collect_map
      intro p _
      cases v.ind1 p.1 p.2 (q : Int) with
      | error e => rfl
      | ok cb =>
        simp only [py_bind_ok]
        apply collect_map
        intro l _
        rw [curB_sh, curC_sh]
        cases curB v T f φ p.1 p.2 (q : Int) l with
        | error e => rfl
        | ok x =>
          cases curC v T f φ p.1 p.2 (q : Int) ((q : Int) + 1) l with
          | error e => rfl
          | ok y => exact congrArg Except.ok (congrArg (fun x => [x]) (ev_sh δ l cb x y))

end Redfield

section
variable {v : View} {la : Lab} (h : VOk v la) {δ e0 : ℝ} {E E' : Nat → ℝ} {L L' : Leads}
  (hs : Shifted v δ e0 E E' L L')
include h hs

omit h in
theorem Shifted.sh1 (evs : List CEv1) (l : Nat) :
    current ((evs.map (CEv1.sh δ)).map (·.ev)) l = current (evs.map (·.ev)) l ∧
    energyCurrent ((evs.map (CEv1.sh δ)).map (·.ev)) l
      = energyCurrent (evs.map (·.ev)) l + δ * current (evs.map (·.ev)) l ∧
    heatCurrent L' ((evs.map (CEv1.sh δ)).map (·.ev)) l = heatCurrent L (evs.map (·.ev)) l := by
  rw [show (evs.map (CEv1.sh δ)).map (·.ev) = (evs.map (·.ev)).map (CEv.sh δ) by
    rw [List.map_map, List.map_map]; rfl]
  exact ⟨(current_sh δ _ l).1, (current_sh δ _ l).2, hs.heat _ l⟩

/-- **C68** for the 1vN approach. The first order density matrix `phi1` is also the same. -/
theorem c68_1vN (lib : NumLib) {f : Nat → Nat → Amp} (hf : genFct1vN v lib E L = .ok f) :
    ∃ f', genFct1vN v lib E' L' = .ok f' ∧
    (∀ symq, VN1.kernel v symq E' L'.Tba f' = VN1.kernel v symq E L.Tba f) ∧
    ∀ φ evs, VN1.genCurrent v L.Tba f φ = .ok evs →
      ∃ evs', VN1.genCurrent v L'.Tba f' φ = .ok evs' ∧
        (evs'.map fun ev => (ev.ev.l, ev.cb, ev.phi1)) = (evs.map fun ev => (ev.ev.l, ev.cb, ev.phi1)) ∧
        ∀ l, current (evs'.map (·.ev)) l = current (evs.map (·.ev)) l ∧
        energyCurrent (evs'.map (·.ev)) l
          = energyCurrent (evs.map (·.ev)) l + δ * current (evs.map (·.ev)) l ∧
        heatCurrent L' (evs'.map (·.ev)) l = heatCurrent L (evs.map (·.ev)) l := by
  have eT : L'.Tba = L.Tba := funext fun l => funext fun b => funext fun a => hs.tba l b a
  refine ⟨fun l k => (f l k).sh δ, by rw [genFct1vN_sh h hs, hf]; rfl, ?_, ?_⟩
  · intro symq
    unfold VN1.kernel
    rw [genKern_sh h hs, eT, VN1.coup_sh]
  · intro φ evs g
    refine ⟨evs.map (CEv1.sh δ), by rw [eT, VN1.genCurrent_sh, g]; rfl, ?_, hs.sh1 evs⟩
    rw [List.map_map]; rfl

/-- **C68** for the Redfield approach. -/
theorem c68_redfield (lib : NumLib) {f : Nat → Nat → Amp} (hf : genFct1vN v lib E L = .ok f) :
    ∃ f', genFct1vN v lib E' L' = .ok f' ∧
    (∀ symq, Redfield.kernel v symq E' L'.Tba f' = Redfield.kernel v symq E L.Tba f) ∧
    ∀ φ evs, Redfield.genCurrent v L.Tba f φ = .ok evs →
      ∃ evs', Redfield.genCurrent v L'.Tba f' φ = .ok evs' ∧
        (evs'.map fun ev => (ev.ev.l, ev.cb, ev.phi1)) = (evs.map fun ev => (ev.ev.l, ev.cb, ev.phi1)) ∧
        ∀ l, current (evs'.map (·.ev)) l = current (evs.map (·.ev)) l ∧
        energyCurrent (evs'.map (·.ev)) l
          = energyCurrent (evs.map (·.ev)) l + δ * current (evs.map (·.ev)) l ∧
        heatCurrent L' (evs'.map (·.ev)) l = heatCurrent L (evs.map (·.ev)) l := by
  have eT : L'.Tba = L.Tba := funext fun l => funext fun b => funext fun a => hs.tba l b a
  refine ⟨fun l k => (f l k).sh δ, by rw [genFct1vN_sh h hs, hf]; rfl, ?_, ?_⟩
  · intro symq
    unfold Redfield.kernel
    rw [genKern_sh h hs, eT, Redfield.coup_sh]
  · intro φ evs g
    refine ⟨evs.map (CEv1.sh δ), by rw [eT, Redfield.genCurrent_sh, g]; rfl, ?_, hs.sh1 evs⟩
    rw [List.map_map]; rfl

end

/-- The hypotheses of the theorems for C68 hold for a system with two orbitals and two leads, with finite bands that
move (`itype = 0`) and with bands relative to the chemical potential (`itype = 1`). -/
example (k : Bool) (lib : NumLib) : ∃ (v : View) (la : Lab) (E E' : Nat → ℝ) (L L' : Leads) (f : Nat → Nat → Amp)
    (φ : Vec) (evs : List CEv1), VOk v la ∧ Shifted v 3 5 E E' L L' ∧ L.itype = (if k then 1 else 0) ∧
    genFct1vN v lib E L = .ok f ∧ VN1.genCurrent v L.Tba f φ = .ok evs ∧ v.nleads = 2 ∧ L.Tba 0 0 1 ≠ 0 ∧
    E' 3 ≠ E 3 ∧ φ.val 0 ≠ 0 := by
  obtain ⟨d, _, hv, hst, _, hn⟩ := view_example' 2
  let L : Leads := ⟨fun l => l, fun l => l + 1, fun _ => -60, fun _ => 60, fun l _ _ => l + 1, if k then 1 else 0, 10000⟩
  let L' : Leads := ⟨fun l => l + 3, fun l => l + 1, fun _ => if k then -60 else -57, fun _ => if k then 60 else 63,
    fun l _ _ => l + 1, if k then 1 else 0, 10000⟩
  obtain ⟨f, gf, _⟩ := fillFct_ok hv (⟨0, 0, 0, 0⟩ : Amp) (amp1vN lib (fun b => (b : ℝ)) L)
  have hf : genFct1vN (d.view 2) lib (fun b => (b : ℝ)) L = .ok f := gf
  obtain ⟨evs, hevs, _⟩ := VN1.genCurrent_ok (v := d.view 2) hv L.Tba f ⟨6, fun _ => 1⟩ (le_of_eq hn)
  refine ⟨d.view 2, d.labOf, fun b => b, fun b => b + 5 + 3 * (if b = 0 then 0 else if b < 3 then 1 else 2), L, L', f,
    ⟨6, fun _ => 1⟩, evs, hv, ⟨?_, fun _ => rfl, fun _ => rfl, fun _ _ _ => rfl, rfl, rfl, ?_, ?_⟩, rfl, hf, hevs, rfl,
    by simp [L], by norm_num, one_ne_zero⟩
  · intro q b hb
    have : b ∈ (d.statesdm[q]?).getD [] := hb
    rw [hst] at this
    match q with
    | 0 => obtain rfl : b = 0 := by simpa using this
           simp
    | 1 => obtain rfl | rfl : b = 1 ∨ b = 2 := by simpa using this
           · norm_num
           · norm_num
    | 2 => obtain rfl : b = 3 := by simpa using this
           norm_num
    | 3 => simp at this
    | q + 4 => simp at this
  · intro l; cases k <;> norm_num [L, L']
  · intro l; cases k <;> norm_num [L, L']

end

end Verif
