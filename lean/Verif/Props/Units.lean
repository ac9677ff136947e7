import Verif.Lemmas.Congr
import Verif.Spec.Units
import Verif.Props.Shift

/-! C91: the unit of energy is arbitrary in the first order approaches. -/

namespace Verif

open Finset

noncomputable section

/-! ### Scaling the calls on the handler -/

/-- A call with its numbers multiplied by `s`. -/
def KCall.sc (s : ℝ) : KCall → KCall
  | .energy e b bp q => .energy (s * e) b bp q
  | .elem f b bp q a ap qa => .elem (s * f) b bp q a ap qa
  | .pauli fm fp bb aa => .pauli (s * fm) (s * fp) bb aa

theorem Mat.add_sc (s : ℝ) (k : Mat) (i j : Int) (x y : ℝ) (hy : y = s * x) :
    (k.scale s).add i j y = Mat.scale s <$> k.add i j x := by
  unfold Mat.add Mat.scale
  dsimp only
  cases pyIdx k.rows i with
  | error e => rfl
  | ok r =>
    simp only [py_bind_ok]
    cases pyIdx k.cols j with
    | error e => rfl
    | ok c =>
      simp only [py_bind_ok]
      refine congrArg Except.ok ?_
      dsimp only
      congr 1
      funext r' c'
      split
      · rw [hy]; ring
      · rfl

section
variable (v : View) (s : ℝ)

theorem addImagRow_sc (k : Mat) (i j : Int) (x y : ℝ) (hy : y = s * x) :
    v.addImagRow (k.scale s) i j y = Mat.scale s <$> v.addImagRow k i j x := by
  unfold View.addImagRow
  split
  · exact Mat.add_sc s k i j x y hy
  · rfl

theorem callKern_sc (k : Mat) (c : KCall) : v.callKern (k.scale s) (c.sc s) = Mat.scale s <$> v.callKern k c := by
  cases c with
  | energy e b bp q =>
    simp only [KCall.sc, View.callKern]
    cases v.ind0 b bp q with
    | error e => rfl
    | ok bbp =>
      simp only [py_bind_ok]
      unfold View.putEnergy
      split
      · rw [Mat.add_sc s k _ _ e _ rfl]
        cases k.add bbp (v.imagPos bbp) e with
        | error e => rfl
        | ok k1 => exact Mat.add_sc s k1 _ _ (-e) _ (by ring)
      · rfl
  | elem f b bp q a ap qa =>
    simp only [KCall.sc, View.callKern]
    cases v.ind0 b bp q with
    | error e => rfl
    | ok bbp =>
      simp only [py_bind_ok]
      cases v.ind0 a ap qa with
      | error e => rfl
      | ok aap =>
        simp only [py_bind_ok]
        cases v.conj0 a ap qa with
        | error e => rfl
        | ok cj =>
          simp only [py_bind_ok]
          rw [Mat.add_sc s k _ _ f.im _ (by simp)]
          cases k.add bbp aap f.im with
          | error e => rfl
          | ok k1 =>
            rw [show Mat.scale s <$> (Except.ok k1 : Py Mat) = .ok (k1.scale s) from rfl]
            simp only [py_bind_ok]
            have h2 : v.putImagCol (k1.scale s) (s * f) (if cj then 1 else -1) bbp (v.imagPos bbp) (v.imagPos aap)
                = Mat.scale s <$> v.putImagCol k1 f (if cj then 1 else -1) bbp (v.imagPos bbp) (v.imagPos aap) := by
              unfold View.putImagCol
              split
              · rw [Mat.add_sc s k1 _ _ (f.re * (if cj then 1 else -1)) _ (by simp <;> ring)]
                cases k1.add bbp (v.imagPos aap) (f.re * (if cj then 1 else -1)) with
                | error e => rfl
                | ok k2 => exact addImagRow_sc v s k2 _ _ _ _ (by simp <;> ring)
              · rfl
            rw [h2]
            cases v.putImagCol k1 f (if cj then 1 else -1) bbp (v.imagPos bbp) (v.imagPos aap) with
            | error e => rfl
            | ok k3 => exact addImagRow_sc v s k3 _ _ _ _ (by simp)
  | pauli fm fp bb aa =>
    simp only [KCall.sc, View.callKern]
    rw [Mat.add_sc s k _ _ fm _ rfl]
    cases k.add bb bb fm with
    | error e => rfl
    | ok k1 => exact Mat.add_sc s k1 _ _ fp _ rfl

theorem runKern_sc (k : Mat) (cs : List KCall) :
    v.runKern (k.scale s) (cs.map (KCall.sc s)) = Mat.scale s <$> v.runKern k cs := by
  unfold View.runKern
  induction cs generalizing k with
  | nil => rfl
  | cons c cs ih =>
    rw [List.map_cons, List.foldlM_cons, List.foldlM_cons, callKern_sc]
    cases v.callKern k c with
    | error e => rfl
    | ok k1 => exact ih k1

theorem assemble_sc (n : Nat) (symq : Bool) (cs cs' : Py (List KCall)) (h : cs' = List.map (KCall.sc s) <$> cs) :
    v.assemble n symq cs' = Mat.scale s <$> v.assemble n symq cs := by
  unfold View.assemble
  rw [h]
  cases cs with
  | error e => rfl
  | ok cs =>
    rw [show List.map (KCall.sc s) <$> (Except.ok cs : Py (List KCall)) = .ok (cs.map (KCall.sc s)) from rfl]
    simp only [py_bind_ok]
    rw [← runKern_sc]
    congr 1
    unfold Mat.zeros Mat.scale
    simp

theorem elemIf_sc (f f' : Py ℂ) (hf : f' = (fun z => (s : ℂ) * z) <$> f) (b bp : Nat) (q : Int) (a ap : Nat) (qa : Int) :
    v.elemIf f' b bp q a ap qa = List.map (KCall.sc s) <$> v.elemIf f b bp q a ap qa := by
  unfold View.elemIf
  rw [hf]
  cases v.isIncluded a ap qa with
  | error e => rfl
  | ok i =>
    cases i with
    | false => rfl
    | true =>
      cases f with
      | error e => rfl
      | ok z => rfl

theorem blocks_sc (b bp : Nat) (q : Int) (fA fA' fC fC' : Nat → Nat → Py ℂ) (fL fL' fR fR' : Nat → Py ℂ)
    (hA : ∀ a ap, fA' a ap = (fun z => (s : ℂ) * z) <$> fA a ap)
    (hL : ∀ a, fL' a = (fun z => (s : ℂ) * z) <$> fL a)
    (hR : ∀ a, fR' a = (fun z => (s : ℂ) * z) <$> fR a)
    (hC : ∀ a ap, fC' a ap = (fun z => (s : ℂ) * z) <$> fC a ap) :
    v.blocks b bp q fA' fL' fR' fC' = List.map (KCall.sc s) <$> v.blocks b bp q fA fL fR fC := by
  unfold View.blocks
  cases v.states (q - 1) with
  | error e => rfl
  | ok As =>
    simp only [py_bind_ok]
    rw [collect_map (KCall.sc s) (f := fun p => v.elemIf (fA p.1 p.2) b bp q p.1 p.2 (q - 1))
      (fun p _ => elemIf_sc v s _ _ (hA p.1 p.2) b bp q p.1 p.2 (q - 1))]
    cases collect (prod2 As As) (fun p => v.elemIf (fA p.1 p.2) b bp q p.1 p.2 (q - 1)) with
    | error e => rfl
    | ok r1 =>
      rw [show List.map (KCall.sc s) <$> (Except.ok r1 : Py (List KCall)) = .ok (r1.map (KCall.sc s)) from rfl]
      simp only [py_bind_ok]
      cases v.states q with
      | error e => rfl
      | ok Bs =>
        simp only [py_bind_ok]
        have h2 := collect_map (KCall.sc s) (l := Bs)
          (f := fun bpp => do
            let x ← v.elemIf (fL bpp) b bp q bpp bp q
            let y ← v.elemIf (fR bpp) b bp q b bpp q
            pure (x ++ y))
          (g := fun bpp => do
            let x ← v.elemIf (fL' bpp) b bp q bpp bp q
            let y ← v.elemIf (fR' bpp) b bp q b bpp q
            pure (x ++ y)) (by
          intro bpp _
          rw [elemIf_sc v s _ _ (hL bpp), elemIf_sc v s _ _ (hR bpp)]
          cases v.elemIf (fL bpp) b bp q bpp bp q with
          | error e => rfl
          | ok x =>
            cases v.elemIf (fR bpp) b bp q b bpp q with
            | error e => rfl
            | ok y => exact congrArg Except.ok List.map_append.symm)
        rw [h2]
        generalize (collect Bs fun bpp => do
            let x ← v.elemIf (fL bpp) b bp q bpp bp q
            let y ← v.elemIf (fR bpp) b bp q b bpp q
            pure (x ++ y)) = R2
        cases R2 with
        | error e => rfl
        | ok r2 =>
          rw [show List.map (KCall.sc s) <$> (Except.ok r2 : Py (List KCall)) = .ok (r2.map (KCall.sc s)) from rfl]
          simp only [py_bind_ok]
          cases v.states (q + 1) with
          | error e => rfl
          | ok Cs =>
            simp only [py_bind_ok]
            rw [collect_map (KCall.sc s) (f := fun p => v.elemIf (fC p.1 p.2) b bp q p.1 p.2 (q + 1))
              (fun p _ => elemIf_sc v s _ _ (hC p.1 p.2) b bp q p.1 p.2 (q + 1))]
            cases collect (prod2 Cs Cs) (fun p => v.elemIf (fC p.1 p.2) b bp q p.1 p.2 (q + 1)) with
            | error e => rfl
            | ok r3 => exact congrArg Except.ok (by simp)

theorem genKern_sc (E E' : Nat → ℝ) (hE : ∀ b, E' b = s * E b) (coup coup' : Nat → Nat → Int → Py (List KCall))
    (hc : ∀ b bp q, coup' b bp q = List.map (KCall.sc s) <$> coup b bp q) :
    v.genKern E' coup' = List.map (KCall.sc s) <$> v.genKern E coup := by
  unfold View.genKern
  apply collect_map
  intro q _
  cases v.states (q : Int) with
  | error e => rfl
  | ok l =>
    simp only [py_bind_ok]
    apply collect_map
    intro p _
    cases v.inclUnique p.1 p.2 (q : Int) with
    | error e => rfl
    | ok i =>
      cases i with
      | false => rfl
      | true =>
        simp only [py_bind_ok, if_true]
        rw [hc]
        cases coup p.1 p.2 (q : Int) with
        | error e => rfl
        | ok r =>
          refine congrArg Except.ok ?_
          rw [hE, hE, ← mul_sub]
          rfl

end

/-! ### Scaling the increments of the currents -/

/-- An increment with the particle current multiplied by `s` and the energy current by `s ^ 2`. -/
def CEv.sc (s : ℝ) (ev : CEv) : CEv := ⟨ev.l, s * ev.i, s ^ 2 * ev.e⟩

theorem current_sc (s : ℝ) (evs : List CEv) (l : Nat) :
    current (evs.map (CEv.sc s)) l = s * current evs l ∧
    energyCurrent (evs.map (CEv.sc s)) l = s ^ 2 * energyCurrent evs l := by
  have key : ∀ (evs : List CEv) (a b : ℝ),
      (evs.map (CEv.sc s)).foldl (fun s ev => if ev.l = l then s + ev.i else s) (s * a)
        = s * evs.foldl (fun s ev => if ev.l = l then s + ev.i else s) a ∧
      (evs.map (CEv.sc s)).foldl (fun s ev => if ev.l = l then s + ev.e else s) (s ^ 2 * b)
        = s ^ 2 * evs.foldl (fun s ev => if ev.l = l then s + ev.e else s) b := by
    intro evs
    induction evs with
    | nil => intro a b; exact ⟨rfl, rfl⟩
    | cons x evs ih =>
      intro a b
      simp only [List.map_cons, List.foldl_cons]
      by_cases e : x.l = l
      · have e' : (x.sc s).l = l := e
        rw [if_pos e, if_pos e, if_pos e', if_pos e']
        have := ih (a + x.i) (b + x.e)
        rw [mul_add, mul_add] at this
        exact this
      · have e' : ¬ (x.sc s).l = l := e
        rw [if_neg e, if_neg e, if_neg e', if_neg e']
        exact ih a b
  have := key evs 0 0
  rw [mul_zero, mul_zero] at this
  exact this

/-! ### Scaling the factors -/

theorem arg_sc {r : ℝ} (hr : 0 < r) (a b T : ℝ) : (r ^ 2 * a - r ^ 2 * b) / (r ^ 2 * T) = (a - b) / T := by
  rw [← mul_sub, mul_div_mul_left _ _ (pow_ne_zero 2 hr.ne')]

theorem arg0_sc {r : ℝ} (hr : 0 < r) (a T : ℝ) : (r ^ 2 * a) / (r ^ 2 * T) = a / T :=
  mul_div_mul_left _ _ (pow_ne_zero 2 hr.ne')

theorem funcPauli_sc {r : ℝ} (hr : 0 < r) (x mu T Dm Dp : ℝ) (it : Int) :
    funcPauli (r ^ 2 * x) (r ^ 2 * mu) (r ^ 2 * T) (r ^ 2 * Dm) (r ^ 2 * Dp) it = funcPauli x mu T Dm Dp it := by
  unfold funcPauli
  simp only [arg_sc hr]

/-- Factors with the energies multiplied by `r ^ 2`. -/
def Amp.sc (r : ℝ) (w : Amp) : Amp := ⟨w.cur0, w.cur1, r ^ 2 * w.en0, r ^ 2 * w.en1⟩

theorem func1vN_sc (lib : NumLib) {r : ℝ} (hr : 0 < r) (x mu T Dm Dp : ℝ) (it lim : Int) :
    func1vN lib (r ^ 2 * x) (r ^ 2 * mu) (r ^ 2 * T) (r ^ 2 * Dm) (r ^ 2 * Dp) it lim
      = (func1vN lib x mu T Dm Dp it lim).sc r := by
  have ext : ∀ a b : Amp, a.cur0 = b.cur0 → a.cur1 = b.cur1 → a.en0 = b.en0 → a.en1 = b.en1 → a = b := by
    rintro ⟨⟩ ⟨⟩ h1 h2 h3 h4
    dsimp only at h1 h2 h3 h4
    subst h1 h2 h3 h4
    rfl
  unfold func1vN
  split
  · unfold func1vN0 Amp.sc
    simp only [arg_sc hr]
    apply ext <;> dsimp only <;> push_cast <;> ring
  · split
    · unfold func1vN1 Amp.sc
      simp only [arg_sc hr, arg0_sc hr]
      apply ext <;> dsimp only <;> push_cast <;> ring
    · split
      · unfold func1vN2 Amp.sc
        simp only [arg_sc hr]
        apply ext <;> dsimp only <;> push_cast <;> ring
      · split
        · unfold func1vN3 Amp.sc
          simp only [arg_sc hr]
          apply ext <;> dsimp only <;> push_cast <;> ring
        · simp [Amp.sc]


theorem map_ok {α β : Type} (m : α → β) (x : α) : m <$> (Except.ok x : Py α) = .ok (m x) := rfl

section
variable {v : View} {la : Lab} (h : VOk v la) {r : ℝ} {E E' : Nat → ℝ} {L L' : Leads}
  (hs : Rescaled r E E' L L')
include hs

theorem Rescaled.fp (c b l : Nat) :
    funcPauli (E' c - E' b) (L'.mu l) (L'.T l) (L'.Dm l) (L'.Dp l) L'.itype
      = funcPauli (E c - E b) (L.mu l) (L.T l) (L.Dm l) (L.Dp l) L.itype := by
  rw [hs.energy, hs.energy, ← mul_sub, hs.mu, hs.temp, hs.itype, hs.Dm, hs.Dp]
  exact funcPauli_sc hs.pos _ _ _ _ _ _

theorem Rescaled.heat (evs : List CEv) (l : Nat) :
    heatCurrent L' (evs.map (CEv.sc (r ^ 2))) l = r ^ 4 * heatCurrent L evs l := by
  unfold heatCurrent
  obtain ⟨h1, h2⟩ := current_sc (r ^ 2) evs l
  rw [h1, h2, hs.mu]; ring

include h

theorem Pauli.genFct_sc :
    Pauli.genFct v E' L' = (fun f l k => (r ^ 2 * (f l k).1, r ^ 2 * (f l k).2)) <$> Pauli.genFct v E L := by
  have := fillFct_map h (fun w : ℝ × ℝ => (r ^ 2 * w.1, r ^ 2 * w.2)) (0, 0) (Pauli.amp E L)
  unfold Pauli.genFct
  rw [← this]
  simp only [mul_zero]
  apply fillFct_congr h
  intro q c b l _ _
  unfold Pauli.amp
  rw [hs.fp, hs.tba, hs.tba]
  have : ((r : ℂ) * L.Tba l b c * ((r : ℂ) * L.Tba l c b)).re = r ^ 2 * (L.Tba l b c * L.Tba l c b).re := by
    rw [show (r : ℂ) * L.Tba l b c * ((r : ℂ) * L.Tba l c b) = ((r ^ 2 : ℝ) : ℂ) * (L.Tba l b c * L.Tba l c b) by
      push_cast; ring, Complex.re_ofReal_mul]
  dsimp only
  rw [this, mul_assoc, mul_assoc]

omit h hs in
theorem Pauli.coup_sc (v : View) (s : ℝ) (f : Nat → Nat → ℝ × ℝ) (b : Nat) (q : Int) :
    Pauli.coup v (fun l k => (s * (f l k).1, s * (f l k).2)) b q = List.map (KCall.sc s) <$> Pauli.coup v f b q := by
  let m : ℝ × ℝ →+ ℝ × ℝ := ⟨⟨fun x => (s * x.1, s * x.2), by simp⟩, by intro x y; ext <;> simp <;> ring⟩
  have rd : ∀ l k, v.rd (fun l k => (s * (f l k).1, s * (f l k).2)) l k
      = (fun w => (s * w.1, s * w.2)) <$> v.rd f l k := by
    intro l k
    unfold View.rd
    split <;> rfl
  unfold Pauli.coup
  cases v.ind0 b b q with
  | error e => rfl
  | ok bb =>
    simp only [py_bind_ok]
    cases v.states (q - 1) with
    | error e => rfl
    | ok As =>
      simp only [py_bind_ok]
      have h1 := collect_map (KCall.sc s) (l := As)
        (f := fun a => do
          let aa ← v.ind0 a a (q - 1)
          let ba ← v.ind1 b a (q - 1)
          let s ← sumM (List.range v.nleads) fun l => do
            let w ← v.rd f l ba
            pure (-w.2, w.1)
          pure [KCall.pauli s.1 s.2 bb aa])
        (g := fun a => do
          let aa ← v.ind0 a a (q - 1)
          let ba ← v.ind1 b a (q - 1)
          let s ← sumM (List.range v.nleads) fun l => do
            let w ← v.rd (fun l k => (s * (f l k).1, s * (f l k).2)) l ba
            pure (-w.2, w.1)
          pure [KCall.pauli s.1 s.2 bb aa]) (by
        intro a _
        cases v.ind0 a a (q - 1) with
        | error e => rfl
        | ok aa =>
          simp only [py_bind_ok]
          cases v.ind1 b a (q - 1) with
          | error e => rfl
          | ok ba =>
            simp only [py_bind_ok]
            rw [sumM_map m (f := fun l => do
              let w ← v.rd f l ba
              pure (-w.2, w.1)) (by
              intro l _
              rw [rd]
              cases v.rd f l ba with
              | error e => rfl
              | ok w => exact congrArg Except.ok (Prod.ext (by simp [m]) rfl))]
            cases (sumM (List.range v.nleads) fun l => do
              let w ← v.rd f l ba
              pure (-w.2, w.1)) with
            | error e => rfl
            | ok x => rfl)
      rw [h1]
      generalize (collect As fun a => do
          let aa ← v.ind0 a a (q - 1)
          let ba ← v.ind1 b a (q - 1)
          let s ← sumM (List.range v.nleads) fun l => do
            let w ← v.rd f l ba
            pure (-w.2, w.1)
          pure [KCall.pauli s.1 s.2 bb aa]) = R1
      cases R1 with
      | error e => rfl
      | ok r1 =>
        rw [map_ok]
        simp only [py_bind_ok]
        cases v.states (q + 1) with
        | error e => rfl
        | ok Cs =>
          simp only [py_bind_ok]
          have h2 := collect_map (KCall.sc s) (l := Cs)
            (f := fun c => do
              let cc ← v.ind0 c c (q + 1)
              let cb ← v.ind1 c b q
              let s ← sumM (List.range v.nleads) fun l => do
                let w ← v.rd f l cb
                pure (-w.1, w.2)
              pure [KCall.pauli s.1 s.2 bb cc])
            (g := fun c => do
              let cc ← v.ind0 c c (q + 1)
              let cb ← v.ind1 c b q
              let s ← sumM (List.range v.nleads) fun l => do
                let w ← v.rd (fun l k => (s * (f l k).1, s * (f l k).2)) l cb
                pure (-w.1, w.2)
              pure [KCall.pauli s.1 s.2 bb cc]) (by
            intro c _
            cases v.ind0 c c (q + 1) with
            | error e => rfl
            | ok cc =>
              simp only [py_bind_ok]
              cases v.ind1 c b q with
              | error e => rfl
              | ok cb =>
                simp only [py_bind_ok]
                rw [sumM_map m (f := fun l => do
                  let w ← v.rd f l cb
                  pure (-w.1, w.2)) (by
                  intro l _
                  rw [rd]
                  cases v.rd f l cb with
                  | error e => rfl
                  | ok w => exact congrArg Except.ok (Prod.ext (by simp [m]) rfl))]
                cases (sumM (List.range v.nleads) fun l => do
                  let w ← v.rd f l cb
                  pure (-w.1, w.2)) with
                | error e => rfl
                | ok x => rfl)
          rw [h2]
          generalize (collect Cs fun c => do
              let cc ← v.ind0 c c (q + 1)
              let cb ← v.ind1 c b q
              let s ← sumM (List.range v.nleads) fun l => do
                let w ← v.rd f l cb
                pure (-w.1, w.2)
              pure [KCall.pauli s.1 s.2 bb cc]) = R2
          cases R2 with
          | error e => rfl
          | ok r2 => exact congrArg Except.ok (by simp)

omit h hs in
theorem Pauli.kernel_sc (v : View) (s : ℝ) (symq : Bool) (f : Nat → Nat → ℝ × ℝ) :
    Pauli.kernel v symq (fun l k => (s * (f l k).1, s * (f l k).2)) = Mat.scale s <$> Pauli.kernel v symq f := by
  unfold Pauli.kernel
  apply assemble_sc
  unfold Pauli.genKern
  apply collect_map
  intro q _
  cases v.states (q : Int) with
  | error e => rfl
  | ok l =>
    simp only [py_bind_ok]
    apply collect_map
    intro b _
    cases v.isUnique b b (q : Int) with
    | error e => rfl
    | ok u =>
      cases u with
      | false => rfl
      | true =>
        simp only [py_bind_ok, if_true]
        exact Pauli.coup_sc v s f b q

omit h in
theorem Pauli.genCurrent_sc (f : Nat → Nat → ℝ × ℝ) (φ : Vec) :
    Pauli.genCurrent v E' (fun l k => (r ^ 2 * (f l k).1, r ^ 2 * (f l k).2)) φ
      = List.map (CEv.sc (r ^ 2)) <$> Pauli.genCurrent v E f φ := by
  unfold Pauli.genCurrent
  apply collect_map
  intro q _
  cases v.states ((q : Int) + 1) with
  | error e => rfl
  | ok Cs =>
    simp only [py_bind_ok]
    apply collect_map
    intro c _
    cases v.ind0 c c ((q : Int) + 1) with
    | error e => rfl
    | ok cc =>
      simp only [py_bind_ok]
      cases v.states (q : Int) with
      | error e => rfl
      | ok Bs =>
        simp only [py_bind_ok]
        apply collect_map
        intro b _
        cases v.ind0 b b (q : Int) with
        | error e => rfl
        | ok bb =>
          simp only [py_bind_ok]
          cases v.ind1 c b (q : Int) with
          | error e => rfl
          | ok cb =>
            simp only [py_bind_ok]
            apply collect_map
            intro l _
            cases φ.get bb with
            | error e => rfl
            | ok pb =>
              simp only [py_bind_ok]
              cases φ.get cc with
              | error e => rfl
              | ok pc =>
                simp only [py_bind_ok]
                unfold View.rd
                split
                · refine congrArg Except.ok (congrArg (fun x => [x]) ?_)
                  unfold CEv.sc
                  dsimp only
                  rw [hs.energy, hs.energy]
                  congr 1 <;> ring
                · rfl

/-- **C91** for the Pauli approach. In another unit of energy the kernel is multiplied by the unit `r ^ 2`, so that the
same states are stationary. For every state the particle currents are multiplied by `r ^ 2`, the energy and heat
currents by `r ^ 4`. -/
theorem c91_pauli {f : Nat → Nat → ℝ × ℝ} (hf : Pauli.genFct v E L = .ok f) :
    ∃ f', Pauli.genFct v E' L' = .ok f' ∧
    (∀ symq, Pauli.kernel v symq f' = Mat.scale (r ^ 2) <$> Pauli.kernel v symq f) ∧
    ∀ φ evs, Pauli.genCurrent v E f φ = .ok evs →
      ∃ evs', Pauli.genCurrent v E' f' φ = .ok evs' ∧ ∀ l, current evs' l = r ^ 2 * current evs l ∧
        energyCurrent evs' l = r ^ 4 * energyCurrent evs l ∧
        heatCurrent L' evs' l = r ^ 4 * heatCurrent L evs l := by
  refine ⟨_, by rw [Pauli.genFct_sc h hs, hf]; rfl, fun symq => Pauli.kernel_sc v _ symq f, ?_⟩
  intro φ evs g
  refine ⟨evs.map (CEv.sc (r ^ 2)), by rw [Pauli.genCurrent_sc hs, g]; rfl, fun l => ?_⟩
  obtain ⟨h1, h2⟩ := current_sc (r ^ 2) evs l
  exact ⟨h1, by rw [h2]; ring, hs.heat evs l⟩

/-! ### Lindblad -/

omit h in
theorem Lindblad.genFct_sc : Lindblad.genFct v E' L' = (fun t l b a => (r : ℂ) * t l b a) <$> Lindblad.genFct v E L := by
  have wr : ∀ (t : Nat → Nat → Nat → ℂ) (l b a : Nat) (x y : ℂ), y = r * x →
      Lindblad.wr3 (fun l b a => (r : ℂ) * t l b a) l b a y = fun l' b' a' => (r : ℂ) * Lindblad.wr3 t l b a x l' b' a' := by
    intro t l b a x y hy
    funext l' b' a'
    unfold Lindblad.wr3
    split
    · exact hy
    · rfl
  have key := foldlM_map' (fun (t : Nat → Nat → Nat → ℂ) l b a => (r : ℂ) * t l b a) (l := List.range (v.ncharge - 1))
    (f := fun t (charge : Nat) => do
      let Bs ← v.states (charge + 1)
      let As ← v.states charge
      (prod2 Bs As).foldlM
        (fun t p =>
          (List.range v.nleads).foldlM
            (fun t l =>
              let r := funcPauli (E p.1 - E p.2) (L.mu l) (L.T l) (L.Dm l) (L.Dp l) L.itype
              let t := Lindblad.wr3 t l p.1 p.2 (Real.sqrt r.1 * L.Tba l p.1 p.2)
              pure (Lindblad.wr3 t l p.2 p.1 (Real.sqrt r.2 * L.Tba l p.2 p.1))) t) t)
    (g := fun t (charge : Nat) => do
      let Bs ← v.states (charge + 1)
      let As ← v.states charge
      (prod2 Bs As).foldlM
        (fun t p =>
          (List.range v.nleads).foldlM
            (fun t l =>
              let r := funcPauli (E' p.1 - E' p.2) (L'.mu l) (L'.T l) (L'.Dm l) (L'.Dp l) L'.itype
              let t := Lindblad.wr3 t l p.1 p.2 (Real.sqrt r.1 * L'.Tba l p.1 p.2)
              pure (Lindblad.wr3 t l p.2 p.1 (Real.sqrt r.2 * L'.Tba l p.2 p.1))) t) t) (by
    intro q _ t
    cases v.states ((q : Int) + 1) with
    | error e => rfl
    | ok Bs =>
      simp only [py_bind_ok]
      cases v.states (q : Int) with
      | error e => rfl
      | ok As =>
        simp only [py_bind_ok]
        apply foldlM_map' (fun (t : Nat → Nat → Nat → ℂ) l b a => (r : ℂ) * t l b a)
        intro p _ t
        apply foldlM_map' (fun (t : Nat → Nat → Nat → ℂ) l b a => (r : ℂ) * t l b a)
        intro l _ t
        refine congrArg Except.ok ?_
        rw [hs.fp]
        refine (congrArg (fun z => Lindblad.wr3 z l p.2 p.1 _) (wr t l p.1 p.2 _ _ ?_)).trans (wr _ l p.2 p.1 _ _ ?_)
        · rw [hs.tba]; ring
        · rw [hs.tba]; ring) (fun _ _ _ => 0)
  unfold Lindblad.genFct
  rw [← key]
  simp only [mul_zero]

omit h hs in
theorem conj_r (r : ℝ) : (starRingEnd ℂ) (r : ℂ) = r := Complex.conj_ofReal r

omit h hs in
theorem Lindblad.jump_sc (v : View) (r : ℝ) (t : Nat → Nat → Nat → ℂ) (b bp a ap : Nat) :
    Lindblad.jump v (fun l b a => (r : ℂ) * t l b a) b bp a ap
      = (fun z => ((r ^ 2 : ℝ) : ℂ) * z) <$> Lindblad.jump v t b bp a ap := by
  unfold Lindblad.jump
  rw [sumM_map (AddMonoidHom.mulLeft ((r ^ 2 : ℝ) : ℂ)) (f := fun l => pure (t l b a * (starRingEnd ℂ) (t l bp ap))) (by
    intro l _
    refine congrArg Except.ok ?_
    rw [map_mul, conj_r, AddMonoidHom.coe_mulLeft]
    push_cast; ring)]
  cases (sumM (List.range v.nleads) fun l => (pure (t l b a * (starRingEnd ℂ) (t l bp ap)) : Py ℂ)) with
  | error e => rfl
  | ok x =>
    refine congrArg Except.ok ?_
    dsimp only
    rw [AddMonoidHom.coe_mulLeft]; ring

omit h hs in
theorem Lindblad.decay_sc (v : View) (r : ℝ) (t : Nat → Nat → Nat → ℂ) (q : Int) (x y : Nat) :
    Lindblad.decay v (fun l b a => (r : ℂ) * t l b a) q x y
      = (fun z => ((r ^ 2 : ℝ) : ℂ) * z) <$> Lindblad.decay v t q x y := by
  have key : ∀ As : List Nat, (sumM As fun a => sumM (List.range v.nleads) fun l =>
      (pure (-(1 / 2) * (starRingEnd ℂ) ((r : ℂ) * t l a x) * ((r : ℂ) * t l a y)) : Py ℂ))
      = (AddMonoidHom.mulLeft ((r ^ 2 : ℝ) : ℂ)) <$> (sumM As fun a => sumM (List.range v.nleads) fun l =>
      (pure (-(1 / 2) * (starRingEnd ℂ) (t l a x) * t l a y) : Py ℂ)) := by
    intro As
    apply sumM_map
    intro a _
    apply sumM_map
    intro l _
    refine congrArg Except.ok ?_
    rw [map_mul, conj_r, AddMonoidHom.coe_mulLeft]
    push_cast; ring
  unfold Lindblad.decay
  cases v.states (q - 1) with
  | error e => rfl
  | ok As =>
    simp only [py_bind_ok]
    rw [key]
    cases (sumM As fun a => sumM (List.range v.nleads) fun l =>
      (pure (-(1 / 2) * (starRingEnd ℂ) (t l a x) * t l a y) : Py ℂ)) with
    | error e => rfl
    | ok s1 =>
      rw [map_ok]
      simp only [py_bind_ok]
      cases v.states (q + 1) with
      | error e => rfl
      | ok Cs =>
        simp only [py_bind_ok]
        rw [key]
        cases (sumM Cs fun a => sumM (List.range v.nleads) fun l =>
          (pure (-(1 / 2) * (starRingEnd ℂ) (t l a x) * t l a y) : Py ℂ)) with
        | error e => rfl
        | ok s2 =>
          refine congrArg Except.ok ?_
          dsimp only
          rw [AddMonoidHom.coe_mulLeft]; ring

omit h in
theorem Lindblad.kernel_sc (symq : Bool) (t : Nat → Nat → Nat → ℂ) :
    Lindblad.kernel v symq E' (fun l b a => (r : ℂ) * t l b a)
      = Mat.scale (r ^ 2) <$> Lindblad.kernel v symq E t := by
  unfold Lindblad.kernel
  apply assemble_sc
  apply genKern_sc v (r ^ 2) E E' hs.energy
  intro b bp q
  unfold Lindblad.coup
  apply blocks_sc
  · intro a ap; exact Lindblad.jump_sc v r t b bp a ap
  · intro a; exact Lindblad.decay_sc v r t q b a
  · intro a; exact Lindblad.decay_sc v r t q a bp
  · intro a ap; exact Lindblad.jump_sc v r t b bp a ap

omit h hs in
/-- The map of the two sums. -/
def sc2 (r : ℝ) : ℂ × ℂ →+ ℂ × ℂ :=
  ⟨⟨fun x => (((r ^ 2 : ℝ) : ℂ) * x.1, ((r ^ 4 : ℝ) : ℂ) * x.2), by simp⟩, by
    intro x y
    exact Prod.ext (mul_add _ _ _) (mul_add _ _ _)⟩

omit h hs in
theorem sc2_apply (r : ℝ) (x : ℂ × ℂ) : sc2 r x = (((r ^ 2 : ℝ) : ℂ) * x.1, ((r ^ 4 : ℝ) : ℂ) * x.2) := rfl

omit h in
theorem Lindblad.curTerm_sc (t : Nat → Nat → Nat → ℂ) (p : ℂ) (b bp : Nat) (q : Int) (l : Nat) :
    Lindblad.curTerm v E' (fun l b a => (r : ℂ) * t l b a) p b bp q l
      = CEv.sc (r ^ 2) <$> Lindblad.curTerm v E t p b bp q l := by
  have key : ∀ (As : List Nat) (e : ℂ), (sumM As fun a =>
      (pure (e * ((r : ℂ) * t l a b * p * (starRingEnd ℂ) ((r : ℂ) * t l a bp)),
        ((E' a - 1 / 2 * (E' b + E' bp) : ℝ) : ℂ) * ((r : ℂ) * t l a b * p * (starRingEnd ℂ) ((r : ℂ) * t l a bp))) : Py (ℂ × ℂ)))
      = sc2 r <$> (sumM As fun a =>
      (pure (e * (t l a b * p * (starRingEnd ℂ) (t l a bp)),
        ((E a - 1 / 2 * (E b + E bp) : ℝ) : ℂ) * (t l a b * p * (starRingEnd ℂ) (t l a bp))) : Py (ℂ × ℂ))) := by
    intro As e
    apply sumM_map
    intro a _
    refine congrArg Except.ok ?_
    rw [sc2_apply, map_mul, conj_r, hs.energy, hs.energy, hs.energy]
    refine Prod.ext ?_ ?_
    · push_cast; ring
    · push_cast; ring
  unfold Lindblad.curTerm
  cases v.states (q - 1) with
  | error e => rfl
  | ok As =>
    simp only [py_bind_ok]
    have k1 := key As (-1)
    simp only [neg_mul, one_mul] at k1
    rw [k1]
    cases (sumM As fun a =>
      (pure (-(t l a b * p * (starRingEnd ℂ) (t l a bp)),
        ((E a - 1 / 2 * (E b + E bp) : ℝ) : ℂ) * (t l a b * p * (starRingEnd ℂ) (t l a bp))) : Py (ℂ × ℂ))) with
    | error e => rfl
    | ok sa =>
      rw [map_ok]
      simp only [py_bind_ok]
      cases v.states (q + 1) with
      | error e => rfl
      | ok Cs =>
        simp only [py_bind_ok]
        have k2 := key Cs 1
        simp only [one_mul] at k2
        rw [k2]
        cases (sumM Cs fun a =>
          (pure (t l a b * p * (starRingEnd ℂ) (t l a bp),
            ((E a - 1 / 2 * (E b + E bp) : ℝ) : ℂ) * (t l a b * p * (starRingEnd ℂ) (t l a bp))) : Py (ℂ × ℂ))) with
        | error e => rfl
        | ok sc =>
          refine congrArg Except.ok ?_
          unfold CEv.sc
          dsimp only
          simp only [sc2_apply, ← mul_add, Complex.re_ofReal_mul]
          congr 1
          ring

omit h in
theorem Lindblad.genCurrent_sc (t : Nat → Nat → Nat → ℂ) (φ : Vec) :
    Lindblad.genCurrent v E' (fun l b a => (r : ℂ) * t l b a) φ
      = List.map (CEv.sc (r ^ 2)) <$> Lindblad.genCurrent v E t φ := by
  unfold Lindblad.genCurrent
  apply collect_map
  intro q _
  cases v.states (q : Int) with
  | error e => rfl
  | ok Bs =>
    simp only [py_bind_ok]
    apply collect_map
    intro p _
    cases v.isIncluded p.1 p.2 (q : Int) with
    | error e => rfl
    | ok i =>
      cases i with
      | false => rfl
      | true =>
        simp only [py_bind_ok, if_true]
        cases v.phi0Element φ p.1 p.2 (q : Int) with
        | error e => rfl
        | ok ph =>
          simp only [py_bind_ok]
          apply collect_map
          intro l _
          rw [Lindblad.curTerm_sc hs]
          cases Lindblad.curTerm v E t ph p.1 p.2 (q : Int) l with
          | error e => rfl
          | ok ev => rfl

omit h in
/-- **C91** for the Lindblad approach. -/
theorem c91_lindblad {t : Nat → Nat → Nat → ℂ} (ht : Lindblad.genFct v E L = .ok t) :
    ∃ t', Lindblad.genFct v E' L' = .ok t' ∧
    (∀ symq, Lindblad.kernel v symq E' t' = Mat.scale (r ^ 2) <$> Lindblad.kernel v symq E t) ∧
    ∀ φ evs, Lindblad.genCurrent v E t φ = .ok evs →
      ∃ evs', Lindblad.genCurrent v E' t' φ = .ok evs' ∧ ∀ l, current evs' l = r ^ 2 * current evs l ∧
        energyCurrent evs' l = r ^ 4 * energyCurrent evs l ∧
        heatCurrent L' evs' l = r ^ 4 * heatCurrent L evs l := by
  refine ⟨_, by rw [Lindblad.genFct_sc hs, ht]; rfl, fun symq => Lindblad.kernel_sc hs symq t, ?_⟩
  intro φ evs g
  refine ⟨evs.map (CEv.sc (r ^ 2)), by rw [Lindblad.genCurrent_sc hs, g]; rfl, fun l => ?_⟩
  obtain ⟨h1, h2⟩ := current_sc (r ^ 2) evs l
  exact ⟨h1, by rw [h2]; ring, hs.heat evs l⟩

/-! ### 1vN and Redfield -/

theorem genFct1vN_sc (lib : NumLib) :
    genFct1vN v lib E' L' = (fun f l k => (f l k).sc r) <$> genFct1vN v lib E L := by
  have := fillFct_map h (Amp.sc r) ⟨0, 0, 0, 0⟩ (amp1vN lib E L)
  unfold genFct1vN
  rw [← this, show Amp.sc r ⟨0, 0, 0, 0⟩ = ⟨0, 0, 0, 0⟩ by simp [Amp.sc]]
  apply fillFct_congr h
  intro q c b l _ _
  unfold amp1vN
  rw [hs.energy, hs.energy, ← mul_sub, hs.mu, hs.temp, hs.itype, hs.limit, hs.Dm, hs.Dp]
  exact func1vN_sc lib hs.pos _ _ _ _ _ _ _

end

theorem rd_sc (v : View) (r : ℝ) (f : Nat → Nat → Amp) (l k : Nat) :
    v.rd (fun l k => (f l k).sc r) l k = Amp.sc r <$> v.rd f l k := by
  unfold View.rd
  split <;> rfl

/-- The map of the three sums `phi1_l`, `current_l`, `energy_current_l`. -/
def sc3 (r : ℝ) : ℂ × ℂ × ℂ →+ ℂ × ℂ × ℂ :=
  ⟨⟨fun x => ((r : ℂ) * x.1, ((r ^ 2 : ℝ) : ℂ) * x.2.1, ((r ^ 4 : ℝ) : ℂ) * x.2.2), by simp⟩, by
    intro x y
    exact Prod.ext (mul_add _ _ _) (Prod.ext (mul_add _ _ _) (mul_add _ _ _))⟩

/-- The map of the increments. -/
def CEv1.sc (r : ℝ) (ev : CEv1) : CEv1 := ⟨ev.ev.sc (r ^ 2), ev.cb, (r : ℂ) * ev.phi1⟩

theorem ev_sc (r : ℝ) (l cb : Nat) (x y : ℂ × ℂ × ℂ) :
    CEv1.mk ⟨l, -2 * ((sc3 r x).2.1 + (sc3 r y).2.1).im, -2 * ((sc3 r x).2.2 + (sc3 r y).2.2).im⟩ cb
      ((sc3 r x).1 + (sc3 r y).1)
    = (CEv1.mk ⟨l, -2 * (x.2.1 + y.2.1).im, -2 * (x.2.2 + y.2.2).im⟩ cb (x.1 + y.1)).sc r := by
  unfold CEv1.sc CEv.sc
  have e : ∀ x, sc3 r x = ((r : ℂ) * x.1, ((r ^ 2 : ℝ) : ℂ) * x.2.1, ((r ^ 4 : ℝ) : ℂ) * x.2.2) := fun _ => rfl
  simp only [e, ← mul_add, Complex.im_ofReal_mul]
  congr 2 <;> ring

/-- The sum over the leads of a product of two amplitudes and a number from one factor. -/
theorem leads_sc (v : View) (r : ℝ) (f : Nat → Nat → Amp) (k : Nat) (G G' : Nat → Amp → ℂ)
    (hG : ∀ l w, G' l (w.sc r) = ((r ^ 2 : ℝ) : ℂ) * G l w) :
    (sumM (List.range v.nleads) fun l => do
      let w ← v.rd (fun l k => (f l k).sc r) l k
      pure (G' l w)) = (AddMonoidHom.mulLeft ((r ^ 2 : ℝ) : ℂ)) <$> (sumM (List.range v.nleads) fun l => do
      let w ← v.rd f l k
      pure (G l w)) := by
  apply sumM_map
  intro l _
  rw [rd_sc]
  cases v.rd f l k with
  | error e => rfl
  | ok w => exact congrArg Except.ok (hG l w)

/-- The same for two factors. -/
theorem leads2_sc (v : View) (r : ℝ) (f : Nat → Nat → Amp) (k k' : Nat) (G G' : Nat → Amp → Amp → ℂ)
    (hG : ∀ l w w', G' l (w.sc r) (w'.sc r) = ((r ^ 2 : ℝ) : ℂ) * G l w w') :
    (sumM (List.range v.nleads) fun l => do
      let w ← v.rd (fun l k => (f l k).sc r) l k
      let w' ← v.rd (fun l k => (f l k).sc r) l k'
      pure (G' l w w')) = (AddMonoidHom.mulLeft ((r ^ 2 : ℝ) : ℂ)) <$> (sumM (List.range v.nleads) fun l => do
      let w ← v.rd f l k
      let w' ← v.rd f l k'
      pure (G l w w')) := by
  apply sumM_map
  intro l _
  rw [rd_sc]
  cases v.rd f l k with
  | error e => rfl
  | ok w =>
    rw [map_ok]
    simp only [py_bind_ok]
    rw [rd_sc]
    cases v.rd f l k' with
    | error e => rfl
    | ok w' => exact congrArg Except.ok (hG l w w')

/-- A sum over states of such sums over the leads. -/
theorem states_sc (v : View) (r : ℝ) (f : Nat → Nat → Amp) (As : List Nat) (ix : Nat → Py Nat)
    (G G' : Nat → Nat → Amp → ℂ) (hG : ∀ a l w, G' a l (w.sc r) = ((r ^ 2 : ℝ) : ℂ) * G a l w) :
    (sumM As fun a => do
      let k ← ix a
      sumM (List.range v.nleads) fun l => do
        let w ← v.rd (fun l k => (f l k).sc r) l k
        pure (G' a l w)) = (AddMonoidHom.mulLeft ((r ^ 2 : ℝ) : ℂ)) <$> (sumM As fun a => do
      let k ← ix a
      sumM (List.range v.nleads) fun l => do
        let w ← v.rd f l k
        pure (G a l w)) := by
  apply sumM_map
  intro a _
  cases ix a with
  | error e => rfl
  | ok k =>
    simp only [py_bind_ok]
    exact leads_sc v r f k (G a) (G' a) (hG a)

/-- Two such sums. -/
theorem states2_sc (v : View) (r : ℝ) (f : Nat → Nat → Amp) (As Cs : Py (List Nat)) (ix jx : Nat → Py Nat)
    (G G' H H' : Nat → Nat → Amp → ℂ) (hG : ∀ a l w, G' a l (w.sc r) = ((r ^ 2 : ℝ) : ℂ) * G a l w)
    (hH : ∀ a l w, H' a l (w.sc r) = ((r ^ 2 : ℝ) : ℂ) * H a l w) :
    (do
      let As ← As
      let s1 ← sumM As fun a => do
        let k ← ix a
        sumM (List.range v.nleads) fun l => do
          let w ← v.rd (fun l k => (f l k).sc r) l k
          pure (G' a l w)
      let Cs ← Cs
      let s2 ← sumM Cs fun a => do
        let k ← jx a
        sumM (List.range v.nleads) fun l => do
          let w ← v.rd (fun l k => (f l k).sc r) l k
          pure (H' a l w)
      pure (s1 + s2) : Py ℂ) = (fun z => ((r ^ 2 : ℝ) : ℂ) * z) <$> (do
      let As ← As
      let s1 ← sumM As fun a => do
        let k ← ix a
        sumM (List.range v.nleads) fun l => do
          let w ← v.rd f l k
          pure (G a l w)
      let Cs ← Cs
      let s2 ← sumM Cs fun a => do
        let k ← jx a
        sumM (List.range v.nleads) fun l => do
          let w ← v.rd f l k
          pure (H a l w)
      pure (s1 + s2) : Py ℂ) := by
  cases As with
  | error e => rfl
  | ok As =>
    simp only [py_bind_ok]
    rw [states_sc v r f As ix G G' hG]
    generalize (sumM As fun a => do
      let k ← ix a
      sumM (List.range v.nleads) fun l => do
        let w ← v.rd f l k
        pure (G a l w)) = S1
    cases S1 with
    | error e => rfl
    | ok s1 =>
      rw [map_ok]
      simp only [py_bind_ok]
      cases Cs with
      | error e => rfl
      | ok Cs =>
        simp only [py_bind_ok]
        rw [states_sc v r f Cs jx H H' hH]
        generalize (sumM Cs fun a => do
          let k ← jx a
          sumM (List.range v.nleads) fun l => do
            let w ← v.rd f l k
            pure (H a l w)) = S2
        cases S2 with
        | error e => rfl
        | ok s2 => exact congrArg Except.ok (mul_add _ _ _).symm

namespace VN1

section
variable (v : View) (r : ℝ) (T : Nat → Nat → Nat → ℂ) (f : Nat → Nat → Amp)

theorem coup_sc (b bp : Nat) (q : Int) :
    coup v (fun l b a => (r : ℂ) * T l b a) (fun l k => (f l k).sc r) b bp q
      = List.map (KCall.sc (r ^ 2)) <$> coup v T f b bp q := by
  unfold coup
  apply blocks_sc
  · intro a ap
    unfold fctA
    cases v.ind1 bp a (q - 1) with
    | error e => rfl
    | ok i =>
      simp only [py_bind_ok]
      cases v.ind1 b ap (q - 1) with
      | error e => rfl
      | ok j =>
        simp only [py_bind_ok]
        apply leads2_sc
        intro l w w'
        simp only [Amp.sc]
        push_cast; ring
  · intro a
    unfold fctL
    apply states2_sc
    · intro a l w
      simp only [Amp.sc]
      push_cast; ring
    · intro a l w
      simp only [Amp.sc]
      push_cast; ring
  · intro a
    unfold fctR
    apply states2_sc
    · intro a l w
      simp only [Amp.sc]
      push_cast; ring
    · intro a l w
      simp only [Amp.sc]
      push_cast; ring
  · intro a ap
    unfold fctC
    cases v.ind1 a bp q with
    | error e => rfl
    | ok i =>
      simp only [py_bind_ok]
      cases v.ind1 ap b q with
      | error e => rfl
      | ok j =>
        simp only [py_bind_ok]
        apply leads2_sc
        intro l w w'
        simp only [Amp.sc]
        push_cast; ring

theorem kernel_sc (symq : Bool) (E E' : Nat → ℝ) (hE : ∀ b, E' b = r ^ 2 * E b) :
    kernel v symq E' (fun l b a => (r : ℂ) * T l b a) (fun l k => (f l k).sc r)
      = Mat.scale (r ^ 2) <$> kernel v symq E T f := by
  unfold kernel
  apply assemble_sc
  exact genKern_sc v (r ^ 2) E E' hE _ _ (coup_sc v r T f)

theorem curB_sc (w : Amp) (φ : Vec) (c b : Nat) (q : Int) (l : Nat) :
    curB v (fun l b a => (r : ℂ) * T l b a) φ (w.sc r) c b q l = sc3 r <$> curB v T φ w c b q l := by
  unfold curB
  cases v.states q with
  | error e => rfl
  | ok Bs =>
    simp only [py_bind_ok]
    apply sumM_map
    intro bp _
    cases v.isIncluded bp b q with
    | error e => rfl
    | ok i =>
      cases i with
      | false => exact congrArg Except.ok (map_zero (sc3 r)).symm
      | true =>
        simp only [py_bind_ok, if_true]
        cases v.phi0Element φ bp b q with
        | error e => rfl
        | ok p => refine congrArg Except.ok (Prod.ext ?_ (Prod.ext ?_ ?_)) <;> simp [sc3, Amp.sc] <;> ring

theorem curC_sc (w : Amp) (φ : Vec) (c b : Nat) (q : Int) (l : Nat) :
    curC v (fun l b a => (r : ℂ) * T l b a) φ (w.sc r) c b q l = sc3 r <$> curC v T φ w c b q l := by
  unfold curC
  cases v.states q with
  | error e => rfl
  | ok Bs =>
    simp only [py_bind_ok]
    apply sumM_map
    intro cp _
    cases v.isIncluded c cp q with
    | error e => rfl
    | ok i =>
      cases i with
      | false => exact congrArg Except.ok (map_zero (sc3 r)).symm
      | true =>
        simp only [py_bind_ok, if_true]
        cases v.phi0Element φ c cp q with
        | error e => rfl
        | ok p => refine congrArg Except.ok (Prod.ext ?_ (Prod.ext ?_ ?_)) <;> simp [sc3, Amp.sc] <;> ring

theorem genCurrent_sc (φ : Vec) :
    genCurrent v (fun l b a => (r : ℂ) * T l b a) (fun l k => (f l k).sc r) φ
      = List.map (CEv1.sc r) <$> genCurrent v T f φ := by
  unfold genCurrent
  apply collect_map
  intro q _
  cases v.states ((q : Int) + 1) with
  | error e => rfl
  | ok Cs =>
    cases v.states (q : Int) with
    | error e => rfl
    | ok Bs =>
      simp only [py_bind_ok]
      apply collect_map
      intro p _
      cases v.ind1 p.1 p.2 (q : Int) with
      | error e => rfl
      | ok cb =>
        simp only [py_bind_ok]
        apply collect_map
        intro l _
        rw [rd_sc]
        cases v.rd f l cb with
        | error e => rfl
        | ok w =>
          rw [map_ok]
          simp only [py_bind_ok]
          rw [curB_sc, curC_sc]
          cases curB v T φ w p.1 p.2 (q : Int) l with
          | error e => rfl
          | ok x =>
            cases curC v T φ w p.1 p.2 ((q : Int) + 1) l with
            | error e => rfl
            | ok y => exact congrArg Except.ok (congrArg (fun x => [x]) (ev_sc r l cb x y))

end

end VN1

namespace Redfield

section
variable (v : View) (r : ℝ) (T : Nat → Nat → Nat → ℂ) (f : Nat → Nat → Amp)

theorem coup_sc (b bp : Nat) (q : Int) :
    coup v (fun l b a => (r : ℂ) * T l b a) (fun l k => (f l k).sc r) b bp q
      = List.map (KCall.sc (r ^ 2)) <$> coup v T f b bp q := by
  unfold coup
  apply blocks_sc
  · intro a ap
    unfold fctA
    cases v.ind1 bp ap (q - 1) with
    | error e => rfl
    | ok i =>
      simp only [py_bind_ok]
      cases v.ind1 b a (q - 1) with
      | error e => rfl
      | ok j =>
        simp only [py_bind_ok]
        apply leads2_sc
        intro l w w'
        simp only [Amp.sc]
        push_cast; ring
  · intro a
    unfold fctL
    apply states2_sc
    · intro a l w
      simp only [Amp.sc]
      push_cast; ring
    · intro a l w
      simp only [Amp.sc]
      push_cast; ring
  · intro a
    unfold fctR
    apply states2_sc
    · intro a l w
      simp only [Amp.sc]
      push_cast; ring
    · intro a l w
      simp only [Amp.sc]
      push_cast; ring
  · intro a ap
    unfold fctC
    cases v.ind1 ap bp q with
    | error e => rfl
    | ok i =>
      simp only [py_bind_ok]
      cases v.ind1 a b q with
      | error e => rfl
      | ok j =>
        simp only [py_bind_ok]
        apply leads2_sc
        intro l w w'
        simp only [Amp.sc]
        push_cast; ring

theorem kernel_sc (symq : Bool) (E E' : Nat → ℝ) (hE : ∀ b, E' b = r ^ 2 * E b) :
    kernel v symq E' (fun l b a => (r : ℂ) * T l b a) (fun l k => (f l k).sc r)
      = Mat.scale (r ^ 2) <$> kernel v symq E T f := by
  unfold kernel
  apply assemble_sc
  exact genKern_sc v (r ^ 2) E E' hE _ _ (coup_sc v r T f)

theorem curB_sc (φ : Vec) (c b : Nat) (q : Int) (l : Nat) :
    curB v (fun l b a => (r : ℂ) * T l b a) (fun l k => (f l k).sc r) φ c b q l = sc3 r <$> curB v T f φ c b q l := by
  unfold curB
  cases v.states q with
  | error e => rfl
  | ok Bs =>
    simp only [py_bind_ok]
    apply sumM_map
    intro bp _
    cases v.isIncluded bp b q with
    | error e => rfl
    | ok i =>
      cases i with
      | false => exact congrArg Except.ok (map_zero (sc3 r)).symm
      | true =>
        simp only [py_bind_ok, if_true]
        cases v.phi0Element φ bp b q with
        | error e => rfl
        | ok p =>
          simp only [py_bind_ok]
          cases v.ind1 c bp q with
          | error e => rfl
          | ok cbp =>
            simp only [py_bind_ok]
            rw [rd_sc]
            cases v.rd f l cbp with
            | error e => rfl
            | ok w => refine congrArg Except.ok (Prod.ext ?_ (Prod.ext ?_ ?_)) <;> simp [sc3, Amp.sc] <;> ring

theorem curC_sc (φ : Vec) (c b : Nat) (q q' : Int) (l : Nat) :
    curC v (fun l b a => (r : ℂ) * T l b a) (fun l k => (f l k).sc r) φ c b q q' l = sc3 r <$> curC v T f φ c b q q' l := by
  unfold curC
  cases v.states q' with
  | error e => rfl
  | ok Bs =>
    simp only [py_bind_ok]
    apply sumM_map
    intro cp _
    cases v.isIncluded c cp q' with
    | error e => rfl
    | ok i =>
      cases i with
      | false => exact congrArg Except.ok (map_zero (sc3 r)).symm
      | true =>
        simp only [py_bind_ok, if_true]
        cases v.phi0Element φ c cp q' with
        | error e => rfl
        | ok p =>
          simp only [py_bind_ok]
          cases v.ind1 cp b q with
          | error e => rfl
          | ok cpb =>
            simp only [py_bind_ok]
            rw [rd_sc]
            cases v.rd f l cpb with
            | error e => rfl
            | ok w => refine congrArg Except.ok (Prod.ext ?_ (Prod.ext ?_ ?_)) <;> simp [sc3, Amp.sc] <;> ring

theorem genCurrent_sc (φ : Vec) :
    genCurrent v (fun l b a => (r : ℂ) * T l b a) (fun l k => (f l k).sc r) φ
      = List.map (CEv1.sc r) <$> genCurrent v T f φ := by
  unfold genCurrent
  apply collect_map
  intro q _
  cases v.states ((q : Int) + 1) with
  | error e => rfl
  | ok Cs =>
    cases v.states (q : Int) with
    | error e => rfl
    | ok Bs =>
      simp only [py_bind_ok]
      apply collect_map
      intro p _
      cases v.ind1 p.1 p.2 (q : Int) with
      | error e => rfl
      | ok cb =>
        simp only [py_bind_ok]
        apply collect_map
        intro l _
        rw [curB_sc, curC_sc]
        cases curB v T f φ p.1 p.2 (q : Int) l with
        | error e => rfl
        | ok x =>
          cases curC v T f φ p.1 p.2 (q : Int) ((q : Int) + 1) l with
          | error e => rfl
          | ok y => exact congrArg Except.ok (congrArg (fun x => [x]) (ev_sc r l cb x y))

end

end Redfield

section
variable {v : View} {la : Lab} (h : VOk v la) {r : ℝ} {E E' : Nat → ℝ} {L L' : Leads}
  (hs : Rescaled r E E' L L')
include h hs

omit h in
theorem Rescaled.sc1 (evs : List CEv1) (l : Nat) :
    current ((evs.map (CEv1.sc r)).map (·.ev)) l = r ^ 2 * current (evs.map (·.ev)) l ∧
    energyCurrent ((evs.map (CEv1.sc r)).map (·.ev)) l = r ^ 4 * energyCurrent (evs.map (·.ev)) l ∧
    heatCurrent L' ((evs.map (CEv1.sc r)).map (·.ev)) l = r ^ 4 * heatCurrent L (evs.map (·.ev)) l := by
  rw [show (evs.map (CEv1.sc r)).map (·.ev) = (evs.map (·.ev)).map (CEv.sc (r ^ 2)) by
    rw [List.map_map, List.map_map]; rfl]
  obtain ⟨h1, h2⟩ := current_sc (r ^ 2) (evs.map (·.ev)) l
  exact ⟨h1, by rw [h2]; ring, hs.heat _ l⟩

/-- **C91** for the 1vN approach. The first order density matrix `phi1` is in the square root of the unit of energy. -/
theorem c91_1vN (lib : NumLib) {f : Nat → Nat → Amp} (hf : genFct1vN v lib E L = .ok f) :
    ∃ f', genFct1vN v lib E' L' = .ok f' ∧
    (∀ symq, VN1.kernel v symq E' L'.Tba f' = Mat.scale (r ^ 2) <$> VN1.kernel v symq E L.Tba f) ∧
    ∀ φ evs, VN1.genCurrent v L.Tba f φ = .ok evs →
      ∃ evs', VN1.genCurrent v L'.Tba f' φ = .ok evs' ∧
        (evs'.map fun ev => (ev.ev.l, ev.cb, ev.phi1)) = (evs.map fun ev => (ev.ev.l, ev.cb, (r : ℂ) * ev.phi1)) ∧
        ∀ l, current (evs'.map (·.ev)) l = r ^ 2 * current (evs.map (·.ev)) l ∧
        energyCurrent (evs'.map (·.ev)) l = r ^ 4 * energyCurrent (evs.map (·.ev)) l ∧
        heatCurrent L' (evs'.map (·.ev)) l = r ^ 4 * heatCurrent L (evs.map (·.ev)) l := by
  have eT : L'.Tba = fun l b a => (r : ℂ) * L.Tba l b a :=
    funext fun l => funext fun b => funext fun a => hs.tba l b a
  refine ⟨fun l k => (f l k).sc r, by rw [genFct1vN_sc h hs, hf]; rfl, ?_, ?_⟩
  · intro symq
    rw [eT]
    exact VN1.kernel_sc v r L.Tba f symq E E' hs.energy
  · intro φ evs g
    refine ⟨evs.map (CEv1.sc r), by rw [eT, VN1.genCurrent_sc, g]; rfl, ?_, hs.sc1 evs⟩
    rw [List.map_map]; rfl

/-- **C91** for the Redfield approach. The first order density matrix `phi1` is in the square root of the unit of energy. -/
theorem c91_redfield (lib : NumLib) {f : Nat → Nat → Amp} (hf : genFct1vN v lib E L = .ok f) :
    ∃ f', genFct1vN v lib E' L' = .ok f' ∧
    (∀ symq, Redfield.kernel v symq E' L'.Tba f' = Mat.scale (r ^ 2) <$> Redfield.kernel v symq E L.Tba f) ∧
    ∀ φ evs, Redfield.genCurrent v L.Tba f φ = .ok evs →
      ∃ evs', Redfield.genCurrent v L'.Tba f' φ = .ok evs' ∧
        (evs'.map fun ev => (ev.ev.l, ev.cb, ev.phi1)) = (evs.map fun ev => (ev.ev.l, ev.cb, (r : ℂ) * ev.phi1)) ∧
        ∀ l, current (evs'.map (·.ev)) l = r ^ 2 * current (evs.map (·.ev)) l ∧
        energyCurrent (evs'.map (·.ev)) l = r ^ 4 * energyCurrent (evs.map (·.ev)) l ∧
        heatCurrent L' (evs'.map (·.ev)) l = r ^ 4 * heatCurrent L (evs.map (·.ev)) l := by
  have eT : L'.Tba = fun l b a => (r : ℂ) * L.Tba l b a :=
    funext fun l => funext fun b => funext fun a => hs.tba l b a
  refine ⟨fun l k => (f l k).sc r, by rw [genFct1vN_sc h hs, hf]; rfl, ?_, ?_⟩
  · intro symq
    rw [eT]
    exact Redfield.kernel_sc v r L.Tba f symq E E' hs.energy
  · intro φ evs g
    refine ⟨evs.map (CEv1.sc r), by rw [eT, Redfield.genCurrent_sc, g]; rfl, ?_, hs.sc1 evs⟩
    rw [List.map_map]; rfl

end

/-- The hypotheses of the theorems for C91 hold for a system with two orbitals and two leads and finite bands. -/
example (lib : NumLib) : ∃ (v : View) (la : Lab) (E E' : Nat → ℝ) (L L' : Leads) (f : Nat → Nat → Amp)
    (g : Nat → Nat → ℝ × ℝ) (φ : Vec) (evs : List CEv1), VOk v la ∧ Rescaled 2 E E' L L' ∧
    genFct1vN v lib E L = .ok f ∧ Pauli.genFct v E L = .ok g ∧ VN1.genCurrent v L.Tba f φ = .ok evs ∧ v.nleads = 2 ∧
    L.Tba 0 0 1 ≠ 0 ∧ E' 3 ≠ E 3 ∧ φ.val 0 ≠ 0 := by
  obtain ⟨d, _, hv, hst, _, hn⟩ := view_example' 2
  let L : Leads := ⟨fun l => l, fun l => l + 1, fun _ => -60, fun _ => 60, fun l _ _ => l + 1, 0, 10000⟩
  let L' : Leads := ⟨fun l => 2 ^ 2 * l, fun l => 2 ^ 2 * (l + 1), fun _ => 2 ^ 2 * -60, fun _ => 2 ^ 2 * 60,
    fun l _ _ => 2 * (l + 1), 0, 10000⟩
  obtain ⟨f, gf, _⟩ := fillFct_ok hv (⟨0, 0, 0, 0⟩ : Amp) (amp1vN lib (fun b => (b : ℝ)) L)
  obtain ⟨g, gg, _⟩ := fillFct_ok hv ((0, 0) : ℝ × ℝ) (Pauli.amp (fun b => (b : ℝ)) L)
  obtain ⟨evs, hevs, _⟩ := VN1.genCurrent_ok (v := d.view 2) hv L.Tba f ⟨6, fun _ => 1⟩ (le_of_eq hn)
  exact ⟨d.view 2, d.labOf, fun b => b, fun b => 2 ^ 2 * b, L, L', f, g, ⟨6, fun _ => 1⟩, evs, hv,
    ⟨two_pos, fun _ => rfl, fun _ => rfl, fun _ => rfl, fun _ => rfl, fun _ => rfl, fun l b a => by simp [L, L'],
      rfl, rfl⟩, gf, gg, hevs, rfl, by simp [L], by norm_num, one_ne_zero⟩

end

end Verif
