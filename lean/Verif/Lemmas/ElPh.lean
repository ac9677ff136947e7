import Verif.Lemmas.Lindblad
import Verif.Lemmas.Pauli
import Verif.Model.ElPh
import Verif.Spec.PhLabels

/-! Closed forms for the electron-phonon approaches. -/

namespace Verif

open Finset
open Complex (I)
open scoped ComplexConjugate

noncomputable section

/-- The factor of the pair `b, a`, zero when the pair is left out. -/
def phW {β : Type} [Zero β] (el : Nat → Nat → Nat → Option Nat) (w : Nat → Nat → β)
    (l c b a : Nat) : β :=
  match el c b a with
  | some k => w l k
  | none => 0

theorem rd0_ok {β : Type} (e : View) (w : Nat → Nat → β) (l : Nat) {k : Nat} (hk : k < e.ndm0) :
    e.rd0 w l (k : Int) = .ok (w l k) := by
  unfold View.rd0
  rw [pyIdx_nat hk]
  rfl

section
variable {v : View} {la : Lab} (h : VOk v la)
include h

/-! ### The loops -/

theorem pairs_ok {b bp c : Nat} (hb : b ∈ v.row c) (hbp : bp ∈ v.row c)
    (hi : la.inc c b bp = true) {f : Nat → Nat → Py (Option ℂ)} {g : Nat → Nat → ℂ}
    (hf : ∀ a ap, a ∈ v.row c → ap ∈ v.row c → la.inc c a ap = true →
      ∃ z, f a ap = .ok z ∧ z.getD 0 = g a ap) :
    ∃ ks, v.pairs b bp (c : Int) f = .ok ks ∧
      (∀ k ∈ ks, KGood v la k ∧ k.target = ((c : Int), b, bp)) ∧
      ∀ φ, (ks.map fun k => k.term v la φ).sum
        = ∑ a ∈ v.R c, ∑ ap ∈ v.R c, g a ap * dens v la φ c a ap := by
  choose! z hz1 hz2 using hf
  have hcl := h.row_lt hb
  unfold View.pairs
  rw [h.states (by omega)]
  simp only [py_bind_ok]
  let e1 : Nat × Nat → List KCall := fun p =>
    if la.inc c p.1 p.2 then
      (match z p.1 p.2 with
      | some z => [KCall.elem z b bp (c : Int) p.1 p.2 (c : Int)]
      | none => []) else []
  have h1 : collect (prod2 (v.row c) (v.row c)) (fun p =>
      v.elemSkip (f p.1 p.2) b bp (c : Int) p.1 p.2)
      = .ok ((prod2 (v.row c) (v.row c)).flatMap e1) := by
    apply collect_ok
    rintro ⟨a, ap⟩ hp
    obtain ⟨ha, hap⟩ := prod2_mem hp
    simp only at ha hap
    unfold View.elemSkip
    simp only
    rw [h.isIncluded ha hap]
    simp only [py_bind_ok, e1]
    cases hi' : la.inc c a ap with
    | false => simp
    | true =>
      simp only [if_true]
      rw [hz1 a ap ha hap hi']
      simp only [py_bind_ok]
      cases z a ap <;> rfl
  rw [h1]
  refine ⟨_, rfl, ?_, ?_⟩
  · intro k hk
    simp only [List.mem_flatMap] at hk
    obtain ⟨⟨a, ap⟩, hp, hk⟩ := hk
    obtain ⟨ha, hap⟩ := prod2_mem hp
    simp only at ha hap
    simp only [e1] at hk
    split at hk
    · rename_i hi'
      split at hk
      · simp only [List.mem_singleton] at hk
        subst hk
        exact ⟨⟨by omega, hb, hbp, hi, by omega, ha, hap, hi'⟩, rfl⟩
      · simp at hk
    · simp at hk
  · intro φ
    rw [sum_flatMap', View.R, ← sum_prod2 (h.nodup c) (h.nodup c)
        (fun a ap => g a ap * dens v la φ c a ap)]
    congr 1
    apply List.map_congr_left
    rintro ⟨a, ap⟩ hp
    obtain ⟨ha, hap⟩ := prod2_mem hp
    simp only at ha hap
    simp only [e1]
    split
    · rename_i hi'
      rw [← hz2 a ap ha hap hi']
      cases z a ap <;> simp [KCall.term]
    · rename_i hn; simp [dens, hn]

theorem sides_ok {b bp c : Nat} (hb : b ∈ v.row c) (hbp : bp ∈ v.row c)
    (hi : la.inc c b bp = true) {fL fR : Nat → Py ℂ} {gL gR : Nat → ℂ}
    (hL : ∀ x, x ∈ v.row c → fL x = .ok (gL x)) (hR : ∀ x, x ∈ v.row c → fR x = .ok (gR x)) :
    ∃ ks, v.sides b bp (c : Int) fL fR = .ok ks ∧
      (∀ k ∈ ks, KGood v la k ∧ k.target = ((c : Int), b, bp)) ∧
      ∀ φ, (ks.map fun k => k.term v la φ).sum
        = ∑ x ∈ v.R c, (gL x * dens v la φ c x bp + gR x * dens v la φ c b x) := by
  have hcl := h.row_lt hb
  unfold View.sides
  rw [h.states (by omega)]
  simp only [py_bind_ok]
  let e2 : Nat → List KCall := fun x =>
    (if la.inc c x bp then [KCall.elem (gL x) b bp (c : Int) x bp (c : Int)] else []) ++
    (if la.inc c b x then [KCall.elem (gR x) b bp (c : Int) b x (c : Int)] else [])
  have h2 : collect (v.row c) (fun x => do
      let y ← v.elemIf (fL x) b bp (c : Int) x bp (c : Int)
      let z ← v.elemIf (fR x) b bp (c : Int) b x (c : Int)
      pure (y ++ z)) = .ok ((v.row c).flatMap e2) := by
    apply collect_ok
    intro x hx
    rw [elemIf_ok h hx hbp (fun _ => hL x hx), elemIf_ok h hb hx (fun _ => hR x hx)]
    rfl
  rw [h2]
  refine ⟨_, rfl, ?_, ?_⟩
  · intro k hk
    simp only [List.mem_flatMap, e2, List.mem_append] at hk
    obtain ⟨x, hx, hk⟩ := hk
    rcases hk with hk | hk
    · split at hk
      · rename_i hi'
        simp only [List.mem_singleton] at hk
        subst hk
        exact ⟨⟨by omega, hb, hbp, hi, by omega, hx, hbp, hi'⟩, rfl⟩
      · simp at hk
    · split at hk
      · rename_i hi'
        simp only [List.mem_singleton] at hk
        subst hk
        exact ⟨⟨by omega, hb, hbp, hi, by omega, hb, hx, hi'⟩, rfl⟩
      · simp at hk
  · intro φ
    rw [sum_flatMap', View.R, List.sum_toFinset _ (h.nodup c)]
    congr 1
    apply List.map_congr_left
    intro x _
    simp only [e2]
    rw [List.map_append, List.sum_append]
    congr 1
    · split
      · simp [KCall.term]
      · rename_i hn; simp [dens, hn]
    · split
      · simp [KCall.term]
      · rename_i hn; simp [dens, hn]

end

/-! ### Lindblad -/

namespace LindbladPh

/-- `decay` as a sum. -/
def K (v : View) (nb : Nat) (t : Nat → Nat → Nat → ℂ × ℂ) (c x y : Nat) : ℂ :=
  I * ∑ a ∈ v.R c, ∑ l ∈ range nb,
    (-0.5 * conj (t l a x).1 * (t l a y).1 + -0.5 * conj (t l a x).2 * (t l a y).2)

/-- `jump` as a sum. -/
def J (nb : Nat) (t : Nat → Nat → Nat → ℂ × ℂ) (b bp a ap : Nat) : ℂ :=
  I * ∑ l ∈ range nb, ((t l b a).1 * conj (t l bp ap).1 + (t l b a).2 * conj (t l bp ap).2)

/-- The phonon part of the right-hand side of the equation of motion (times `i`). -/
def S (v : View) (nb : Nat) (t : Nat → Nat → Nat → ℂ × ℂ) (ρ : Nat → Nat → Nat → ℂ)
    (c b bp : Nat) : ℂ :=
  (∑ a ∈ v.R c, ∑ ap ∈ v.R c, J nb t b bp a ap * ρ c a ap) +
  ∑ y ∈ v.R c, (K v nb t c b y * ρ c y bp + K v nb t c y bp * ρ c b y)

/-- The populations of one charge are not changed in total. -/
theorem trace (v : View) (nb : Nat) (t : Nat → Nat → Nat → ℂ × ℂ) (ρ : Nat → Nat → Nat → ℂ)
    (c : Nat) : ∑ b ∈ v.R c, S v nb t ρ c b b = 0 := by
  have e1 : ∑ b ∈ v.R c, ∑ a ∈ v.R c, ∑ ap ∈ v.R c, J nb t b b a ap * ρ c a ap
      = ∑ a ∈ v.R c, ∑ ap ∈ v.R c, -(2 * K v nb t c ap a * ρ c a ap) := by
    rw [sum_comm]
    refine sum_congr rfl fun a _ => ?_
    rw [sum_comm]
    refine sum_congr rfl fun ap _ => ?_
    rw [← sum_mul, ← neg_mul]
    congr 1
    unfold J K
    rw [← mul_sum (v.R c), mul_left_comm, ← mul_neg, mul_sum (v.R c) _ 2, ← sum_neg_distrib]
    congr 1
    refine sum_congr rfl fun b _ => ?_
    rw [mul_sum, ← sum_neg_distrib]
    refine sum_congr rfl fun l _ => ?_
    norm_num
    ring
  unfold S
  rw [sum_add_distrib, e1]
  simp only [sum_add_distrib]
  rw [sum_comm (f := fun b y => K v nb t c b y * ρ c y b), ← sum_add_distrib, ← sum_add_distrib]
  refine sum_eq_zero fun a _ => ?_
  rw [← sum_add_distrib, ← sum_add_distrib]
  refine sum_eq_zero fun ap _ => ?_
  ring

variable {v : View} {la : Lab}

theorem coup_ok (h : VOk v la) (nb : Nat) (te : TMat) (t : Nat → Nat → Nat → ℂ × ℂ)
    {c b bp : Nat} (hb : b ∈ v.row c) (hbp : bp ∈ v.row c) (hi : la.inc c b bp = true) :
    ∃ ks, coup v nb te t b bp c = .ok ks ∧
      (∀ k ∈ ks, KGood v la k ∧ k.target = ((c : Int), b, bp)) ∧
      ∀ φ, (ks.map fun k => k.term v la φ).sum
        = Lindblad.S v te (dens v la φ) c b bp + S v nb t (dens v la φ) c b bp := by
  have hcl := h.row_lt hb
  obtain ⟨k1, g1, p1, s1⟩ := Lindblad.coup_ok h te hb hbp hi
  have hd : ∀ x y, decay v nb t c x y = .ok (K v nb t c x y) := by
    intro x y
    unfold decay
    rw [h.states (by omega)]
    simp only [py_bind_ok]
    simp only [sumM_range']
    rw [sumM_toFinset (h.nodup c) (fun a _ => rfl)]
    rfl
  obtain ⟨k2, g2, p2, s2⟩ := pairs_ok h hb hbp hi (f := fun a ap => jump nb t b bp a ap)
    (g := fun a ap => J nb t b bp a ap) (fun a ap _ _ _ => ⟨some (J nb t b bp a ap), by
      unfold jump
      rw [sumM_range']
      rfl, rfl⟩)
  obtain ⟨k3, g3, p3, s3⟩ := sides_ok h hb hbp hi (fL := fun y => decay v nb t c b y)
    (fR := fun y => decay v nb t c y bp) (fun y _ => hd b y) (fun y _ => hd y bp)
  refine ⟨k1 ++ (k2 ++ k3), ?_, ?_, ?_⟩
  · unfold coup extra
    rw [g1, g2, g3]
    rfl
  · intro k hk
    simp only [List.mem_append] at hk
    rcases hk with hk | hk | hk
    · exact p1 k hk
    · exact p2 k hk
    · exact p3 k hk
  · intro φ
    rw [List.map_append, List.sum_append, List.map_append, List.sum_append, s1, s2, s3]
    rfl

end LindbladPh

/-! ### 1vN and Redfield

The two differ in which of two states is looked up: `σ x y = x` in 1vN and `σ x y = y` in
Redfield. -/

namespace CohPh

variable {v e : View} {la : Lab} {el : Nat → Nat → Nat → Option Nat}

def A (nb : Nat) (V : TMat) (W : Nat → Nat → Nat → Nat → ℂ × ℂ) (σ : Nat → Nat → Nat)
    (c b bp a ap : Nat) : ℂ :=
  ∑ l ∈ range nb, gam V l b a bp ap * (conj (W l c bp (σ a ap)).1 - (W l c b (σ ap a)).1)

def C (nb : Nat) (V : TMat) (W : Nat → Nat → Nat → Nat → ℂ × ℂ) (σ : Nat → Nat → Nat)
    (c b bp a ap : Nat) : ℂ :=
  ∑ l ∈ range nb, gam V l b a bp ap * ((W l c (σ a ap) bp).2 - conj (W l c (σ ap a) b).2)

def L (v : View) (nb : Nat) (V : TMat) (W : Nat → Nat → Nat → Nat → ℂ × ℂ) (c b y s : Nat) : ℂ :=
  ∑ a ∈ v.R c, ∑ l ∈ range nb, gam V l b a y a * conj (W l c s a).2 +
  ∑ a ∈ v.R c, ∑ l ∈ range nb, gam V l b a y a * (W l c a s).1

def R (v : View) (nb : Nat) (V : TMat) (W : Nat → Nat → Nat → Nat → ℂ × ℂ) (c bp y s : Nat) : ℂ :=
  ∑ a ∈ v.R c, ∑ l ∈ range nb, -gam' V l a y bp * (W l c s a).2 +
  ∑ a ∈ v.R c, ∑ l ∈ range nb, -gam' V l a y bp * conj (W l c a s).1

/-- The phonon part of the right-hand side of the equation of motion (times `i`). -/
def S (v : View) (nb : Nat) (V : TMat) (W : Nat → Nat → Nat → Nat → ℂ × ℂ) (σ : Nat → Nat → Nat)
    (ρ : Nat → Nat → Nat → ℂ) (c b bp : Nat) : ℂ :=
  (∑ a ∈ v.R c, ∑ ap ∈ v.R c, A nb V W σ c b bp a ap * ρ c a ap) +
  (∑ y ∈ v.R c, (L v nb V W c b y (σ bp y) * ρ c y bp + R v nb V W c bp y (σ b y) * ρ c b y)) +
  (∑ a ∈ v.R c, ∑ ap ∈ v.R c, C nb V W σ c b bp a ap * ρ c a ap)

/-- The populations of one charge are not changed in total. -/
theorem trace (v : View) (nb : Nat) (V : TMat) (W : Nat → Nat → Nat → Nat → ℂ × ℂ)
    (σ : Nat → Nat → Nat) (ρ : Nat → Nat → Nat → ℂ) (c : Nat) :
    ∑ b ∈ v.R c, S v nb V W σ ρ c b b = 0 := by
  have g1 : ∀ l x y a, gam V l y a x a = gam V l a x a y := by
    intro l x y a; unfold gam; ring
  have g2 : ∀ l x y a, gam' V l a y x = gam V l a x a y := by
    intro l x y a; unfold gam' gam; ring
  have com : ∀ F : Nat → Nat → Nat → ℂ, ∑ b ∈ v.R c, ∑ a ∈ v.R c, ∑ ap ∈ v.R c, F b a ap
      = ∑ a ∈ v.R c, ∑ ap ∈ v.R c, ∑ b ∈ v.R c, F b a ap := by
    intro F
    rw [sum_comm]
    exact sum_congr rfl fun a _ => sum_comm
  unfold S
  simp only [sum_add_distrib]
  rw [com (fun b a ap => A nb V W σ c b b a ap * ρ c a ap),
    com (fun b a ap => C nb V W σ c b b a ap * ρ c a ap), sum_comm (f := fun b y => L v nb V W c b y (σ b y) * ρ c y b)]
  rw [← sum_add_distrib, ← sum_add_distrib, ← sum_add_distrib]
  refine sum_eq_zero fun x _ => ?_
  rw [← sum_add_distrib, ← sum_add_distrib, ← sum_add_distrib]
  refine sum_eq_zero fun y _ => ?_
  rw [← sum_mul, ← sum_mul, ← add_mul, ← add_mul, ← add_mul]
  convert zero_mul _
  unfold A C L R
  simp only [← sum_add_distrib]
  refine sum_eq_zero fun a _ => ?_
  refine sum_eq_zero fun l _ => ?_
  rw [g1, g2]
  ring

section
variable (hp : PhOk v e la el)
include hp

theorem skip_ok (nb : Nat) (w : Nat → Nat → ℂ × ℂ) {c b a : Nat} (hb : b ∈ v.row c)
    (ha : a ∈ v.row c) (g : Nat → ℂ × ℂ → ℂ) (hg : ∀ l, g l 0 = 0) :
    (do let i ← e.ind0 b a (c : Int)
        skipSum e nb w i g) = .ok (∑ l ∈ range nb, g l (phW el w l c b a)) := by
  rw [hp.ind0 c b a hb ha]
  simp only [py_bind_ok]
  unfold skipSum phW
  cases hk : el c b a with
  | none => simp [hg]
  | some k =>
    simp only
    rw [if_neg (by omega)]
    apply sumM_range
    intro l _
    rw [rd0_ok e w l (hp.lt c b a k hb ha hk)]
    rfl

theorem fctL_ok (h : VOk v la) (nb : Nat) (V : TMat) (w : Nat → Nat → ℂ × ℂ) {c b y s : Nat}
    (hs : s ∈ v.row c) : fctL v e nb V w b (c : Int) y s = .ok (L v nb V (phW el w) c b y s) := by
  have hcl := h.row_lt hs
  unfold fctL
  rw [h.states (by omega)]
  simp only [py_bind_ok]
  rw [sumM_toFinset (h.nodup c) (fun a ha => skip_ok hp nb w hs ha
      (fun l x => gam V l b a y a * conj x.2) (by simp)),
    sumM_toFinset (h.nodup c) (fun a ha => skip_ok hp nb w ha hs
      (fun l x => gam V l b a y a * x.1) (by simp))]
  rfl

theorem fctR_ok (h : VOk v la) (nb : Nat) (V : TMat) (w : Nat → Nat → ℂ × ℂ) {c bp y s : Nat}
    (hs : s ∈ v.row c) : fctR v e nb V w bp (c : Int) y s = .ok (R v nb V (phW el w) c bp y s) := by
  have hcl := h.row_lt hs
  unfold fctR
  rw [h.states (by omega)]
  simp only [py_bind_ok]
  rw [sumM_toFinset (h.nodup c) (fun a ha => skip_ok hp nb w hs ha
      (fun l x => -gam' V l a y bp * x.2) (by simp)),
    sumM_toFinset (h.nodup c) (fun a ha => skip_ok hp nb w ha hs
      (fun l x => -gam' V l a y bp * conj x.1) (by simp))]
  rfl

theorem pair_ok (nb : Nat) (w : Nat → Nat → ℂ × ℂ) {c x y z u : Nat} (hx : x ∈ v.row c)
    (hy : y ∈ v.row c) (hz : z ∈ v.row c) (hu : u ∈ v.row c)
    (hs : (el c x y).isSome = (el c z u).isSome) (g : Nat → ℂ × ℂ → ℂ × ℂ → ℂ)
    (hg : ∀ l, g l 0 0 = 0) :
    ∃ r, (do let i ← e.ind0 x y (c : Int)
             let j ← e.ind0 z u (c : Int)
             if i = -1 ∨ j = -1 then pure none else do
              let s ← sumM (List.range nb) fun l => do
                let p ← e.rd0 w l i
                let q ← e.rd0 w l j
                pure (g l p q)
              pure (some s)) = (.ok r : Py (Option ℂ)) ∧
      r.getD 0 = ∑ l ∈ range nb, g l (phW el w l c x y) (phW el w l c z u) := by
  rw [hp.ind0 c x y hx hy, hp.ind0 c z u hz hu]
  simp only [py_bind_ok, phW]
  cases h1 : el c x y with
  | none =>
    rw [h1] at hs
    have h2 : el c z u = none := by
      cases h2 : el c z u with
      | none => rfl
      | some k => rw [h2] at hs; simp at hs
    rw [h2]
    exact ⟨none, by simp, by simp [hg]⟩
  | some k =>
    rw [h1] at hs
    cases h2 : el c z u with
    | none => rw [h2] at hs; simp at hs
    | some k' =>
      refine ⟨some (∑ l ∈ range nb, g l (w l k) (w l k')), ?_, rfl⟩
      simp only
      rw [if_neg (by omega)]
      rw [sumM_range (g := fun l => g l (w l k) (w l k'))]
      · rfl
      · intro l _
        rw [rd0_ok e w l (hp.lt c x y k hx hy h1), rd0_ok e w l (hp.lt c z u k' hz hu h2)]
        rfl

/-- The consistency of the labels needed for the two blocks. -/
theorem consist {c b bp a ap : Nat} (hb : b ∈ v.row c) (hbp : bp ∈ v.row c)
    (hi : la.inc c b bp = true) (ha : a ∈ v.row c) (hap : ap ∈ v.row c)
    (hi' : la.inc c a ap = true) :
    (el c bp a).isSome = (el c b ap).isSome ∧ (el c bp ap).isSome = (el c b a).isSome ∧
    (el c a bp).isSome = (el c ap b).isSome ∧ (el c ap bp).isSome = (el c a b).isSome := by
  have s1 : ∀ x, x ∈ v.row c → (el c b x).isSome = (el c bp x).isSome := by
    intro x hx
    rw [hp.symm c b x hb hx, hp.symm c bp x hbp hx]
    exact hp.inc c x b bp hx hb hbp hi
  have s2 : ∀ x, x ∈ v.row c → (el c x a).isSome = (el c x ap).isSome := fun x hx =>
    hp.inc c x a ap hx ha hap hi'
  have a1 : (el c bp a).isSome = (el c b ap).isSome := by rw [s2 bp hbp, s1 ap hap]
  have a2 : (el c bp ap).isSome = (el c b a).isSome := by rw [← s2 bp hbp, s1 a ha]
  refine ⟨a1, a2, ?_, ?_⟩
  · rw [hp.symm c a bp ha hbp, hp.symm c ap b hap hb]; exact a1
  · rw [hp.symm c ap bp hap hbp, hp.symm c a b ha hb]; exact a2

end

end CohPh

namespace VN1Ph

open CohPh
variable {v e : View} {la : Lab} {el : Nat → Nat → Nat → Option Nat}

theorem coup_ok (h : VOk v la) (hp : PhOk v e la el) (nb : Nat) (T : TMat) (f : Nat → Nat → Amp)
    (V : TMat) (w : Nat → Nat → ℂ × ℂ) {c b bp : Nat} (hb : b ∈ v.row c) (hbp : bp ∈ v.row c)
    (hi : la.inc c b bp = true) :
    ∃ ks, coup v e nb T f V w b bp c = .ok ks ∧
      (∀ k ∈ ks, KGood v la k ∧ k.target = ((c : Int), b, bp)) ∧
      ∀ φ, (ks.map fun k => k.term v la φ).sum
        = Coh.S v T (fun l q x b _ => (f l (la.ix1 q x b)).cur0)
          (fun l q x _ b => (f l (la.ix1 q x b)).cur1) (dens v la φ) c b bp +
          CohPh.S v nb V (phW el w) (fun x _ => x) (dens v la φ) c b bp := by
  obtain ⟨k1, g1, p1, s1⟩ := VN1.coup_ok h T f hb hbp hi
  obtain ⟨k2, g2, p2, s2⟩ := pairs_ok h hb hbp hi
    (f := fun a ap => do
      let bpa ← e.ind0 bp a (c : Int)
      let bap ← e.ind0 b ap (c : Int)
      pairA e nb V w b bp a ap bpa bap)
    (g := fun a ap => A nb V (phW el w) (fun x _ => x) c b bp a ap)
    (fun a ap ha hap hi' => pair_ok hp nb w hbp ha hb hap (consist hp hb hbp hi ha hap hi').1
      (fun l x y => gam V l b a bp ap * (conj x.1 - y.1)) (by simp))
  obtain ⟨k3, g3, p3, s3⟩ := sides_ok h hb hbp hi
    (fL := fun y => fctL v e nb V w b (c : Int) y bp)
    (fR := fun y => fctR v e nb V w bp (c : Int) y b)
    (fun y _ => fctL_ok hp h nb V w hbp) (fun y _ => fctR_ok hp h nb V w hb)
  obtain ⟨k4, g4, p4, s4⟩ := pairs_ok h hb hbp hi
    (f := fun a ap => do
      let abp ← e.ind0 a bp (c : Int)
      let apb ← e.ind0 ap b (c : Int)
      pairC e nb V w b bp a ap abp apb)
    (g := fun a ap => C nb V (phW el w) (fun x _ => x) c b bp a ap)
    (fun a ap ha hap hi' => pair_ok hp nb w ha hbp hap hb (consist hp hb hbp hi ha hap hi').2.2.1
      (fun l x y => gam V l b a bp ap * (x.2 - conj y.2)) (by simp))
  refine ⟨k1 ++ (k2 ++ k3 ++ k4), ?_, ?_, ?_⟩
  · unfold coup extra CohPh.blocks
    rw [g1, g2, g3, g4]
    rfl
  · intro k hk
    simp only [List.mem_append] at hk
    rcases hk with hk | (hk | hk) | hk
    · exact p1 k hk
    · exact p2 k hk
    · exact p3 k hk
    · exact p4 k hk
  · intro φ
    simp only [List.map_append, List.sum_append]
    rw [s1, s2, s3, s4]
    rfl

end VN1Ph

namespace RedfieldPh

open CohPh
variable {v e : View} {la : Lab} {el : Nat → Nat → Nat → Option Nat}

theorem coup_ok (h : VOk v la) (hp : PhOk v e la el) (nb : Nat) (T : TMat) (f : Nat → Nat → Amp)
    (V : TMat) (w : Nat → Nat → ℂ × ℂ) {c b bp : Nat} (hb : b ∈ v.row c) (hbp : bp ∈ v.row c)
    (hi : la.inc c b bp = true) :
    ∃ ks, coup v e nb T f V w b bp c = .ok ks ∧
      (∀ k ∈ ks, KGood v la k ∧ k.target = ((c : Int), b, bp)) ∧
      ∀ φ, (ks.map fun k => k.term v la φ).sum
        = Coh.S v T (fun l q x _ bp => (f l (la.ix1 q x bp)).cur0)
          (fun l q _ xp b => (f l (la.ix1 q xp b)).cur1) (dens v la φ) c b bp +
          CohPh.S v nb V (phW el w) (fun _ y => y) (dens v la φ) c b bp := by
  obtain ⟨k1, g1, p1, s1⟩ := Redfield.coup_ok h T f hb hbp hi
  obtain ⟨k2, g2, p2, s2⟩ := pairs_ok h hb hbp hi
    (f := fun a ap => do
      let bpap ← e.ind0 bp ap (c : Int)
      let ba ← e.ind0 b a (c : Int)
      pairA e nb V w b bp a ap bpap ba)
    (g := fun a ap => A nb V (phW el w) (fun _ y => y) c b bp a ap)
    (fun a ap ha hap hi' => pair_ok hp nb w hbp hap hb ha (consist hp hb hbp hi ha hap hi').2.1
      (fun l x y => gam V l b a bp ap * (conj x.1 - y.1)) (by simp))
  obtain ⟨k3, g3, p3, s3⟩ := sides_ok h hb hbp hi
    (fL := fun y => fctL v e nb V w b (c : Int) y y)
    (fR := fun y => fctR v e nb V w bp (c : Int) y y)
    (fun y hy => fctL_ok hp h nb V w hy) (fun y hy => fctR_ok hp h nb V w hy)
  obtain ⟨k4, g4, p4, s4⟩ := pairs_ok h hb hbp hi
    (f := fun a ap => do
      let apbp ← e.ind0 ap bp (c : Int)
      let ab ← e.ind0 a b (c : Int)
      pairC e nb V w b bp a ap apbp ab)
    (g := fun a ap => C nb V (phW el w) (fun _ y => y) c b bp a ap)
    (fun a ap ha hap hi' => pair_ok hp nb w hap hbp ha hb (consist hp hb hbp hi ha hap hi').2.2.2
      (fun l x y => gam V l b a bp ap * (x.2 - conj y.2)) (by simp))
  refine ⟨k1 ++ (k2 ++ k3 ++ k4), ?_, ?_, ?_⟩
  · unfold coup extra CohPh.blocks
    rw [g1, g2, g3, g4]
    rfl
  · intro k hk
    simp only [List.mem_append] at hk
    rcases hk with hk | (hk | hk) | hk
    · exact p1 k hk
    · exact p2 k hk
    · exact p3 k hk
    · exact p4 k hk
  · intro φ
    simp only [List.map_append, List.sum_append]
    rw [s1, s2, s3, s4]
    rfl

end RedfieldPh

end

end Verif
