import Verif.Lemmas.Solve
import Verif.Props.Pauli
import Verif.Props.Coherent

/-! The facts about the four approaches that the solution of the equations relies on. -/

namespace Verif

noncomputable section

open Finset

/-- Sign of the row `r` in matrix-free mode. -/
def View.sgn (v : View) (r : Nat) : ℝ := if r < v.ndm0 then 1 else -1

/-- The calls `cs`, executed by either handler, add the linear map `L`. -/
structure Adder (v : View) (n : Nat) (cs : List KCall) (L : (Nat → ℝ) → Nat → ℝ) : Prop where
  kern : ∀ rows, n ≤ rows → ∃ K, v.runKern (Mat.zeros rows n) cs = .ok K ∧ K.rows = rows ∧
    K.cols = n ∧ ∀ φ r, K.app φ r = L φ r
  free : ∀ φ : Vec, φ.size = n → ∃ x, v.runFree φ (Vec.zeros n) cs = .ok x ∧ x.size = n ∧
    ∀ r, x.val r = v.sgn r * L φ.val r

/-- The approach `ap`, with `n` unknowns, works on the indexing object `v`. -/
structure Works (v : View) (ap : Appr) (n : Nat) : Prop where
  np_le : v.npauli ≤ n
  calls : ∃ cs L, ap.calls v = .ok cs ∧ (∀ cs', cs'.Perm cs → Adder v n cs' L) ∧
    ∀ φ, ∑ i ∈ range v.npauli, L φ i = 0
  cur : ∀ φ : Vec, φ.size = n → ∃ evs, ap.cur v φ = .ok evs ∧
    (φ = Vec.zeros n → ∀ l, l < v.nleads → current evs l = 0 ∧ energyCurrent evs l = 0)

section
variable {v : View} {la : Lab} (h : VOk v la)
include h

theorem contrib_sgn {k : KCall} (hk : KGood v la k) (φ : Nat → ℝ) (r : Nat) :
    k.contrib v la (-1) φ r = v.sgn r * k.contrib v la 1 φ r := by
  have main : ∀ c b bp, b ∈ v.row c → bp ∈ v.row c → la.inc c b bp = true → ∀ z,
      put v la (-1) c b bp z r = v.sgn r * put v la 1 c b bp z r := by
    intro c b bp hb hbp hi z
    have hl := h.lab_lt hb hbp hi
    unfold put View.sgn
    by_cases e : r = la.lab c b bp
    · rw [if_pos e, if_pos (by omega), if_pos e, one_mul]
    · rw [if_neg e, if_neg e]
      by_cases e' : b ≠ bp ∧ r = v.imag (la.lab c b bp)
      · have := (h.imagPos_off hb hbp e'.1 hi).2.1
        rw [if_pos e', if_pos e', if_neg (by omega), one_mul]
      · rw [if_neg e', if_neg e', mul_zero]
  cases k with
  | pauli => exact absurd hk (by simp [KGood])
  | energy e b bp c => exact main _ _ _ hk.2.1 hk.2.2.1 hk.2.2.2.1 _
  | elem f b bp c a ap c' => exact main _ _ _ hk.2.1 hk.2.2.1 hk.2.2.2.1 _

theorem adder_good {cs : List KCall} (hk : ∀ k ∈ cs, KGood v la k) :
    Adder v v.ndm0r cs (fun φ r => (cs.map fun k => k.contrib v la 1 φ r).sum) := by
  constructor
  · intro rows hr
    obtain ⟨K, g, ad⟩ := runKern_ok h cs hk (m := Mat.zeros rows v.ndm0r) hr rfl
    exact ⟨K, g, ad.rows, ad.cols, fun φ r => by rw [ad.app, Mat.app_zeros, zero_add]⟩
  · intro φ hφ
    obtain ⟨x, g, hs, hx⟩ := runFree_ok h cs hk (φ := φ) (x := Vec.zeros v.ndm0r) hφ.ge le_rfl
    refine ⟨x, g, hs, ?_⟩
    intro r
    rw [hx]
    simp only [Vec.zeros, zero_add]
    rw [← List.sum_map_mul_left]
    congr 1
    exact List.map_congr_left fun k hk' => contrib_sgn h (hk k hk') φ.val r

end

theorem callFree_pauli {v : View} {n : Nat} (hn : n ≤ v.ndm0) {k : KCall} (hk : PGood n k)
    {φ x : Vec} (hφ : φ.size = n) (hx : x.size = n) :
    ∃ x', v.callFree φ x k = .ok x' ∧ x'.size = n ∧
      ∀ r, x'.val r = x.val r + v.sgn r * k.pcontrib φ.val r := by
  cases k with
  | energy e b bp c => exact absurd hk (by simp [PGood])
  | elem f b bp c a ap c' => exact absurd hk (by simp [PGood])
  | pauli fm fp bb aa =>
    obtain ⟨h1, h2, h3, h4⟩ := hk
    obtain ⟨p, rfl⟩ := Int.eq_ofNat_of_zero_le h1
    obtain ⟨q, rfl⟩ := Int.eq_ofNat_of_zero_le h3
    simp only [Int.toNat_natCast] at h2 h4
    simp only [View.callFree, Vec.get]
    rw [pyIdx_nat (by omega), pyIdx_nat (by omega)]
    obtain ⟨x', g, s, e⟩ := x.add_ok (r := p) (by omega) (fm * φ.val p + fp * φ.val q)
    refine ⟨x', g, by omega, ?_⟩
    intro r
    rw [e]
    simp only [KCall.pcontrib, Int.toNat_natCast]
    unfold View.sgn
    by_cases er : r = p
    · rw [if_pos er, if_pos (by omega), one_mul]
    · rw [if_neg er, mul_zero]

theorem adder_pauli {v : View} {n : Nat} (hn : n ≤ v.ndm0) {cs : List KCall}
    (hk : ∀ k ∈ cs, PGood n k) :
    Adder v n cs (fun φ r => (cs.map fun k => k.pcontrib φ r).sum) := by
  constructor
  · intro rows hr
    obtain ⟨K, g, ad⟩ := runKern_pauli v cs hk (m := Mat.zeros rows n) hr rfl
    exact ⟨K, g, ad.rows, ad.cols, fun φ r => by rw [ad.app, Mat.app_zeros, zero_add]⟩
  · intro φ hφ
    have key : ∀ (cs : List KCall) (x : Vec), (∀ k ∈ cs, PGood n k) → x.size = n →
        ∃ x', v.runFree φ x cs = .ok x' ∧ x'.size = n ∧
          ∀ r, x'.val r = x.val r + v.sgn r * (cs.map fun k => k.pcontrib φ.val r).sum := by
      intro cs
      induction cs with
      | nil => intro x _ hx; exact ⟨x, rfl, hx, by simp⟩
      | cons k cs ih =>
        intro x hk hx
        obtain ⟨x1, g1, s1, e1⟩ := callFree_pauli hn (hk k (by simp)) hφ hx
        obtain ⟨x2, g2, s2, e2⟩ := ih x1 (fun k' hk' => hk k' (by simp [hk'])) s1
        refine ⟨x2, ?_, s2, ?_⟩
        · unfold View.runFree at *
          rw [List.foldlM_cons, g1]
          exact g2
        · intro r
          rw [e2, e1, List.map_cons, List.sum_cons]
          ring
    obtain ⟨x, g, s, e⟩ := key cs (Vec.zeros n) hk rfl
    exact ⟨x, g, s, fun r => by rw [e]; simp [Vec.zeros]⟩

theorem Adder.congr {v : View} {n : Nat} {cs : List KCall} {L L' : (Nat → ℝ) → Nat → ℝ}
    (A : Adder v n cs L) (e : ∀ φ r, L φ r = L' φ r) : Adder v n cs L' := by
  have : L = L' := by funext φ r; exact e φ r
  exact this ▸ A

/-- Conservation in the form needed here. -/
theorem Adder.cons {v : View} {n : Nat} {cs : List KCall} {L : (Nat → ℝ) → Nat → ℝ}
    (A : Adder v n cs L) (hn : v.npauli ≤ n) {m : Mat}
    (hm : v.runKern (Mat.zeros n n) cs = .ok m)
    (hz : ∀ j, j < n → ∑ i ∈ range v.npauli, m.val i j = 0) (φ : Nat → ℝ) :
    ∑ i ∈ range v.npauli, L φ i = 0 := by
  obtain ⟨K, g, hr, hc, e⟩ := A.kern n le_rfl
  rw [hm] at g
  simp only [Except.ok.injEq] at g
  subst g
  have : ∀ i, L φ i = ∑ j ∈ range n, m.val i j * φ j := by
    intro i
    rw [← e φ i, Mat.app, hc]
  rw [sum_congr rfl fun i _ => this i, sum_comm]
  apply sum_eq_zero
  intro j hj
  rw [← sum_mul, hz j (mem_range.1 hj), zero_mul]

section
variable {v : View} {la : Lab} (h : VOk v la)
include h

theorem norm_to_pop {m : Mat} {nv : Vec} (hn : v.genNormVec (Vec.zeros v.ndm0r) = .ok nv)
    (hz : ∀ j, j < v.ndm0r → ∑ i ∈ range v.ndm0r, nv.val i * m.val i j = 0) :
    ∀ j, j < v.ndm0r → ∑ i ∈ range v.npauli, m.val i j = 0 := by
  have hle : v.npauli ≤ v.ndm0r := by have := h.np_le; have := h.ndm0r; omega
  obtain ⟨x, g, hs, e⟩ := genNormVec_ok h v.ndm0r hle
  rw [hn] at g
  simp only [Except.ok.injEq] at g
  subst g
  intro j hj
  rw [← hz j hj]
  have : ∀ i, nv.val i * m.val i j = if i < v.npauli then m.val i j else 0 := by
    intro i; rw [e]; split <;> simp
  rw [sum_congr rfl fun i _ => this i, ← sum_filter]
  congr 1
  ext i
  simp only [mem_range, mem_filter]
  omega

omit h in
theorem dens_zeros (n c a ap : Nat) : dens v la (Vec.zeros n).val c a ap = 0 := by
  unfold dens
  split
  · apply Complex.ext <;> simp [Vec.zeros]
  · rfl

theorem works_coherent {ap : Appr} {E : Nat → ℝ} {coup : Nat → Nat → Int → Py (List KCall)}
    {ks : Nat → Nat → Nat → List KCall}
    (hcalls : ap.calls v = v.genKern E coup)
    (hc : ∀ c b bp, b ∈ v.row c → bp ∈ v.row c → la.inc c b bp = true →
      coup b bp c = .ok (ks c b bp) ∧ ∀ k ∈ ks c b bp, KGood v la k ∧ k.target = ((c : Int), b, bp))
    (hcons : ∃ m nv, v.assemble v.ndm0r true (v.genKern E coup) = .ok m ∧
      v.genNormVec (Vec.zeros v.ndm0r) = .ok nv ∧
      ∀ j, j < v.ndm0r → ∑ i ∈ range v.ndm0r, nv.val i * m.val i j = 0)
    (hcur : ∀ φ : Vec, φ.size = v.ndm0r → ∃ evs, ap.cur v φ = .ok evs ∧
      (φ = Vec.zeros v.ndm0r → ∀ l, l < v.nleads → current evs l = 0 ∧ energyCurrent evs l = 0)) :
    Works v ap v.ndm0r := by
  obtain ⟨cs, g, hg, -⟩ := genKern_rows h E coup ks hc
  obtain ⟨m, nv, gm, gn, hz⟩ := hcons
  have hle : v.npauli ≤ v.ndm0r := by have := h.np_le; have := h.ndm0r; omega
  have A := adder_good h hg
  refine ⟨hle, ⟨cs, fun φ r => (cs.map fun k => k.contrib v la 1 φ r).sum, hcalls.trans g,
    fun cs' hp => ?_, ?_⟩, hcur⟩
  · exact (adder_good h fun k hk => hg k (hp.mem_iff.1 hk)).congr fun φ r =>
      (hp.map fun k => k.contrib v la 1 φ r).sum_eq
  refine A.cons hle (m := m) ?_ (norm_to_pop h gn hz)
  unfold View.assemble at gm
  rw [g] at gm
  exact gm

theorem works_vn1 (lib : NumLib) (E : Nat → ℝ) (L : Leads) :
    Works v (Appr.vn1 lib E L) v.ndm0r := by
  obtain ⟨f, gf, -⟩ := fillFct_ok h (⟨0, 0, 0, 0⟩ : Amp) (amp1vN lib E L)
  have gf' : genFct1vN v lib E L = .ok f := gf
  have hc := fun c b bp hb hbp hi => VN1.coup_ok h L.Tba f (c := c) (b := b) (bp := bp) hb hbp hi
  choose! ks hk1 hk2 hk3 using hc
  refine works_coherent h (E := E) (coup := VN1.coup v L.Tba f) (ks := ks) ?_
    (fun c b bp hb hbp hi => ⟨hk1 c b bp hb hbp hi, hk2 c b bp hb hbp hi⟩) ?_ ?_
  · simp only [Appr.vn1, gf', py_bind_ok]
  · obtain ⟨m, nv, g1, -, g2, g3⟩ := c23_trace_1vN h true E L.Tba f
    exact ⟨m, nv, g1, g2, g3⟩
  · intro φ hφ
    obtain ⟨evs, g, -, hcur⟩ := VN1.genCurrent_ok h L.Tba f φ hφ.ge
    refine ⟨evs.map (·.ev), ?_, ?_⟩
    · simp only [Appr.vn1, gf', py_bind_ok, g, py_pure]
    · rintro rfl l hl
      obtain ⟨e1, e2⟩ := hcur l hl
      rw [e1, e2]
      simp [Coh.Z, dens_zeros]

theorem works_redfield (lib : NumLib) (E : Nat → ℝ) (L : Leads) :
    Works v (Appr.redfield lib E L) v.ndm0r := by
  obtain ⟨f, gf, -⟩ := fillFct_ok h (⟨0, 0, 0, 0⟩ : Amp) (amp1vN lib E L)
  have gf' : genFct1vN v lib E L = .ok f := gf
  have hc := fun c b bp hb hbp hi => Redfield.coup_ok h L.Tba f (c := c) (b := b) (bp := bp) hb hbp hi
  choose! ks hk1 hk2 hk3 using hc
  refine works_coherent h (E := E) (coup := Redfield.coup v L.Tba f) (ks := ks) ?_
    (fun c b bp hb hbp hi => ⟨hk1 c b bp hb hbp hi, hk2 c b bp hb hbp hi⟩) ?_ ?_
  · simp only [Appr.redfield, gf', py_bind_ok]
  · obtain ⟨m, nv, g1, -, g2, g3⟩ := c23_trace_redfield h true E L.Tba f
    exact ⟨m, nv, g1, g2, g3⟩
  · intro φ hφ
    obtain ⟨evs, g, -, hcur⟩ := Redfield.genCurrent_ok h L.Tba f φ hφ.ge
    refine ⟨evs.map (·.ev), ?_, ?_⟩
    · simp only [Appr.redfield, gf', py_bind_ok, g, py_pure]
    · rintro rfl l hl
      obtain ⟨e1, e2⟩ := hcur l hl
      rw [e1, e2]
      simp [Coh.Z, dens_zeros]

theorem works_lindblad (E : Nat → ℝ) (L : Leads) : Works v (Appr.lindblad E L) v.ndm0r := by
  obtain ⟨t, gt, -⟩ := Lindblad.genFct_ok h E L
  have hc := fun c b bp hb hbp hi => Lindblad.coup_ok h t (c := c) (b := b) (bp := bp) hb hbp hi
  choose! ks hk1 hk2 hk3 using hc
  refine works_coherent h (E := E) (coup := Lindblad.coup v t) (ks := ks) ?_
    (fun c b bp hb hbp hi => ⟨hk1 c b bp hb hbp hi, hk2 c b bp hb hbp hi⟩) ?_ ?_
  · simp only [Appr.lindblad, gt, py_bind_ok]
  · obtain ⟨m, nv, g1, -, g2, g3⟩ := c24_trace_lindblad h true E t
    exact ⟨m, nv, g1, g2, g3⟩
  · intro φ hφ
    obtain ⟨evs, g, hcur⟩ := Lindblad.genCurrent_ok h E t φ hφ.ge
    refine ⟨evs, ?_, ?_⟩
    · simp only [Appr.lindblad, gt, py_bind_ok, g]
    · rintro rfl l hl
      obtain ⟨e1, e2⟩ := hcur l hl
      rw [e1, e2]
      simp [Lindblad.flow, Lindblad.P, dens_zeros]

theorem works_pauli (E : Nat → ℝ) (L : Leads) : Works v (Appr.pauli E L) v.npauli := by
  obtain ⟨fct, gf, -⟩ := Pauli.genFct_ok h E L
  have hgood : ∀ k ∈ (List.range v.ncharge).flatMap fun c =>
      (v.row c).flatMap fun b => Pauli.group v la fct c b, PGood v.npauli k :=
    Pauli.group_good h fct
  have A := adder_pauli h.np_le hgood
  refine ⟨le_rfl, ⟨(List.range v.ncharge).flatMap fun c =>
      (v.row c).flatMap fun b => Pauli.group v la fct c b, fun φ r => (((List.range v.ncharge).flatMap fun c =>
      (v.row c).flatMap fun b => Pauli.group v la fct c b).map fun k => k.pcontrib φ r).sum, ?_, fun cs' hp => ?_, ?_⟩, ?_⟩
  · simp only [Appr.pauli, gf, py_bind_ok]
    exact Pauli.genKern_ok h fct
  · exact (adder_pauli h.np_le fun k hk => hgood k (hp.mem_iff.1 hk)).congr fun φ r =>
      (hp.map fun k => k.pcontrib φ r).sum_eq
  · obtain ⟨m, g, -, -, hz, -⟩ := c17_probability h true fct
    refine A.cons le_rfl (m := m) ?_ hz
    unfold Pauli.kernel View.assemble at g
    rw [Pauli.genKern_ok h fct] at g
    exact g
  · intro φ hφ
    obtain ⟨evs, g, hcur⟩ := Pauli.genCurrent_ok h E fct φ hφ.ge
    refine ⟨evs, ?_, ?_⟩
    · simp only [Appr.pauli, gf, py_bind_ok, g]
    · rintro rfl l hl
      obtain ⟨e1, e2⟩ := hcur l hl
      rw [e1, e2]
      simp [Vec.zeros]

theorem Kind.works (k : Kind) (lib : NumLib) (E : Nat → ℝ) (L : Leads) :
    Works v (k.ap lib E L) (k.size v) := by
  cases k with
  | pauli => exact works_pauli h E L
  | lindblad => exact works_lindblad h E L
  | vn1 => exact works_vn1 h lib E L
  | redfield => exact works_redfield h lib E L

theorem phi0Norm_ok {n : Nat} (hn : v.npauli ≤ n) {φ : Vec} (hφ : φ.size = n) :
    v.phi0Norm φ = .ok (∑ j ∈ range v.npauli, φ.val j) := by
  have inner : ∀ (c : Nat) (l : List Nat) (s : ℝ), (∀ b ∈ l, b ∈ v.row c) →
      l.foldlM (fun s b => do
        let bb ← v.ind0 b b c
        let x ← φ.get bb
        pure (s + x)) s = (.ok (s + (l.map fun b => φ.val (la.lab c b b)).sum) : Py ℝ) := by
    intro c l
    induction l with
    | nil => intro s _; simp
    | cons b l ih =>
      intro s hl
      have hb := hl b (by simp)
      have hlb := h.lab_diag c b hb
      rw [List.foldlM_cons, h.ind0_inc hb hb (h.inc_diag c b hb)]
      simp only [py_bind_ok, Vec.get]
      rw [pyIdx_nat (by omega)]
      refine (ih (s + φ.val (la.lab c b b)) fun b' hb' => hl b' (by simp [hb'])).trans ?_
      rw [List.map_cons, List.sum_cons, add_assoc]
  have outer : ∀ (cs : List Nat) (s : ℝ), (∀ c ∈ cs, c < v.ncharge) →
      cs.foldlM (fun s (c : Nat) => do
        let l ← v.states c
        l.foldlM (fun s b => do
          let bb ← v.ind0 b b c
          let x ← φ.get bb
          pure (s + x)) s) s
        = (.ok (s + (cs.map fun c => ((v.row c).map fun b => φ.val (la.lab c b b)).sum).sum)
          : Py ℝ) := by
    intro cs
    induction cs with
    | nil => intro s _; simp
    | cons c cs ih =>
      intro s hcs
      have hc := hcs c (by simp)
      rw [List.foldlM_cons, h.states (by omega)]
      simp only [py_bind_ok]
      rw [inner c (v.row c) s fun b hb => hb]
      refine (ih _ fun c' hc' => hcs c' (by simp [hc'])).trans ?_
      rw [List.map_cons, List.sum_cons, add_assoc]
  unfold View.phi0Norm
  rw [outer _ _ fun c hc => List.mem_range.1 hc, zero_add, sum_pop h]
  congr 1
  refine Eq.trans (b := ∑ q ∈ range v.ncharge, ((v.row q).map fun b => φ.val (la.lab q b b)).sum)
    rfl ?_
  refine sum_congr rfl fun q _ => ?_
  rw [View.R, List.sum_toFinset _ (h.nodup q)]

end

end

end Verif
