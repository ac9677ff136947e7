import Verif.Lemmas.CompiledRTDRun

/-! The parallel loops of the compiled `generate_kern` of the RTD approach give the Python matrices. -/

namespace Verif

open Finset

noncomputable section

namespace CRTD

open RTD (Name Call In Ev evs evsD shapes atOf valD group1 groupE AllCoherences)

variable {kh : CKH} {s : In} {la : Lab}

/-! ### The updates of the calls -/

section
variable (k : Link kh s.v) (h : VOk s.v la)

/-- What is needed of a call: its updates are those of the Python version, and they are at `P`. -/
structure Upd (kh : CKH) (v : View) (t : Nat) (P : Ev → Prop) (Q : Nat → Prop) (c : Call) : Prop where
  writes : writes kh t c = .ok (wr v t c)
  at_ : ∀ e ∈ evsD v (shapes v) c, P e
  lnn : ∀ p ∈ lnnD v c, Q p.1

theorem upd_im {t : Nat} {P : Ev → Prop} {Q : Nat → Prop} : Upd kh s.v t P Q .imGamma :=
  ⟨rfl, by simp [evsD, evs], by simp [lnnD]⟩

theorem upd_dd {mi : Name} (hmi : mi = .Wdd ∨ mi = .WE1 ∨ mi = .WE2) {l i j : Nat} (hl : l < s.v.nleads)
    (hi : i < s.v.npauli) (hj : j < s.v.npauli) (x y : ℝ) {Q : Nat → Prop} :
    Upd kh s.v 0 (fun e => e.n = mi ∧ e.r = i) Q (.dd l x y (i : Nat) (j : Nat) mi) := by
  have hs : shapes s.v mi = (s.v.nleads, s.v.npauli, s.v.npauli) := by
    rcases hmi with rfl | rfl | rfl <;> rfl
  have he : evs s.v (shapes s.v) (.dd l x y (i : Nat) (j : Nat) mi)
      = .ok [⟨mi, l, i, i, x⟩, ⟨mi, l, i, j, y⟩] := by
    simp only [evs]
    rw [RTD.resolve_ok (by rw [hs]; exact hl) (by rw [hs]; exact hi) (by rw [hs]; exact hi),
      RTD.resolve_ok (by rw [hs]; exact hl) (by rw [hs]; exact hi) (by rw [hs]; exact hj)]
    rfl
  refine ⟨?_, ?_, by simp [lnnD]⟩
  · simp only [wr, evsD, he, lnnD]
    rcases hmi with rfl | rfl | rfl <;> rfl
  · simp only [evsD, he, List.mem_cons, List.not_mem_nil, or_false]
    rintro e (rfl | rfl) <;> exact ⟨rfl, rfl⟩

include h k in
theorem upd_two (t : Nat) {r : Nat} (hr : r < s.v.nleads) (f : ℝ) {i0 i1 : Nat} (h0 : i0 < s.v.npauli)
    (h1 : i1 < s.v.npauli) {a3 c3 a4 c4 : Nat} (h3 : a3 ∈ s.v.row c3) (h4 : a4 ∈ s.v.row c4) {Q : Nat → Prop} :
    Upd kh s.v t (fun e => e.n = .Wdd) Q (.two r f (i0 : Nat) (i1 : Nat) a3 (c3 : Nat) a4 (c4 : Nat)) := by
  have he := RTD.evs_two h (sh := shapes s.v) rfl hr f h0 h1 h3 h4
  refine ⟨?_, ?_, by simp [lnnD]⟩
  · simp only [wr, evsD, he, lnnD, writes]
    rw [k.ind0, k.ind0, ind0_diag h h3, ind0_diag h h4]
    rfl
  · simp only [evsD, he, List.mem_cons, List.not_mem_nil, or_false]
    rintro e (rfl | rfl | rfl | rfl) <;> rfl

include k in
theorem offPos_eq (b bp c : Nat) : offPos kh b bp (c : Int) = RTD.offPos s.v b bp (c : Int) := by
  unfold offPos RTD.offPos
  rw [k.ind0, k.npauli, k.ndm0]

include h k in
theorem upd_nd {mi : Name} (hmi : mi = .ReWnd ∨ mi = .ImWnd) {l : Nat} (hl : l < s.v.nleads) (x : ℝ)
    {a2 b2 c a q p : Nat} (hp : p < 2 * s.v.ndm0 - 2 * s.v.npauli) (e : RTD.offPos s.v a2 b2 (c : Int) = .ok (p : Int))
    (ha : a ∈ s.v.row q) {Q : Nat → Prop} :
    Upd kh s.v 0 (fun e => e.n = mi ∧ e.c = la.lab q a a) Q (.elem x l a2 b2 (c : Nat) a a (q : Nat) mi) := by
  have hs : shapes s.v mi = (s.v.nleads, 2 * s.v.ndm0 - 2 * s.v.npauli, s.v.npauli) := by
    rcases hmi with rfl | rfl <;> rfl
  have l1 := h.lab_diag q a ha
  have he : evs s.v (shapes s.v) (.elem x l a2 b2 (c : Nat) a a (q : Nat) mi)
      = .ok [⟨mi, l, p, la.lab q a a, x⟩] := by
    simp only [evs]
    rw [e, RTD.offPos_diag h ha]
    simp only [py_bind_ok]
    rw [RTD.resolve_ok (by rw [hs]; exact hl) (by rw [hs]; exact hp) (by rw [hs]; exact l1)]
    rfl
  refine ⟨?_, ?_, by simp [lnnD]⟩
  · simp only [wr, evsD, he, lnnD]
    rcases hmi with rfl | rfl
    all_goals
      simp only [writes, addElem]
      rw [offPos_eq k, offPos_eq k, e, RTD.offPos_diag h ha]
      rfl
  · simp only [evsD, he, List.mem_singleton]
    rintro e rfl
    exact ⟨rfl, rfl⟩

include h k in
theorem upd_dn {mi : Name} (hmi : mi = .ReWdn ∨ mi = .ImWdn) {l : Nat} (hl : l < s.v.nleads) (x : ℝ)
    {a b q a2 c p : Nat} (hp : p < 2 * s.v.ndm0 - 2 * s.v.npauli) (e : RTD.offPos s.v a b (q : Int) = .ok (p : Int))
    (ha : a2 ∈ s.v.row c) {Q : Nat → Prop} :
    Upd kh s.v 0 (fun e => e.n = mi ∧ e.c = p) Q (.elem x l a2 a2 (c : Nat) a b (q : Nat) mi) := by
  have hs : shapes s.v mi = (s.v.nleads, s.v.npauli, 2 * s.v.ndm0 - 2 * s.v.npauli) := by
    rcases hmi with rfl | rfl <;> rfl
  have l1 := h.lab_diag c a2 ha
  have he : evs s.v (shapes s.v) (.elem x l a2 a2 (c : Nat) a b (q : Nat) mi)
      = .ok [⟨mi, l, la.lab c a2 a2, p, x⟩] := by
    simp only [evs]
    rw [e, RTD.offPos_diag h ha]
    simp only [py_bind_ok]
    rw [RTD.resolve_ok (by rw [hs]; exact hl) (by rw [hs]; exact l1) (by rw [hs]; exact hp)]
    rfl
  refine ⟨?_, ?_, by simp [lnnD]⟩
  · simp only [wr, evsD, he, lnnD]
    rcases hmi with rfl | rfl
    all_goals
      simp only [writes, addElem]
      rw [offPos_eq k, offPos_eq k, e, RTD.offPos_diag h ha]
      rfl
  · simp only [evsD, he, List.mem_singleton]
    rintro e rfl
    exact ⟨rfl, rfl⟩

include k in
theorem upd_lnn {a b q p : Nat} (f : ℝ) (e : RTD.offPos s.v a b (q : Int) = .ok (p : Int)) {P : Ev → Prop} :
    Upd kh s.v 0 P (fun r => r = p) (.lnn a b (q : Nat) f) := by
  refine ⟨?_, by simp [evsD, evs], ?_⟩
  · simp only [wr, evsD, evs, lnnD, writes]
    rw [offPos_eq k, e]
    rfl
  · simp [lnnD, e]

theorem Upd.mono {t : Nat} {P P' : Ev → Prop} {Q Q' : Nat → Prop} {c : Call} (u : Upd kh s.v t P Q c)
    (hP : ∀ e, P e → P' e) (hQ : ∀ p, Q p → Q' p) : Upd kh s.v t P' Q' c :=
  ⟨u.writes, fun e he => hP e (u.at_ e he), fun p hp => hQ _ (u.lnn p hp)⟩

end

/-! ### The calls of the loops -/

/-- The calls of an iteration of the first loop. -/
def c1 (s : In) (b c : Nat) : List Call := valD (RTD.col2 s b c)

/-- The calls of an iteration of the second loop. -/
def c2 (s : In) (la : Lab) (fct : Nat → Nat → ℝ × ℝ) (off : Bool) (b c : Nat) : List Call :=
  group1 s.v la fct c b ++ groupE s.v la (RTD.energy1 s) c b ++ groupE s.v la (RTD.energy2 s) c b ++
    valD (RTD.nd s off b c)

/-- The calls of an iteration of the third loop. -/
def c3 (s : In) (c : Nat) : List Call := (s.v.row c).flatMap fun b => (s.v.row c).flatMap fun bp =>
  if b = bp then [] else valD (RTD.colDn s b bp c) ++ RTD.rowL s b bp c

/-- Where the updates of the second loop are. -/
def At2 (p : Nat) (e : Ev) : Prop :=
  ((e.n = .Wdd ∨ e.n = .WE1 ∨ e.n = .WE2) ∧ e.r = p) ∨ ((e.n = .ReWnd ∨ e.n = .ImWnd) ∧ e.c = p)

/-- The places of the coherences of one charge. -/
def Off (v : View) (c p : Nat) : Prop :=
  ∃ a b, a ∈ v.row c ∧ b ∈ v.row c ∧ a ≠ b ∧ RTD.offPos v a b (c : Int) = .ok (p : Int) ∧
    p < 2 * v.ndm0 - 2 * v.npauli

/-- Where the updates of the third loop are. -/
def At3 (v : View) (c : Nat) (e : Ev) : Prop := (e.n = .ReWdn ∨ e.n = .ImWdn) ∧ Off v c e.c

section
variable (k : Link kh s.v) (h : VOk s.v la)
include k h

theorem upd1 {b q : Nat} (hb : b ∈ s.v.row q) (hk : RTD.col2 s b q = .ok (valD (RTD.col2 s b q))) (t : Nat) :
    ∀ x ∈ c1 s b q, Upd kh s.v t (fun e => e.n = .Wdd) (fun _ => False) x := by
  intro x hx
  obtain ⟨r, f, a1, a3, c3, a4, c4, rfl, hr, _, ha1, ha3, ha4, _⟩ :=
    RTD.TwoOk.nat h hb (RTD.col2_calls (RTD.view_mem h hb) hk x hx)
  exact upd_two k h t hr f (h.lab_diag _ _ hb) (h.lab_diag _ _ ha1) ha3 ha4

omit k in
theorem groupE_mem {e : Nat → Nat → Int → Int → Nat → List Call} {P : Call → Prop} {c b : Nat}
    (hb : b ∈ s.v.row c)
    (he : ∀ c' a' l x y, a' ∈ s.v.row c' → l < s.v.nleads →
      ∀ k ∈ e x y (la.lab c b b : Nat) (la.lab c' a' a' : Nat) l, P k) :
    ∀ k ∈ groupE s.v la e c b, P k := by
  intro k hk
  rcases List.mem_append.1 hk with hk | hk
  · obtain ⟨a, ha, hk⟩ := List.mem_flatMap.1 hk
    obtain ⟨l, hl, hk⟩ := List.mem_flatMap.1 hk
    obtain ⟨_, ha', _⟩ := h.low_mem ha
    exact he (c - 1) a l _ _ ha' (List.mem_range.1 hl) k hk
  · obtain ⟨a, ha, hk⟩ := List.mem_flatMap.1 hk
    obtain ⟨l, hl, hk⟩ := List.mem_flatMap.1 hk
    exact he (c + 1) a l _ _ ha (List.mem_range.1 hl) k hk

theorem upd2 (fct : Nat → Nat → ℝ × ℝ) {off : Bool} (hall : off = true → AllCoherences s.v la) {b q : Nat}
    (hb : b ∈ s.v.row q) (hk : RTD.nd s off b q = .ok (valD (RTD.nd s off b q))) :
    ∀ x ∈ c2 s la fct off b q, Upd kh s.v 0 (At2 (la.lab q b b)) (fun _ => False) x := by
  have hq := h.row_lt hb
  have lb := h.lab_diag q b hb
  have dd : ∀ {mi : Name}, (mi = .Wdd ∨ mi = .WE1 ∨ mi = .WE2) → ∀ {c a l : Nat} (x y : ℝ), a ∈ s.v.row c →
      l < s.v.nleads → Upd kh s.v 0 (At2 (la.lab q b b)) (fun _ => False)
        (.dd l x y (la.lab q b b : Nat) (la.lab c a a : Nat) mi) := by
    intro mi hmi c a l x y ha hl
    refine (upd_dd hmi hl lb (h.lab_diag c a ha) x y).mono ?_ (fun _ h => h)
    rintro e ⟨rfl, hr⟩
    exact Or.inl ⟨hmi, hr⟩
  intro x hx
  simp only [c2, List.mem_append] at hx
  rcases hx with ((hx | hx) | hx) | hx
  · simp only [group1, List.mem_append, List.mem_flatMap, List.mem_singleton] at hx
    rcases hx with ⟨a, ha, l, hl, rfl⟩ | ⟨a, ha, l, hl, rfl⟩
    · exact dd (Or.inl rfl) _ _ (h.low_mem ha).2.1 (List.mem_range.1 hl)
    · exact dd (Or.inl rfl) _ _ ha (List.mem_range.1 hl)
  · refine groupE_mem h (P := fun x => Upd kh s.v 0 (At2 (la.lab q b b)) (fun _ => False) x) hb ?_ x hx
    intro c' a' l x y ha' hl z hz
    simp only [RTD.energy1, List.mem_append, List.mem_singleton] at hz
    rcases hz with hz | rfl
    · split at hz
      · simp only [List.mem_singleton] at hz; subst hz; exact upd_im
      · simp at hz
    · exact dd (Or.inr (Or.inl rfl)) _ _ ha' hl
  · refine groupE_mem h (P := fun x => Upd kh s.v 0 (At2 (la.lab q b b)) (fun _ => False) x) hb ?_ x hx
    intro c' a' l x y ha' hl z hz
    simp only [RTD.energy2, List.mem_append, List.mem_singleton, List.mem_flatMap] at hz
    rcases hz with ⟨_, _, hz⟩ | rfl
    · split at hz
      · simp only [List.mem_singleton] at hz; subst hz; exact upd_im
      · simp at hz
    · exact dd (Or.inr (Or.inr rfl)) _ _ ha' hl
  · rcases off with _ | _
    · simp [RTD.nd, valD] at hx
    · unfold RTD.nd at hk hx
      simp only [if_true] at hk hx
      obtain ⟨x, l, a2, b2, q2, mi, rfl, hmi, hl, hne, ⟨r, hr, m1, m2⟩, b1, b3⟩ := RTD.colNd_calls hk x hx
      obtain ⟨c, rfl, ha2⟩ := RTD.mem_inv h ⟨r, hr, m1⟩ (by omega) (by omega)
      obtain ⟨c', e, hb2⟩ := RTD.mem_inv h ⟨r, hr, m2⟩ (by omega) (by omega)
      have : c' = c := by omega
      subst this
      obtain ⟨p, hp, e⟩ := RTD.offPos_ok h (hall rfl) ha2 hb2 hne
      refine (upd_nd k h hmi hl x hp e hb).mono ?_ (fun _ h => h)
      rintro e ⟨rfl, hr⟩
      exact Or.inr ⟨hmi, hr⟩

theorem upd3 (hall : AllCoherences s.v la)
    (hk : ∀ q b bp, b ∈ s.v.row q → bp ∈ s.v.row q → b ≠ bp →
      RTD.colDn s b bp q = .ok (valD (RTD.colDn s b bp q))) (q : Nat) :
    ∀ x ∈ c3 s q, Upd kh s.v 0 (At3 s.v q) (Off s.v q) x ∧
      LnnAt s.v (2 * s.v.ndm0 - 2 * s.v.npauli) x ∧ x ≠ .imGamma := by
  intro x hx
  obtain ⟨b, hb, hx⟩ := List.mem_flatMap.1 hx
  obtain ⟨bp, hbp, hx⟩ := List.mem_flatMap.1 hx
  have hq := h.row_lt hb
  split at hx
  · simp at hx
  · rename_i hne
    obtain ⟨p, hp, e⟩ := RTD.offPos_ok h hall hb hbp hne
    rcases List.mem_append.1 hx with hx | hx
    · obtain ⟨x, l, a2, q2, mi, rfl, hmi, hl, m2, b1, b2, _⟩ := RTD.colDn_calls (hk q b bp hb hbp hne) x hx
      obtain ⟨c, rfl, ha2⟩ := RTD.mem_inv h m2 (by omega) (by omega)
      refine ⟨(upd_dn k h hmi hl x hp e ha2 (Q := fun _ => False)).mono ?_ (fun _ h => h.elim), trivial, by simp⟩
      rintro e' ⟨rfl, rfl⟩
      exact ⟨hmi, b, bp, hb, hbp, hne, e, hp⟩
    · simp only [RTD.rowL, List.mem_singleton] at hx
      subst hx
      refine ⟨(upd_lnn k _ e (P := fun _ => False)).mono (fun _ h => h.elim) ?_, ⟨hne, p, hp, e⟩, by simp⟩
      rintro p' rfl
      exact ⟨b, bp, hb, hbp, hne, e, hp⟩

end

/-- The places of the coherences of different charges are different. -/
theorem off_charge (h : VOk s.v la) (hall : AllCoherences s.v la) {c c' p : Nat} (h1 : Off s.v c p)
    (h2 : Off s.v c' p) : c = c' := by
  obtain ⟨a, b, ha, hb, hne, e, hp⟩ := h1
  obtain ⟨a', b', ha', hb', hne', e', _⟩ := h2
  obtain ⟨l1, l2⟩ := h.lab_off c a b ha hb hne (hall c a b ha hb)
  obtain ⟨l1', l2'⟩ := h.lab_off c' a' b' ha' hb' hne' (hall c' a' b' ha' hb')
  unfold RTD.offPos at e e'
  rw [h.ind0 c a b ha hb, hall c a b ha hb] at e
  rw [h.ind0 c' a' b' ha' hb', hall c' a' b' ha' hb'] at e'
  simp only [py_bind_ok, if_true, py_pure, Except.ok.injEq] at e e'
  rw [if_pos hne] at e
  rw [if_pos hne'] at e'
  refine (h.lab_inj c a b c' a' b' ha hb (hall c a b ha hb) ha' hb' (hall c' a' b' ha' hb') ?_).1
  split at e <;> split at e' <;> omega

/-! ### The iterations -/

theorem collect_upd {t : Nat} {P : Ev → Prop} {Q : Nat → Prop} {v : View} {ks : List Call}
    (hu : ∀ x ∈ ks, Upd kh v t P Q x) : collect ks (writes kh t) = .ok (ks.flatMap (wr v t)) := by
  have := collect_ok (l := ks) (f := writes kh t) (g := wr v t) (fun x hx => (hu x hx).writes)
  simpa using this

/-- The state of the iteration `i` of the loops over the diagonal elements. -/
def tr (v : View) (la : Lab) (i : Nat) : Trip := (elemsD v la.can).getD i (0, 0, 0)

section
variable (h : VOk s.v la)
include h

theorem tr_get {i : Nat} (hi : i < s.v.npauli) : ∃ hi' : i < (elemsD s.v la.can).length,
    tr s.v la i = (elemsD s.v la.can)[i] := by
  have hi' : i < (elemsD s.v la.can).length := by rw [elemsD_length h.rep]; exact hi
  exact ⟨hi', by simp [tr, List.getD, hi']⟩

theorem tr_mem {i : Nat} (hi : i < s.v.npauli) : (tr s.v la i).1 ∈ s.v.row (tr s.v la i).2.2 ∧
    tr s.v la i ∈ elemsD s.v la.can := by
  obtain ⟨hi', e⟩ := tr_get h hi
  have hm : tr s.v la i ∈ elemsD s.v la.can := by rw [e]; exact List.getElem_mem hi'
  exact ⟨((elemsD_mem h.rep).1 hm).1, hm⟩

theorem tr_lab {i j : Nat} (hi : i < s.v.npauli) (hj : j < s.v.npauli)
    (e : la.lab (tr s.v la i).2.2 (tr s.v la i).1 (tr s.v la i).1
      = la.lab (tr s.v la j).2.2 (tr s.v la j).1 (tr s.v la j).1) : i = j := by
  obtain ⟨_, mi⟩ := tr_mem h hi
  obtain ⟨_, mj⟩ := tr_mem h hj
  have ei := ((elemsD_mem h.rep).1 mi).2.1
  have ej := ((elemsD_mem h.rep).1 mj).2.1
  have := elems_lab_inj h.rep (elemsD_sub h.rep mi) (elemsD_sub h.rep mj) (by rw [ei, ej]; exact e)
  obtain ⟨hi', e1⟩ := tr_get h hi
  obtain ⟨hj', e2⟩ := tr_get h hj
  rw [e1, e2] at this
  exact (List.Nodup.getElem_inj_iff (elemsD_nodup h.rep)).1 this

theorem tr_list : elemsD s.v la.can = (List.range s.v.npauli).map (tr s.v la) := by
  apply List.ext_getElem
  · rw [elemsD_length h.rep]; simp
  · intro i h1 h2
    rw [List.getElem_map, List.getElem_range]
    obtain ⟨_, e⟩ := tr_get h (i := i) (by rw [← elemsD_length h.rep]; exact h1)
    exact e.symm

/-- The calls of the first Python loop, in the order of the table of the handler. -/
theorem calls1_table {fct : Nat → Nat → ℝ × ℝ} {off : Bool} {k1 : List Call}
    (hk : RTD.calls1 s fct off = .ok k1) :
    k1 = (List.range s.v.npauli).flatMap fun i => RTD.one s la fct off (tr s.v la i).2.2 (tr s.v la i).1 := by
  rw [(RTD.calls1_inv h hk).2]
  have e := elemsD_flatMap (v := s.v) (uni := la.can) fun τ => RTD.one s la fct off τ.2.2 τ.1
  rw [tr_list h, List.flatMap_map] at e
  rw [e]
  apply List.flatMap_congr
  intro c _
  apply List.flatMap_congr
  intro b hb
  rw [h.can_diag c b hb]
  rfl

/-- What the calls of the first Python loop add. -/
theorem calls1_total {fct : Nat → Nat → ℝ × ℝ} {off : Bool} {k1 : List Call}
    (hk : RTD.calls1 s fct off = .ok k1) (g : Call → ℝ) :
    (k1.map g).sum = ∑ i ∈ range s.v.npauli, (((c1 s (tr s.v la i).1 (tr s.v la i).2.2).map g).sum +
      ((c2 s la fct off (tr s.v la i).1 (tr s.v la i).2.2).map g).sum) := by
  rw [calls1_table h hk, sum_flatMap', sum_range_list]
  congr 1
  apply List.map_congr_left
  intro i _
  simp only [RTD.one, c1, c2, List.map_append, List.sum_append]
  ring

end

section
variable {poles : s.lib.Poles} (k : Link kh s.v) (h : VOk s.v la) (cm : Comparable s poles)
  (hT : kh.allBbp = elemsD s.v la.can)
include k h cm hT

theorem iter1_ok (hk : ∀ q b, b ∈ s.v.row q → RTD.col2 s b q = .ok (valD (RTD.col2 s b q))) (t : Nat) {i : Nat}
    (hi : i < s.v.npauli) : iter1 kh s poles t i
      = .ok ((c1 s (tr s.v la i).1 (tr s.v la i).2.2).flatMap (wr s.v t)) := by
  obtain ⟨hi', e⟩ := tr_get h hi
  obtain ⟨hb, _⟩ := tr_mem h hi
  unfold iter1
  rw [hT, cGet_nat _ hi', ← e]
  simp only [py_bind_ok]
  rw [col2_eq k h cm hb, hk _ _ hb]
  simp only [py_bind_ok]
  exact collect_upd (upd1 k h hb (hk _ _ hb) t)

theorem calls2_ok (fct : Nat → Nat → ℝ × ℝ) {off : Bool}
    (hk : ∀ q b, b ∈ s.v.row q → RTD.nd s off b q = .ok (valD (RTD.nd s off b q))) {i : Nat}
    (hi : i < s.v.npauli) : calls2 kh s fct off i = .ok (c2 s la fct off (tr s.v la i).1 (tr s.v la i).2.2) := by
  obtain ⟨hi', e⟩ := tr_get h hi
  obtain ⟨hb, _⟩ := tr_mem h hi
  unfold calls2
  rw [hT, cGet_nat _ hi', ← e]
  simp only [py_bind_ok]
  rw [row1_eq k h fct (h.row_lt hb), rowE1_eq k h cm hb, rowE2_eq k h cm hb, nd_eq k h off hb, RTD.row1_ok h fct hb,
    RTD.rowE1_ok h hb, RTD.rowE2_ok h hb, hk _ _ hb]
  rfl

theorem iter2_ok (fct : Nat → Nat → ℝ × ℝ) {off : Bool} (hall : off = true → AllCoherences s.v la)
    (hk : ∀ q b, b ∈ s.v.row q → RTD.nd s off b q = .ok (valD (RTD.nd s off b q))) {i : Nat}
    (hi : i < s.v.npauli) : iter2 kh s fct off i
      = .ok ((c2 s la fct off (tr s.v la i).1 (tr s.v la i).2.2).flatMap (wr s.v 0)) := by
  obtain ⟨hb, _⟩ := tr_mem h hi
  unfold iter2
  rw [calls2_ok k h cm hT fct hk hi]
  simp only [py_bind_ok]
  exact collect_upd (upd2 k h fct hall hb (hk _ _ hb))

omit cm hT in
theorem iter3_ok (hall : AllCoherences s.v la)
    (hk : ∀ q b bp, b ∈ s.v.row q → bp ∈ s.v.row q → b ≠ bp →
      RTD.colDn s b bp q = .ok (valD (RTD.colDn s b bp q))) {c : Nat} (hc : c < s.v.ncharge) :
    iter3 kh s c = .ok ((c3 s c).flatMap (wr s.v 0)) := by
  unfold iter3
  rw [k.same c hc]
  simp only [py_bind_ok]
  have e : (collect (s.v.row c) fun b => collect (s.v.row c) fun bp =>
      if b = bp then pure [] else do
        let k1 ← colDn kh s b bp (c : Nat)
        pure (k1 ++ rowL s b bp (c : Nat))) = .ok (c3 s c) := by
    have := collect_ok (l := s.v.row c) (f := fun b => collect (s.v.row c) fun bp =>
      if b = bp then pure [] else do
        let k1 ← colDn kh s b bp (c : Nat)
        pure (k1 ++ rowL s b bp (c : Nat))) (g := fun b => (s.v.row c).flatMap fun bp =>
        if b = bp then [] else valD (RTD.colDn s b bp c) ++ RTD.rowL s b bp c) ?_
    · simpa [c3] using this
    · intro b hb
      have := collect_ok (l := s.v.row c) (f := fun bp =>
        if b = bp then pure [] else do
          let k1 ← colDn kh s b bp (c : Nat)
          pure (k1 ++ rowL s b bp (c : Nat))) (g := fun bp =>
          if b = bp then [] else valD (RTD.colDn s b bp c) ++ RTD.rowL s b bp c) ?_
      · simpa using this
      · intro bp hbp
        by_cases hne : b = bp
        · rw [if_pos hne, if_pos hne]; rfl
        · rw [if_neg hne, if_neg hne, colDn_eq k h hb, hk c b bp hb hbp hne]
          rfl
  rw [e]
  simp only [py_bind_ok]
  exact collect_upd (fun x hx => (upd3 k h hall hk c x hx).1)

end

end CRTD

end

end Verif
