import Verif.Props.View
import Verif.Spec.PhLabels
import Verif.Model.ElPhSI
import Verif.Lemmas.Params

/-! The indexing object `si_elph` of `BuilderElPh` against `si` (C58). -/

namespace Verif

/-- The labels of `si_elph`. -/
def DM.elOf (d : DM) (c b a : Nat) : Option Nat :=
  if okD (-1) (d.getIndDm0 b a c) = -1 then none else some (okD (-1) (d.getIndDm0 b a c)).toNat

/-- Two objects that consider the same states. -/
theorem phOk_of {n nl nl' : Nat} {ix ix' : String} {d de : DM} {S S' : List (List Nat)}
    (h : Reach .dm n ix d S) (he : Reach .dmc n ix' de S') (hix : d.si.indexing ≠ .ssq)
    (hS : S.length = n + 1) (hrow : ∀ c, c < n + 1 → rowOf S' c = rowOf S c)
    (hsame : de.si.indexing = d.si.indexing) (hst : ∀ b : Nat, de.si.getState b = d.si.getState b) :
    PhOk (d.view nl) (de.view nl') d.labOf de.elOf := by
  obtain ⟨hi, hk, _⟩ := h.inv
  obtain ⟨hie, hke, _⟩ := he.inv
  have L := (hi.lab hix).dm hk
  have Le := (hie.lab (by rw [hsame]; exact hix)).dmc hke
  have hsz : szOf n de.si = szOf n d.si := by
    funext b; simp only [szOf, hst]
  rw [hsame, hsz] at Le
  have hnc : d.si.ncharge = n + 1 := hi.shape.ncharge
  have hnce : de.si.ncharge = n + 1 := hie.shape.ncharge
  have hsdm : d.statesdm = S ++ [[]] := hi.sdm
  have hr : ∀ c, (d.view nl).row c = rowOf S c := by
    intro c
    simp only [View.row, DM.view, hsdm]
    exact rowOf_pad S 1 c
  have hlt : ∀ {c b}, b ∈ rowOf S c → c < n + 1 := by
    intro c b hb
    by_contra hc
    rw [rowOf, List.getElem?_eq_none (by omega)] at hb
    simp at hb
  set incl := inclOf d.si.indexing (szOf n d.si) with hincl
  have hrow' : ∀ {c b}, b ∈ rowOf S c → b ∈ rowOf S' c := by
    intro c b hb; rw [hrow c (hlt hb)]; exact hb
  have cs : ∀ {c b a}, b ∈ rowOf S c → a ∈ rowOf S c →
      (b = a ∧ de.getIndDm0 b a c = .ok (posP S' c b : Int) ∧ de.getBoolDm0 b a c = .ok true ∧
        posP S' c b < de.npauli) ∨
      (b ≠ a ∧ incl b a = true ∧ ∃ k : Nat, de.npauli ≤ k ∧ k < de.ndm0 ∧
        de.getIndDm0 b a c = .ok (k : Int) ∧ de.getBoolDm0 b a c = .ok true) ∨
      (b ≠ a ∧ incl b a = false ∧ de.getIndDm0 b a c = .ok (-1) ∧
        de.getBoolDm0 b a c = .ok false) := by
    intro c b a hb ha
    by_cases e : b = a
    · subst e
      obtain ⟨a1, a2, _⟩ := Le.diag c b (hlt hb) (hrow' hb)
      exact Or.inl ⟨rfl, a1, a2, by rw [Le.npauli]; exact posP_lt (hlt hb) (hrow' hb)⟩
    · right
      by_cases hin : incl b a = true
      · left
        obtain ⟨k, a1, a2, a3, a4, _⟩ := Le.off c b a (hlt hb) (hrow' hb) (hrow' ha) e hin
        exact ⟨e, hin, k, a1, a2, a3, a4⟩
      · right
        have hin' : incl b a = false := by simpa using hin
        obtain ⟨a1, a2⟩ := Le.excl c b a (hlt hb) (hrow' hb) (hrow' ha) e hin'
        exact ⟨e, hin', a1, a2⟩
  have hne1 : ∀ k : Nat, ((k : Int) = -1) = False := by intro k; simp
  have hel : ∀ {c b a}, b ∈ rowOf S c → a ∈ rowOf S c →
      (de.elOf c b a).isSome = (decide (b = a) || incl b a) := by
    intro c b a hb ha
    rcases cs hb ha with ⟨e, h1, _⟩ | ⟨e, hin, k, _, _, h1, _⟩ | ⟨e, hin, h1, _⟩
    · subst e; simp [DM.elOf, okD, h1, hne1]
    · simp [DM.elOf, okD, h1, hne1, hin]
    · simp [DM.elOf, okD, h1, hin, e]
  have hincsymm : ∀ b a, incl b a = incl a b := fun b a => by rw [hincl, inclOf_symm]
  have htrans : ∀ b x y, incl x y = true → incl b x = incl b y := by
    intro b x y
    simp only [hincl, inclOf]
    split
    · simp only [decide_eq_true_eq]; intro e; rw [e]
    · simp
  have hrefl : ∀ b, incl b b = true := by
    intro b; simp only [hincl, inclOf]; split <;> simp
  constructor
  · simp [DM.view, hnc, hnce]
  · intro c hc
    simp only [DM.view, hnc] at hc
    rw [hr, ← hrow c hc]
    exact hie.rows c hc
  · intro c b a hb ha
    rw [hr] at hb ha
    rcases cs hb ha with ⟨e, h1, _⟩ | ⟨e, hin, k, _, _, h1, _⟩ | ⟨e, hin, h1, _⟩
    · simp [DM.view, DM.elOf, okD, h1, hne1]
    · simp [DM.view, DM.elOf, okD, h1, hne1]
    · simp [DM.view, DM.elOf, okD, h1]
  · intro c b a hb ha
    rw [hr] at hb ha
    rcases cs hb ha with ⟨e, h1, h2, _⟩ | ⟨e, hin, k, _, _, h1, h2⟩ | ⟨e, hin, h1, h2⟩
    · simp [DM.view, DM.elOf, okD, h1, h2, hne1]
    · simp [DM.view, DM.elOf, okD, h1, h2, hne1]
    · simp [DM.view, DM.elOf, okD, h1, h2]
  · intro c b a k hb ha hs
    rw [hr] at hb ha
    simp only [DM.view]
    have := Le.le
    rcases cs hb ha with ⟨e, h1, h2, h3⟩ | ⟨e, hin, k', _, h3, h1, h2⟩ | ⟨e, hin, h1, h2⟩
    · simp only [DM.elOf, okD, h1, hne1, if_false, Option.some.injEq, Int.toNat_natCast] at hs
      omega
    · simp only [DM.elOf, okD, h1, hne1, if_false, Option.some.injEq, Int.toNat_natCast] at hs
      omega
    · simp [DM.elOf, okD, h1] at hs
  · intro c b a c' b' a' k hb ha hb' ha' hs hs'
    rw [hr] at hb ha hb' ha'
    rcases cs hb ha with ⟨e, h1, h2, h3⟩ | ⟨e, hin, k1, g1, h3, h1, h2⟩ | ⟨e, hin, h1, h2⟩
    · simp only [DM.elOf, okD, h1, hne1, if_false, Option.some.injEq, Int.toNat_natCast] at hs
      rcases cs hb' ha' with ⟨e', h1', h2', h3'⟩ | ⟨e', hin', k1', g1', h3', h1', h2'⟩ |
        ⟨e', hin', h1', h2'⟩
      · simp only [DM.elOf, okD, h1', hne1, if_false, Option.some.injEq, Int.toNat_natCast] at hs'
        obtain ⟨r1, r2⟩ := posP_inj (hrow' hb) (hrow' hb') (hs.trans hs'.symm)
        exact ⟨r1, r2, by rw [← e, ← e', r2]⟩
      · simp only [DM.elOf, okD, h1', hne1, if_false, Option.some.injEq, Int.toNat_natCast] at hs'
        omega
      · simp [DM.elOf, okD, h1'] at hs'
    · simp only [DM.elOf, okD, h1, hne1, if_false, Option.some.injEq, Int.toNat_natCast] at hs
      rcases cs hb' ha' with ⟨e', h1', h2', h3'⟩ | ⟨e', hin', k1', g1', h3', h1', h2'⟩ |
        ⟨e', hin', h1', h2'⟩
      · simp only [DM.elOf, okD, h1', hne1, if_false, Option.some.injEq, Int.toNat_natCast] at hs'
        omega
      · simp only [DM.elOf, okD, h1', hne1, if_false, Option.some.injEq, Int.toNat_natCast] at hs'
        exact Le.inj c b a c' b' a' (hlt hb) (hrow' hb) (hrow' ha) e hin (hlt hb') (hrow' hb')
          (hrow' ha') e' hin' (by rw [h1, h1', hs, hs'])
      · simp [DM.elOf, okD, h1'] at hs'
    · simp [DM.elOf, okD, h1] at hs
  · intro c b hb
    rw [hr] at hb
    rw [hel hb hb]; simp
  · intro c b a hb ha
    rw [hr] at hb ha
    rw [hel hb ha, hel ha hb, hincsymm a b]
    congr 1
    simp only [decide_eq_decide]; exact eq_comm
  · intro c b x y hb hx hy hinc
    rw [hr] at hb hx hy
    have hxy : incl x y = true := by
      by_cases e : x = y
      · rw [e]; exact hrefl y
      · by_contra hin
        have := (L.excl c x y (hlt hx) hx hy e (by simpa using hin)).1
        simp [DM.labOf, this, okD] at hinc
    have h2 : ∀ z, (decide (b = z) || incl b z) = incl b z := by
      intro z
      by_cases e : b = z
      · subst e; simp [hrefl]
      · simp [e]
    rw [hel hb hx, hel hb hy, h2, h2, htrans b x y hxy]

/-! ### Histories of the builder -/

theorem SIX.chargelst_len {n : Nat} {si : SI} (h : SIX n 0 si) (hix : si.indexing ≠ .ssq) :
    si.chargelst.length = n + 1 := by
  obtain ⟨s, hs, e⟩ := h
  have h1 : si.chargelst = s.chargelst := by rw [e]; simp
  have h2 : s.indexing = si.indexing := by rw [e]
  rw [h1]
  cases hx : s.indexing with
  | ssq => rw [h2] at hx; exact absurd hx hix
  | Lin => exact (hs.qn_charge (Or.inl hx)).1
  | charge => exact (hs.qn_charge (Or.inr hx)).1
  | sz =>
    rw [(hs.sz (Or.inl hx)).2.2.2.2.2, enumChargelst_length]
    simp [chL]

/-- The builder after its construction and any number of calls of `remove_states`,
`remove_fock_states` and `use_all_states`. The second argument is false between a call of
`use_all_states` and the next call of one of the other two. Restriction: `remove_fock_states`
with 'Lin' indexing is left out. -/
inductive ElPhReach (n : Nat) (indexing : String) : ElPhSI → Bool → Prop
  | init {s} : ElPhSI.init n indexing = .ok s → ElPhReach n indexing s true
  | states {s y S s'} : ElPhReach n indexing s y → Legal s.si.si S → S.length = n + 1 →
      s.call (.states S) = .ok s' → ElPhReach n indexing s' true
  | fock {s y inds s'} : ElPhReach n indexing s y → s.si.si.indexing ≠ .Lin →
      (∀ i ∈ inds, -((2 ^ n : Nat) : Int) ≤ i ∧ i < ((2 ^ n : Nat) : Int)) →
      s.call (.fock inds) = .ok s' → ElPhReach n indexing s' true
  | all {s y s'} : ElPhReach n indexing s y → s.call .all = .ok s' → ElPhReach n indexing s' false

/-- The invariant. -/
structure ElPhInv (n : Nat) (ix : String) (s : ElPhSI) (y : Bool) : Prop where
  ex : ∃ d k S S' ix', s.si = { d with statesdm := d.statesdm ++ List.replicate k [] } ∧
    Reach .dm n ix d S ∧ Reach .dmc n ix' s.el S' ∧ S.length = n + 1 ∧
    (y = true → ∀ c, c < n + 1 → rowOf S' c = rowOf S c)
  si : ∃ X z, s.el.si = { s.si.si with chargelst := X, statesChanged := z }

theorem chooseIndexing_name (n : Nat) (ix : String) :
    chooseIndexing n (chooseIndexing n ix).name = chooseIndexing n ix := by
  unfold chooseIndexing
  split
  · simp [Indexing.name]
  · split
    · rename_i h; simp [Indexing.name, h.2]
    · split
      · rename_i h; simp [Indexing.name, h.2]
      · simp [Indexing.name]

theorem SI.init_congr {n : Nat} {ix ix' : String} (h : chooseIndexing n ix = chooseIndexing n ix') :
    SI.init n ix = SI.init n ix' := by
  unfold SI.init; rw [h]

theorem Reach.si_all {kind : DMKind} {n : Nat} {ix : String} {d d' : DM} {S : List (List Nat)}
    (h : Reach kind n ix d S) (hs : d.setStatesAll = .ok d') :
    ∃ k', d'.si = { d.si with chargelst := d.si.chargelst ++ List.replicate k' [],
                              statesChanged := true } := by
  obtain ⟨hi, _, _⟩ := h.inv
  obtain ⟨k, h1, h2⟩ := hi.si
  exact ((setStatesAll_inv h1 h2 hi.shape hi.tot0 hi.tot1).2 _ hs).2.2

theorem Reach.si_set {kind : DMKind} {n : Nat} {ix : String} {d d' : DM} {S S' : List (List Nat)}
    (h : Reach kind n ix d S) (hl : Legal d.si S') (hs : d.setStatesdm S' = .ok d') :
    d'.si = { d.si with statesChanged := true } := by
  obtain ⟨hi, _, _⟩ := h.inv
  obtain ⟨k, h1, h2⟩ := hi.si
  exact ((setStatesdm_inv h1 h2 hi.shape hl hi.tot0 hi.tot1).2 _ hs).2.2

/-- `si` after construction. -/
theorem init_si {kind : DMKind} {n : Nat} {ix : String} {d : DM} (hd : DM.init kind n ix = .ok d) :
    ∃ si k, SI.init n ix = .ok si ∧ SIX n 0 si ∧ si.indexing = chooseIndexing n ix ∧
      d.si = { si with chargelst := si.chargelst ++ List.replicate k [], statesChanged := true } := by
  obtain ⟨si, h1, hinv, hch, hr⟩ := init_inv n ix
  have hsix : SIX n 0 si := ⟨si, hinv, by simp⟩
  unfold DM.init at hd
  rw [h1] at hd
  simp only [py_bind_ok] at hd
  have hnm : si.nmany = 2 ^ n := by rw [hinv.nmany, hr]; simp
  obtain ⟨a1, a2⟩ := setStatesAll_inv (n := n) (k := 0)
    (d := DM.blank kind si n) hsix (fun _ => rfl)
    ⟨hinv.ncharge, by omega, by simp [DM.blank, hinv.ncharge], by simp [DM.blank, hinv.ncharge],
      by simp [DM.blank], by simp [DM.blank, hinv.ncharge], by simp [DM.blank, hinv.ncharge], by simp [DM.blank, hnm]⟩ rfl rfl
  obtain ⟨b1, b2, k', b3⟩ := a2 d hd
  exact ⟨si, k', h1, hsix, hch, b3⟩

theorem Reach.si_remove {kind : DMKind} {n : Nat} {ix : String} {d d' : DM} {S : List (List Nat)}
    {inds : List Int} (h : Reach kind n ix d S) (hx : d.si.indexing ≠ .ssq)
    (hl : d.si.indexing ≠ .Lin)
    (hin : ∀ i ∈ inds, -((2 ^ n : Nat) : Int) ≤ i ∧ i < ((2 ^ n : Nat) : Int))
    (hr : d.removeFockStates inds = .ok d') :
    ∃ si' k', d.si.removeFockStates inds = .ok si' ∧ SIX n 0 si' ∧ si'.indexing = d.si.indexing ∧
      d'.si = { si' with chargelst := si'.chargelst ++ List.replicate k' [],
                         statesChanged := true } := by
  obtain ⟨hi, hk, hix⟩ := h.inv
  obtain ⟨k, h1, h2⟩ := hi.si
  obtain ⟨si', b1, b2, b3, b4⟩ := h1.remove inds (fun h => absurd h hl) hin
  unfold DM.removeFockStates at hr
  rw [b1] at hr
  simp only [py_bind_ok] at hr
  have hsh : DMShape (n + 1) (2 ^ n) { d with si := si' } := by
    obtain ⟨a1, a2, a3, a4, a5, a6, a7, a8⟩ := hi.shape
    exact ⟨(b3 hx).inv.2.1, a2, a3, a4, a5, a6, a7, a8⟩
  obtain ⟨a1, a2, k'', a3⟩ := (setStatesAll_inv (d := { d with si := si' }) (b3 hx) (fun _ => rfl) hsh
    hi.tot0 hi.tot1).2 _ hr
  exact ⟨si', k'', b1, b3 hx, b2, a3⟩

theorem legal_congr {si si' : SI} {S S' : List (List Nat)} (h : Legal si S)
    (hnc : si'.ncharge = si.ncharge) (hnm : si'.nmany = si.nmany) (hl : S.length ≤ S'.length)
    (hr : ∀ c : Nat, S'[c]?.getD [] = S[c]?.getD []) : Legal si' S' := by
  obtain ⟨h1, h2, h3, h4⟩ := h
  constructor
  · omega
  · intro c hc; rw [hr]; exact h2 c (by omega)
  · intro c c' hc hc' hne x hx hx'
    rw [hr] at hx hx'
    exact h3 c c' (by omega) (by omega) hne x hx hx'
  · intro c hc x hx; rw [hr] at hx; rw [hnm]; exact h4 c (by omega) x hx

theorem ElPhReach.inv {n : Nat} {ix : String} {s : ElPhSI} {y : Bool} (h : ElPhReach n ix s y)
    (hix : chooseIndexing n ix ≠ .ssq) :
    ElPhInv n ix s y := by
  induction h with
  | @init s h =>
    unfold ElPhSI.init at h
    obtain ⟨d, hd, h⟩ := bind_iff.1 h
    obtain ⟨e, he, h⟩ := bind_iff.1 h
    cases h
    obtain ⟨si, k, a1, a2, a2', a3⟩ := init_si hd
    obtain ⟨si', k', b1, b2, b2', b3⟩ := init_si he
    have hname : d.si.indexing = chooseIndexing n ix := by rw [a3]; exact a2'
    rw [hname] at b1 b2' he
    rw [SI.init_congr (chooseIndexing_name n ix), a1] at b1
    cases b1
    refine ⟨⟨d, 0, _, _, _, by simp, Reach.init a1 hd, Reach.init (by
      rw [SI.init_congr (chooseIndexing_name n ix)]; exact a1) he, ?_, fun _ c _ => rfl⟩, ?_⟩
    · exact a2.chargelst_len (by rw [a2']; exact hix)
    · exact ⟨si.chargelst ++ List.replicate k' [], true, by rw [b3, a3]⟩
  | @states s y S s' _ hl hS hc ih =>
    obtain ⟨⟨d, k, S0, S0', ix', e1, r1, r2, _, _⟩, X, z, e2⟩ := ih
    simp only [ElPhSI.call] at hc
    obtain ⟨d1, hd1, hc⟩ := bind_iff.1 hc
    obtain ⟨de1, hde1, hc⟩ := bind_iff.1 hc
    cases hc
    have e3 : s.si.si = d.si := by rw [e1]
    have hd1' : d.setStatesdm S = .ok d1 := by rw [← hd1, e1]; rfl
    have R1 : Reach .dm n ix d1 S := Reach.set r1 (by rw [← e3]; exact hl) hd1'
    have hsd : d1.statesdm = S ++ [[]] := R1.inv.1.sdm
    have hl2 : Legal s.el.si d1.statesdm := by
      rw [hsd, e2]
      exact legal_congr hl rfl rfl (by simp) (fun c => rowOf_pad S 1 c)
    have R2 : Reach .dmc n ix' de1 d1.statesdm := Reach.set r2 hl2 hde1
    refine ⟨⟨d1, 1, S, d1.statesdm, ix', rfl, R1, R2, hS, fun _ c _ => ?_⟩, X, true, ?_⟩
    · rw [hsd]; exact rowOf_pad S 1 c
    · rw [r2.si_set hl2 hde1, r1.si_set (by rw [← e3]; exact hl) hd1', e2, e3]
  | @fock s y inds s' _ hlin hin hc ih =>
    obtain ⟨⟨d, k, S0, S0', ix', e1, r1, r2, _, _⟩, X, z, e2⟩ := ih
    simp only [ElPhSI.call] at hc
    obtain ⟨d1, hd1, hc⟩ := bind_iff.1 hc
    obtain ⟨de1, hde1, hc⟩ := bind_iff.1 hc
    cases hc
    have e3 : s.si.si = d.si := by rw [e1]
    have hx : d.si.indexing ≠ .ssq := by rw [r1.inv.2.2]; exact hix
    have hlin' : d.si.indexing ≠ .Lin := by rw [← e3]; exact hlin
    have hd1' : d.removeFockStates inds = .ok d1 := by rw [← hd1, e1]; rfl
    have hx2 : s.el.si.indexing = d.si.indexing := by rw [e2, ← e3]
    obtain ⟨si1, k1, a1, a2, a3, a4⟩ := r1.si_remove hx hlin' hin hd1'
    obtain ⟨si2, k2, b1, b2, b3, b4⟩ := r2.si_remove (by rw [hx2]; exact hx)
      (by rw [hx2]; exact hlin') hin hde1
    have hsi : si2 = si1 := by
      rw [e2, removeFock_congr _ _ _ _ (by rw [e3]; exact hx) (Or.inl hlin), e3, a1] at b1
      cases b1; rfl
    subst hsi
    refine ⟨⟨d1, 0, _, _, ix', by simp, Reach.remove r1 (fun h => absurd h hlin') hin a1 hd1',
      Reach.remove r2 (fun h => absurd (hx2 ▸ h) hlin') hin b1 hde1, ?_, fun _ c _ => rfl⟩, ?_⟩
    · exact a2.chargelst_len (by rw [a3]; exact hx)
    · exact ⟨si2.chargelst ++ List.replicate k2 [], true, by rw [b4, a4]⟩
  | @all s y s' _ hc ih =>
    obtain ⟨⟨d, k, S0, S0', ix', e1, r1, r2, _, _⟩, X, z, e2⟩ := ih
    simp only [ElPhSI.call] at hc
    obtain ⟨d1, hd1, hc⟩ := bind_iff.1 hc
    cases hc
    have e3 : s.si.si = d.si := by rw [e1]
    have hd1' : d.setStatesAll = .ok d1 := by rw [← hd1, e1]; rfl
    obtain ⟨k', a1⟩ := r1.si_all hd1'
    obtain ⟨hi, hk, _⟩ := r1.inv
    obtain ⟨k0, h1, h2⟩ := hi.si
    rw [h2 hk] at h1
    refine ⟨⟨d1, 0, _, S0', ix', by simp, Reach.all r1 hd1', r2, ?_, fun h => (nomatch h)⟩,
      X, z, ?_⟩
    · exact h1.chargelst_len (by rw [r1.inv.2.2]; exact hix)
    · rw [a1, e2, e3]

/-- Empty lists at the end of `statesdm` do not matter. -/
theorem VOk.pad {v v' : View} {la : Lab} (h : VOk v la)
    (e : v' = { v with statesdm := v'.statesdm }) (hl : v.statesdm.length ≤ v'.statesdm.length)
    (hr : ∀ c, v'.row c = v.row c) : VOk v' la := by
  rw [e]
  have hr' : ∀ c, ({ v with statesdm := v'.statesdm } : View).row c = v.row c := by
    rw [← e]; exact hr
  obtain ⟨⟨a1, a2, a3, a4, a5, a7, a8, a9, b1, b2, b4, b5, b6, b9, c1, c2, c3, c4⟩, a6, b3, b7,
    b8⟩ := h
  apply VOk.intro <;> simp only [hr'] <;> first | assumption | exact le_trans a1 hl

theorem PhOk.pad {v v' e : View} {la : Lab} {el : Nat → Nat → Nat → Option Nat}
    (h : PhOk v e la el) (he : v' = { v with statesdm := v'.statesdm })
    (hr : ∀ c, v'.row c = v.row c) : PhOk v' e la el := by
  rw [he]
  have hr' : ∀ c, ({ v with statesdm := v'.statesdm } : View).row c = v.row c := by
    rw [← he]; exact hr
  obtain ⟨a1, a2, a3, a4, a5, a6, a7, a8, a9⟩ := h
  constructor <;> simp only [hr'] <;> assumption

/-- **C58** (partial: `use_all_states` must have been followed by `remove_states` or
`remove_fock_states`; 'ssq' indexing and the removal of Fock states with 'Lin' indexing are left
out). The two indexing objects of the builder consider the same states, and the labels of
`si_elph` fit those of `si`: this is what the electron-phonon approaches rely on. -/
theorem c58_consistent_partial {n nl nl' : Nat} {ix : String} {s : ElPhSI}
    (h : ElPhReach n ix s true) (hix : chooseIndexing n ix ≠ .ssq) :
    (∀ c : Nat, c ≤ n → s.el.statesdm[c]? = s.si.statesdm[c]?) ∧
    VOk (s.si.view nl) s.si.labOf ∧
    PhOk (s.si.view nl) (s.el.view nl') s.si.labOf s.el.elOf := by
  obtain ⟨⟨d, k, S, S', ix', e1, r1, r2, hS, hrow⟩, X, z, e2⟩ := h.inv hix
  have hx : d.si.indexing ≠ .ssq := by rw [r1.inv.2.2]; exact hix
  have e3 : s.si.si = d.si := by rw [e1]
  have hsame : s.el.si.indexing = d.si.indexing := by rw [e2, e3]
  have hst : ∀ b : Nat, s.el.si.getState b = d.si.getState b := by
    intro b; rw [e2, e3]; rfl
  have hsdm : d.statesdm = S ++ [[]] := r1.inv.1.sdm
  have hsdm' : s.el.statesdm = S' ++ [[]] := r2.inv.1.sdm
  have hlen' : n + 1 ≤ S'.length := r2.inv.1.good.len
  have hrw : ∀ c, (s.si.view nl).row c = (d.view nl).row c := by
    intro c
    simp only [View.row, DM.view, e1]
    exact rowOf_pad _ k c
  have he : s.si.view nl = { d.view nl with statesdm := (s.si.view nl).statesdm } := by
    rw [e1]; rfl
  have hla : s.si.labOf = d.labOf := by rw [e1]; rfl
  refine ⟨?_, ?_, ?_⟩
  · intro c hc
    have := hrow rfl c (by omega)
    have h1 : (S' ++ [[]])[c]? = some (rowOf S' c) := by
      rw [List.getElem?_append_left (by omega), rowOf, List.getElem?_eq_getElem (by omega)]; rfl
    have h2 : (S ++ [[]] ++ List.replicate k [])[c]? = some (rowOf S c) := by
      rw [List.append_assoc, List.getElem?_append_left (by omega), rowOf,
        List.getElem?_eq_getElem (by omega)]; rfl
    rw [e1, hsdm']
    simp only [hsdm]
    rw [h1, h2, this]
  · rw [hla]
    exact (view_ok r1 hx hS).pad he (by rw [e1]; simp [DM.view]) hrw
  · rw [hla]
    exact (phOk_of r1 r2 hx hS (hrow rfl) hsame hst).pad he hrw

/-- **C58**: none of the calls fails. -/
theorem c58_total {n : Nat} {ix : String} (hix : chooseIndexing n ix ≠ .ssq) :
    (∃ s, ElPhSI.init n ix = .ok s) ∧
    ∀ s y, ElPhReach n ix s y →
      (∀ S, Legal s.si.si S → S.length = n + 1 → ∃ s', s.call (.states S) = .ok s') ∧
      (∀ inds : List Int, s.si.si.indexing ≠ .Lin →
        (∀ i ∈ inds, -((2 ^ n : Nat) : Int) ≤ i ∧ i < ((2 ^ n : Nat) : Int)) →
        ∃ s', s.call (.fock inds) = .ok s') ∧
      ∃ s', s.call .all = .ok s' := by
  have hssq : ∀ ix, chooseIndexing n ix ≠ .ssq → ¬ (ix = "ssq" ∧ n % 2 = 0) := by
    rintro ix h ⟨rfl, h2⟩
    exact h (by simp [chooseIndexing, h2])
  constructor
  · obtain ⟨d, hd⟩ := (init_dm_inv .dm n ix).1 (hssq ix hix)
    obtain ⟨si, k, a1, a2, a2', a3⟩ := init_si hd
    have hname : d.si.indexing = chooseIndexing n ix := by rw [a3]; exact a2'
    obtain ⟨e, he⟩ := (init_dm_inv .dmc n (chooseIndexing n ix).name).1
      (hssq _ (by rw [chooseIndexing_name]; exact hix))
    exact ⟨⟨d, e⟩, by simp [ElPhSI.init, hd, hname, he, py_bind_ok]⟩
  · intro s y h
    obtain ⟨⟨d, k, S0, S', ix', e1, r1, r2, _, _⟩, X, z, e2⟩ := h.inv hix
    have hx : d.si.indexing ≠ .ssq := by rw [r1.inv.2.2]; exact hix
    have e3 : s.si.si = d.si := by rw [e1]
    have hsame : s.el.si.indexing = d.si.indexing := by rw [e2, e3]
    have hx' : s.el.si.indexing ≠ .ssq := by rw [hsame]; exact hx
    refine ⟨?_, ?_, ?_⟩
    · intro S hl hS
      obtain ⟨d1, hd1⟩ := (r1.total hx).1 S (by rw [← e3]; exact hl)
      have hd1' : s.si.setStatesdm S = .ok d1 := by rw [← hd1, e1]; rfl
      have R1 : Reach .dm n ix d1 S := Reach.set r1 (by rw [← e3]; exact hl) hd1
      have hsd : d1.statesdm = S ++ [[]] := R1.inv.1.sdm
      obtain ⟨de1, hde1⟩ := (r2.total hx').1 d1.statesdm (by
        rw [hsd, e2]
        exact legal_congr hl rfl rfl (by simp) (fun c => rowOf_pad S 1 c))
      exact ⟨_, by simp only [ElPhSI.call, hd1', hde1, py_bind_ok]; rfl⟩
    · intro inds hlin hin
      obtain ⟨si', d1, _, hd1⟩ := (r1.total hx).2.2 inds
        (fun h => absurd (e3 ▸ h) hlin) hin
      obtain ⟨si2, de1, _, hde1⟩ := (r2.total hx').2.2 inds
        (fun h => absurd (by rw [e3, ← hsame]; exact h) hlin) hin
      have hd1' : s.si.removeFockStates inds = .ok d1 := by rw [← hd1, e1]; rfl
      exact ⟨_, by simp only [ElPhSI.call, hd1', hde1, py_bind_ok]; rfl⟩
    · obtain ⟨d1, hd1⟩ := (r1.total hx).2.1
      have hd1' : s.si.setStatesAll = .ok d1 := by rw [← hd1, e1]; rfl
      exact ⟨_, by simp only [ElPhSI.call, hd1', py_bind_ok]; rfl⟩

/-- A removal of states and a removal of Fock states, with spins. -/
example : chooseIndexing 4 "sz" ≠ .ssq ∧
    ∃ s, ElPhSI.run 4 "sz" [.fock [15, 3], .states [[0], [1, 2], [5, 6], [8], []]] = .ok s ∧
      s.el.statesdm = [[0], [1, 2], [5, 6], [8], [], [], []] := by
  refine ⟨by decide, ?_⟩
  have key : (ElPhSI.run 4 "sz" [.fock [15, 3], .states [[0], [1, 2], [5, 6], [8], []]] >>=
      fun s => (.ok s.el.statesdm : Py _)) = .ok [[0], [1, 2], [5, 6], [8], [], [], []] := by
    decide +kernel
  obtain ⟨s, h1, h2⟩ := bind_iff.1 key
  exact ⟨s, h1, Except.ok.inj h2⟩

/-- **C58** is false without the restriction. Two orbitals, 'charge' indexing: the state 2 is
removed by `remove_states`, then `use_all_states` is called. `si` considers all states again,
`si_elph` does not, and it answers the pairs `(1, 2)` and `(2, 1)` of charge one with the label
of the pair `(3, 3)` of charge two, as if they were included. -/
theorem c58_not_after_use_all_states :
    ∃ s, ElPhSI.run 2 "charge" [.states [[0], [1], [3]], .all] = .ok s ∧
      s.si.statesdm = [[0], [1, 2], [3], []] ∧ s.el.statesdm = [[0], [1], [3], [], []] ∧
      s.el.getBoolDm0 1 2 1 = .ok true ∧ s.el.getIndDm0 1 2 1 = .ok 2 ∧
      s.el.getIndDm0 2 1 1 = .ok 2 ∧ s.el.getIndDm0 3 3 2 = .ok 2 := by
  have key : (ElPhSI.run 2 "charge" [.states [[0], [1], [3]], .all] >>= fun s =>
      s.el.getBoolDm0 1 2 1 >>= fun x => s.el.getIndDm0 1 2 1 >>= fun k1 =>
      s.el.getIndDm0 2 1 1 >>= fun k2 => s.el.getIndDm0 3 3 2 >>= fun k3 =>
      (.ok (s.si.statesdm, s.el.statesdm, x, k1, k2, k3) : Py _)) =
      .ok ([[0], [1, 2], [3], []], [[0], [1], [3], [], []], true, 2, 2, 2) := by
    decide +kernel
  obtain ⟨s, h1, h2⟩ := bind_iff.1 key
  obtain ⟨x, g1, h2⟩ := bind_iff.1 h2
  obtain ⟨k1, g2, h2⟩ := bind_iff.1 h2
  obtain ⟨k2, g3, h2⟩ := bind_iff.1 h2
  obtain ⟨k3, g4, h2⟩ := bind_iff.1 h2
  simp only [Except.ok.injEq, Prod.mk.injEq] at h2
  obtain ⟨e1, e2, rfl, rfl, rfl, rfl⟩ := h2
  exact ⟨s, h1, e1, e2, g1, g2, g3, g4⟩

end Verif
