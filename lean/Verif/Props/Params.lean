import Verif.Lemmas.Params
import Verif.Props.Fock

/-! C13: parameters changed step by step. -/

namespace Verif

open Spec

/-! ### Arguments and histories -/

/-- A dictionary argument has distinct keys (it is a Python dictionary). -/
def Param.Valid {κ : Type} : Param κ → Prop
  | .dict d => (d.map Prod.fst).Nodup
  | _ => True

def CoulombArg.Valid : CoulombArg → Prop
  | .dict d => (d.map Prod.fst).Nodup
  | _ => True

/-- A call that changes the parameters of the quantum dot; `.other` for a missing argument. -/
inductive DotCall where
  | add (hsingle : Param (Nat × Nat)) (coulomb : CoulombArg)
  | change (hsingle : Param (Nat × Nat)) (coulomb : CoulombArg)

def DotCall.Valid : DotCall → Prop
  | .add h c => h.Valid ∧ c.Valid
  | .change h c => h.Valid ∧ c.Valid

noncomputable def QD.call (qd : QD) : DotCall → Py QD
  | .add h c => qd.add h c
  | .change h c => qd.change h c

noncomputable def QD.run (qd : QD) (calls : List DotCall) : Py QD := calls.foldlM QD.call qd

/-- A call that changes couplings (`tleads` of the leads or `velph` of the baths). -/
inductive CoupCall (κ : Type) where
  | add (p : Param κ)
  | change (p : Param κ)

def CoupCall.Valid {κ : Type} : CoupCall κ → Prop
  | .add p => p.Valid
  | .change p => p.Valid

noncomputable def LeadsTun.call (l : LeadsTun) : CoupCall (Nat × Nat) → Py LeadsTun
  | .add p => l.add p
  | .change p => l.change p

noncomputable def LeadsTun.run (l : LeadsTun) (calls : List (CoupCall (Nat × Nat))) : Py LeadsTun :=
  calls.foldlM LeadsTun.call l

noncomputable def Baths.call (b : Baths) : CoupCall (Nat × Nat × Nat) → Py Baths
  | .add p => b.add p
  | .change p => b.change p

noncomputable def Baths.run (b : Baths) (calls : List (CoupCall (Nat × Nat × Nat))) : Py Baths :=
  calls.foldlM Baths.call b

/-! ### Keys of converted arguments -/

theorem hsingle_nodup (nss : Option Nat) (herm : Bool) {p : Param (Nat × Nat)} (hp : p.Valid)
    (z : Bool) : ((makeHsingleDict nss herm p z).map Prod.fst).Nodup := by
  have h : ∀ d : Dict (Nat × Nat) ℂ, (d.map Prod.fst).Nodup →
      ((match nss with
        | some m => spinDict (fun k => (k.1 + m, k.2 + m)) d
        | none => d).map Prod.fst).Nodup := by
    intro d hd
    cases nss with
    | none => exact hd
    | some m => exact spinDict_nodup _ _ hd
  cases p with
  | dict d => exact h d hp
  | list rows => exact h _ (rowsDict_nodup rows)
  | array shape val => exact h _ (arrayDict_nodup _ _ _)
  | other => simp [makeHsingleDict]

theorem tleads_nodup (sym : Option (Nat × Nat)) {p : Param (Nat × Nat)} (hp : p.Valid)
    (z : Bool) : ((makeTleadsDict sym p z).map Prod.fst).Nodup := by
  have h : ∀ d : Dict (Nat × Nat) ℂ, (d.map Prod.fst).Nodup →
      ((match sym with
        | some m => spinDict (fun k => (k.1 + m.1, k.2 + m.2)) d
        | none => d).map Prod.fst).Nodup := by
    intro d hd
    cases sym with
    | none => exact hd
    | some m => exact spinDict_nodup _ _ hd
  cases p with
  | dict d => exact h d hp
  | list rows => exact h _ (rowsDict_nodup rows)
  | array shape val => exact h _ (arrayDict_nodup _ _ _)
  | other => simp [makeTleadsDict]

theorem velph_nodup (nss : Option Nat) {p : Param (Nat × Nat × Nat)} (hp : p.Valid)
    (z : Bool) : ((makeVelphDict nss p z).map Prod.fst).Nodup := by
  have h : ∀ d : Dict (Nat × Nat × Nat) ℂ, (d.map Prod.fst).Nodup →
      ((match nss with
        | some m => spinDict (fun k => (k.1, k.2.1 + m, k.2.2 + m)) d
        | none => d).map Prod.fst).Nodup := by
    intro d hd
    cases nss with
    | none => exact hd
    | some m => exact spinDict_nodup _ _ hd
  cases p with
  | dict d => exact h d hp
  | list rows => exact h _ (rowsDict_nodup rows)
  | array shape val => exact h _ (arrayDict_nodup _ _ _)
  | other => simp [makeVelphDict]

theorem coulomb_nodup (nss : Option Nat) (hermC mLessN : Bool) {p : CoulombArg} (hp : p.Valid) :
    ((makeCoulombDict nss hermC mLessN p).map Prod.fst).Nodup := by
  classical
  have h : ∀ d : Dict (Nat × Nat × Nat × Nat) ℂ, (d.map Prod.fst).Nodup →
      ((match nss with
        | some m0 => d.foldl (coulombSpinStep m0 hermC mLessN) d
        | none => d).map Prod.fst).Nodup := by
    intro d hd
    cases nss with
    | none => exact hd
    | some m => exact foldl_set_nodup _ (fun s e hs => coulombSpinStep_nodup _ _ _ s e hs) _ _ hd
  cases p with
  | dict d => exact h d hp
  | list rows =>
    refine h _ (foldl_set_nodup _ (fun d e hd => ?_) _ _ (by simp))
    split
    · exact Dict.nodup_set hd _ _
    · exact hd
  | other => simp [makeCoulombDict]

/-! ### Blocks of the Hamiltonian -/

theorem szToInd_inj {c n : Int} {a b : Int} (ha : a ∈ szrange c n) (hb : b ∈ szrange c n)
    (h : szToInd a c n = szToInd b c n) : a = b := by
  unfold szrange pyRange at ha hb
  obtain ⟨k, -, rfl⟩ := List.mem_map.1 ha
  obtain ⟨k', -, rfl⟩ := List.mem_map.1 hb
  have e : ∀ k : Nat, szToInd (-szMax c n + 2 * k) c n = k := by
    intro k
    unfold szToInd
    rw [show szMax c n + (-szMax c n + 2 * (k : Int)) = (k : Int) * 2 by ring]
    exact Int.mul_tdiv_cancel _ (by norm_num)
  rw [e, e] at h
  rw [h]

theorem szrange_nodup (c n : Int) : (szrange c n).Nodup := by
  unfold szrange pyRange
  refine List.Nodup.map (fun a b h => ?_) List.nodup_range
  have h : -szMax c n + 2 * (a : Int) = -szMax c n + 2 * (b : Int) := h
  omega

theorem hamSectors_nodup (si : SI) (q : Bool) :
    ((hamSectors si q).map fun b => (b.1, b.2.2)).Nodup := by
  have hsz : ∀ (c : Nat) (l : List Int), l.Nodup → (∀ a ∈ l, ∀ b ∈ l,
      szToInd a c si.nsingle = szToInd b c si.nsingle → a = b) →
      (((l.map fun sz => (c, some sz, szToInd sz c si.nsingle)) : List (Nat × Option Int × Int)).map
        fun b => (b.1, b.2.2)).Nodup := by
    intro c l hl hinj
    rw [List.map_map]
    refine List.Nodup.map_on ?_ hl
    intro a ha b hb h
    simp only [Function.comp, Prod.mk.injEq, true_and] at h
    exact hinj a ha b hb h
  unfold hamSectors
  rw [List.map_flatMap]
  rw [List.nodup_flatMap]
  constructor
  · intro c _
    cases si.indexing with
    | Lin => simp
    | charge => simp
    | sz => exact hsz c _ (szrange_nodup _ _) fun a ha b hb => szToInd_inj ha hb
    | ssq =>
      cases q with
      | true => exact hsz c _ (szrange_nodup _ _) fun a ha b hb => szToInd_inj ha hb
      | false => simp
  · refine List.Pairwise.imp ?_ (List.nodup_range (n := si.ncharge))
    intro c c' hcc x hx hx'
    have hfst : ∀ c : Nat, ∀ x ∈ (((match si.indexing with
      | .sz => (szrange c si.nsingle).map fun sz =>
          (c, some sz, szToInd sz c si.nsingle)
      | .ssq => (if q then szrange c si.nsingle else [-((c % 2 : Nat) : Int)]).map
          fun sz => (c, some sz, szToInd sz c si.nsingle)
      | _ => [(c, none, 0)]) : List (Nat × Option Int × Int)).map fun b => (b.1, b.2.2)),
        x.1 = c := by
      intro c x hx
      obtain ⟨b, hb, rfl⟩ := List.mem_map.1 hx
      revert hb
      cases si.indexing with
      | Lin => intro hb; simp at hb; simp [hb]
      | charge => intro hb; simp at hb; simp [hb]
      | sz => intro hb; obtain ⟨z, -, rfl⟩ := List.mem_map.1 hb; rfl
      | ssq => intro hb; obtain ⟨z, -, rfl⟩ := List.mem_map.1 hb; rfl
    exact hcc ((hfst c x hx).symm.trans (hfst c' x hx'))

/-- The loop over blocks. -/
theorem blocks_iff (hs : Dict (Nat × Nat) ℂ) (cs : Dict (Nat × Nat × Nat × Nat) ℂ)
    (bs : List (Nat × Option Int × Int)) (hnd : (bs.map fun b => (b.1, b.2.2)).Nodup)
    (qd qd' : QD) :
    bs.foldlM (fun (qd : QD) b => do
      let ham ← qd.hamBlock hs cs b.1 b.2.1 (qd.hamlst b.1 b.2.2)
      pure (qd.setBlock b.1 b.2.2 ham)) qd = .ok qd' ↔
    qd' = { qd with hamlst := qd'.hamlst } ∧
    (∀ b ∈ bs, ∃ ham, qd.hamBlock hs cs b.1 b.2.1 (qd.hamlst b.1 b.2.2) = .ok ham ∧
      qd'.hamlst b.1 b.2.2 = some ham) ∧
    ∀ c i, (c, i) ∉ bs.map (fun b => (b.1, b.2.2)) → qd'.hamlst c i = qd.hamlst c i := by
  induction bs generalizing qd with
  | nil =>
    simp only [List.foldlM_nil, List.not_mem_nil, IsEmpty.forall_iff, implies_true, true_and,
      List.map_nil, not_false_eq_true, forall_true_left]
    constructor
    · rintro ⟨⟩; exact ⟨rfl, fun _ _ => rfl⟩
    · rintro ⟨h1, h2⟩
      have : qd'.hamlst = qd.hamlst := funext fun c => funext fun i => h2 c i
      rw [h1, this]; rfl
  | cons b bs ih =>
    rw [List.map_cons, List.nodup_cons] at hnd
    rw [List.foldlM_cons]
    cases hb : qd.hamBlock hs cs b.1 b.2.1 (qd.hamlst b.1 b.2.2) with
    | error e =>
      constructor
      · intro h; cases h
      · rintro ⟨-, h, -⟩
        obtain ⟨ham, h1, -⟩ := h b (by simp)
        rw [hb] at h1; cases h1
    | ok ham =>
      refine Iff.trans (ih hnd.2 (qd.setBlock b.1 b.2.2 ham)) ?_
      have hne : ∀ b' ∈ bs, ¬ (b'.1 = b.1 ∧ b'.2.2 = b.2.2) := by
        rintro b' hb' ⟨h1, h2⟩
        exact hnd.1 (List.mem_map.2 ⟨b', hb', by rw [h1, h2]⟩)
      have hblk : ∀ b' : Nat × Option Int × Int, ∀ o,
          (qd.setBlock b.1 b.2.2 ham).hamBlock hs cs b'.1 b'.2.1 o
            = qd.hamBlock hs cs b'.1 b'.2.1 o := fun _ _ => rfl
      have hget : ∀ c i, (qd.setBlock b.1 b.2.2 ham).hamlst c i =
          if c = b.1 ∧ i = b.2.2 then some ham else qd.hamlst c i := fun _ _ => rfl
      simp only [hget, hblk]
      constructor
      · rintro ⟨h1, h2, h3⟩
        refine ⟨h1, ?_, ?_⟩
        · intro b' hb'
          rcases List.mem_cons.1 hb' with rfl | hb'
          · exact ⟨ham, hb, by rw [h3 _ _ hnd.1]; simp⟩
          · obtain ⟨ham', e1, e2⟩ := h2 b' hb'
            refine ⟨ham', ?_, e2⟩
            simpa only [if_neg (hne b' hb')] using e1
        · intro c i hci
          rw [List.map_cons, List.mem_cons, not_or] at hci
          rw [h3 c i hci.2]
          refine if_neg ?_
          rintro ⟨rfl, rfl⟩
          exact hci.1 rfl
      · rintro ⟨h1, h2, h3⟩
        refine ⟨h1, ?_, ?_⟩
        · intro b' hb'
          obtain ⟨ham', e1, e2⟩ := h2 b' (by simp [hb'])
          refine ⟨ham', ?_, e2⟩
          simpa only [if_neg (hne b' hb')] using e1
        · intro c i hci
          by_cases hcb : c = b.1 ∧ i = b.2.2
          · obtain ⟨rfl, rfl⟩ := hcb
            obtain ⟨ham', e1, e2⟩ := h2 b (by simp)
            rw [hb] at e1; cases e1
            simpa using e2
          · rw [h3 c i ?_]
            · exact (if_neg hcb).symm
            · rw [List.map_cons, List.mem_cons, not_or]
              exact ⟨fun h => hcb (by simpa using h), hci⟩

/-- A block built from summed parameters. -/
theorem block_sum (qd qd' : QD) (hsi : qd'.si = qd.si) (h1 : qd'.hermHs = qd.hermHs)
    (h2 : qd'.hermC = qd.hermC) (h3 : qd'.mLessN = qd.mLessN)
    {hs hs' hs'' : Dict (Nat × Nat) ℂ} {cs cs' cs'' : Dict (Nat × Nat × Nat × Nat) ℂ}
    (hh : SumDict hs hs' hs'') (hc : SumDict cs cs' cs'') {charge : Nat} {sz : Option Int}
    {t t' : Arr} (ht : qd.hamBlock hs cs charge sz none = .ok t)
    (ht' : qd'.hamBlock hs' cs' charge sz (some t) = .ok t') :
    qd'.hamBlock hs'' cs'' charge sz none = .ok t' := by
  unfold QD.hamBlock at *
  rw [hsi, h1, h2, h3] at *
  cases hl : qd.si.getLst (some charge) sz none with
  | error e => rw [hl] at ht; cases ht
  | ok r =>
    rw [hl] at ht ht'
    simp only [py_bind_ok] at ht ht' ⊢
    cases r with
    | none => cases ht
    | some lst =>
      dsimp only at ht ht' ⊢
      obtain ⟨_, _, _, Lc⟩ := coulomb_linear qd.si qd.hermC qd.mLessN lst
      obtain ⟨_, _, _, Lh⟩ := hopping_linear qd.si qd.hermHs lst
      have hz : ∀ d, constructHamCoulomb qd.si qd.hermC qd.mLessN d lst none =
          constructHamCoulomb qd.si qd.hermC qd.mLessN d lst
            (some (Arr.zeros [lst.length, lst.length])) := fun _ => rfl
      rw [hz] at ht ⊢
      obtain ⟨u, hu, ht⟩ := bind_iff.1 ht
      obtain ⟨u', hu', ht'⟩ := bind_iff.1 ht'
      have zd : (Arr.zeros [lst.length, lst.length]).dims = [lst.length, lst.length] := rfl
      have ud := Lc.dims zd hu
      have td := Lh.dims ud ht
      have ud' := Lc.dims td hu'
      obtain ⟨bc, kc, eu⟩ := (Lc.iff _ _ _ zd).1 hu
      obtain ⟨bh, kh, et⟩ := (Lh.iff _ _ _ ud).1 ht
      obtain ⟨-, kc', eu'⟩ := (Lc.iff _ _ _ td).1 hu'
      obtain ⟨-, kh', et'⟩ := (Lh.iff _ _ _ ud').1 ht'
      refine bind_iff.2 ⟨_, (Lc.iff _ _ _ zd).2 ⟨bc, fun k hk => ?_, rfl⟩, ?_⟩
      · exact ((hc.keys k).1 hk).elim (kc k) (kc' k)
      · refine (Lh.iff _ _ _ (by simpa using zd)).2 ⟨bh, fun k hk => ?_, ?_⟩
        · exact ((hh.keys k).1 hk).elim (kh k) (kh' k)
        · rw [et', eu', et, eu]
          simp only [Arr.plus_plus]
          congr 1
          funext ix
          rw [hc.weight _ Lc.add, hh.weight _ Lh.add]
          ring

/-- The stored Hamiltonian is the one built from the stored parameters. -/
structure DotInv (qd : QD) : Prop where
  blocks : ∀ b ∈ hamSectors qd.si qd.hamSsqQ, ∃ ham, qd.hamlst b.1 b.2.2 = some ham ∧
    qd.hamBlock qd.hsingle qd.coulomb b.1 b.2.1 none = .ok ham
  rest : ∀ c i, (c, i) ∉ (hamSectors qd.si qd.hamSsqQ).map (fun b => (b.1, b.2.2)) →
    qd.hamlst c i = none

/-- Attributes other than the parameters and the matrices. -/
def SameSetup (a b : QD) : Prop :=
  b.si = a.si ∧ b.nss = a.nss ∧ b.hermHs = a.hermHs ∧ b.hermC = a.hermC ∧
    b.mLessN = a.mLessN ∧ b.hamSsqQ = a.hamSsqQ

theorem addHam_inv {qd qd' : QD} (hinv : DotInv qd) {hs' hs'' cs' cs''}
    (hh : SumDict qd.hsingle hs' hs'') (hc : SumDict qd.coulomb cs' cs'')
    (h : QD.addHam { qd with hsingle := hs'', coulomb := cs'' } hs' cs' = .ok qd') :
    DotInv qd' ∧ SameSetup qd qd' := by
  obtain ⟨h1, h2, h3⟩ := (blocks_iff hs' cs' _ (hamSectors_nodup _ _) _ _).1 h
  have e1 : qd'.si = qd.si := by rw [h1]
  have e2 : qd'.hermHs = qd.hermHs := by rw [h1]
  have e3 : qd'.hermC = qd.hermC := by rw [h1]
  have e4 : qd'.mLessN = qd.mLessN := by rw [h1]
  have e5 : qd'.hamSsqQ = qd.hamSsqQ := by rw [h1]
  have e6 : qd'.hsingle = hs'' := by rw [h1]
  have e7 : qd'.coulomb = cs'' := by rw [h1]
  have e8 : qd'.nss = qd.nss := by rw [h1]
  refine ⟨⟨?_, ?_⟩, e1, e8, e2, e3, e4, e5⟩
  · intro b hb
    rw [e1, e5] at hb
    obtain ⟨t, t1, t2⟩ := hinv.blocks b hb
    obtain ⟨t', u1, u2⟩ := h2 b hb
    refine ⟨t', u2, ?_⟩
    rw [e6, e7]
    refine block_sum qd qd' e1 e2 e3 e4 hh hc t2 ?_
    have : qd'.hamBlock hs' cs' b.1 b.2.1 (some t) =
        QD.hamBlock { qd with hsingle := hs'', coulomb := cs'' } hs' cs' b.1 b.2.1 (some t) := by
      unfold QD.hamBlock
      rw [e1, e2, e3, e4]
    rw [this, ← t1]
    exact u1
  · intro c i hci
    rw [e1, e5] at hci
    exact (h3 c i hci).trans (hinv.rest c i hci)

theorem call_inv {qd qd' : QD} (hinv : DotInv qd) (c : DotCall) (hc : c.Valid)
    (h : qd.call c = .ok qd') : DotInv qd' ∧ SameSetup qd qd' := by
  cases c with
  | add a b => exact addHam_inv hinv (sumDict_add _ _) (sumDict_add _ _) h
  | change a b =>
    exact addHam_inv hinv (sumDict_change _ _ (hsingle_nodup _ _ hc.1 _))
      (sumDict_change _ _ (coulomb_nodup _ _ _ hc.2)) h

theorem run_inv {qd qd' : QD} (hinv : DotInv qd) (calls : List DotCall) (hc : ∀ c ∈ calls, c.Valid)
    (h : qd.run calls = .ok qd') : DotInv qd' ∧ SameSetup qd qd' := by
  induction calls generalizing qd with
  | nil => cases h; exact ⟨hinv, rfl, rfl, rfl, rfl, rfl, rfl⟩
  | cons c calls ih =>
    rw [QD.run, List.foldlM_cons] at h
    obtain ⟨q1, h1, h2⟩ := bind_iff.1 h
    obtain ⟨i1, s1⟩ := call_inv hinv c (hc c (by simp)) h1
    obtain ⟨i2, s2⟩ := ih i1 (fun c' hc' => hc c' (by simp [hc'])) h2
    unfold SameSetup at *
    exact ⟨i2, by simp [s1, s2]⟩

theorem init_inv' {si : SI} {nss : Option Nat} {hermHs hermC mLessN hamSsqQ : Bool}
    {hs : Param (Nat × Nat)} {cs : CoulombArg} {qd : QD}
    (h : QD.init si nss hermHs hermC mLessN hamSsqQ hs cs = .ok qd) :
    DotInv qd ∧ qd.si = si ∧ qd.nss = nss ∧ qd.hermHs = hermHs ∧ qd.hermC = hermC ∧
      qd.mLessN = mLessN ∧ qd.hamSsqQ = hamSsqQ := by
  obtain ⟨h1, h2, h3⟩ := (blocks_iff _ _ _ (hamSectors_nodup _ _) _ _).1 h
  have e1 : qd.si = si := by rw [h1]
  have e2 : qd.hermHs = hermHs := by rw [h1]
  have e3 : qd.hermC = hermC := by rw [h1]
  have e4 : qd.mLessN = mLessN := by rw [h1]
  have e5 : qd.hamSsqQ = hamSsqQ := by rw [h1]
  have e6 : qd.hsingle = makeHsingleDict nss hermHs hs false := by rw [h1]
  have e7 : qd.coulomb = makeCoulombDict nss hermC mLessN cs := by rw [h1]
  have e8 : qd.nss = nss := by rw [h1]
  refine ⟨⟨?_, ?_⟩, e1, e8, e2, e3, e4, e5⟩
  · intro b hb
    rw [e1, e5] at hb
    obtain ⟨t', u1, u2⟩ := h2 b hb
    refine ⟨t', u2, ?_⟩
    refine Eq.trans ?_ u1
    unfold QD.hamBlock
    rw [e1, e2, e3, e4, e6, e7]
  · intro c i hci
    rw [e1, e5] at hci
    exact h3 c i hci

/-- C13, quantum dot: after any calls of `add` and `change`, with dictionaries, lists or arrays,
building the object again from its stored dictionaries gives the same matrices. -/
theorem c13_dot_partial {si : SI} {nss : Option Nat} {hermHs hermC mLessN hamSsqQ : Bool}
    {hs : Param (Nat × Nat)} {cs : CoulombArg} {qd0 qd : QD}
    (h0 : QD.init si nss hermHs hermC mLessN hamSsqQ hs cs = .ok qd0)
    (calls : List DotCall) (hv : ∀ c ∈ calls, c.Valid) (h : qd0.run calls = .ok qd) :
    QD.init si none hermHs hermC mLessN hamSsqQ (.dict qd.hsingle) (.dict qd.coulomb)
      = .ok { qd with nss := none } := by
  obtain ⟨i0, s1, s2, s3, s4, s5, s6⟩ := init_inv' h0
  obtain ⟨inv, t1, t2, t3, t4, t5, t6⟩ := run_inv i0 calls hv h
  have e1 := t1.trans s1
  have e3 := t3.trans s3
  have e4 := t4.trans s4
  have e5 := t5.trans s5
  have e6 := t6.trans s6
  refine (blocks_iff _ _ _ (hamSectors_nodup _ _) _ _).2 ⟨?_, ?_, ?_⟩
  · cases qd
    simp only at e1 e3 e4 e5 e6
    subst e1 e3 e4 e5 e6
    rfl
  · intro b hb
    obtain ⟨ham, u1, u2⟩ := inv.blocks b (by rw [e1, e6]; exact hb)
    refine ⟨ham, ?_, u1⟩
    refine Eq.trans ?_ u2
    unfold QD.hamBlock
    rw [e1, e3, e4, e5]
    rfl
  · intro c i hci
    exact inv.rest c i (by rw [e1, e6]; exact hci)

/-! ### Couplings -/

theorem leads_call_tba {l l' : LeadsTun} (c : CoupCall (Nat × Nat)) (hc : c.Valid)
    (hinv : constructTba l.si l.nleads l.tleads none = .ok l.tba0) (h : l.call c = .ok l') :
    constructTba l'.si l'.nleads l'.tleads none = .ok l'.tba0 ∧ l'.si = l.si ∧
      l'.nleads = l.nleads ∧ l'.sym = l.sym := by
  obtain ⟨_, _, _, L⟩ := tba_linear l.si l.nleads
  have zd : (Arr.zeros [l.nleads, l.si.nmany, l.si.nmany]).dims =
    [l.nleads, l.si.nmany, l.si.nmany] := rfl
  cases c with
  | add p =>
    obtain ⟨arr, -, h⟩ := bind_iff.1 h
    obtain ⟨t, ht, h⟩ := bind_iff.1 h
    cases h
    exact ⟨L.sum (sumDict_add _ _) zd hinv ht, rfl, rfl, rfl⟩
  | change p =>
    obtain ⟨t, ht, h⟩ := bind_iff.1 h
    cases h
    exact ⟨L.sum (sumDict_change _ _ (tleads_nodup _ hc _)) zd hinv ht, rfl, rfl, rfl⟩

/-- C13, leads: after any calls of `add` and `change` the stored many-body tunnelling matrix is the
one constructed from the stored amplitudes. -/
theorem c13_tba {si : SI} {nleads : Nat} {sym : Option (Nat × Nat)} {p : Param (Nat × Nat)}
    {l0 l : LeadsTun} (h0 : LeadsTun.init si nleads sym p = .ok l0)
    (calls : List (CoupCall (Nat × Nat))) (hv : ∀ c ∈ calls, c.Valid) (h : l0.run calls = .ok l) :
    constructTba si nleads l.tleads none = .ok l.tba0 := by
  obtain ⟨arr, -, h0⟩ := bind_iff.1 h0
  obtain ⟨t, ht, h0⟩ := bind_iff.1 h0
  cases h0
  suffices H : ∀ l0 : LeadsTun, constructTba l0.si l0.nleads l0.tleads none = .ok l0.tba0 →
      l0.run calls = .ok l → constructTba l0.si l0.nleads l.tleads none = .ok l.tba0 from
    H _ ht h
  clear h ht
  intro l0
  induction calls generalizing l0 with
  | nil => intro ht h; cases h; exact ht
  | cons c calls ih =>
    intro ht h
    rw [LeadsTun.run, List.foldlM_cons] at h
    obtain ⟨l1, h1, h2⟩ := bind_iff.1 h
    obtain ⟨e, s1, s2, -⟩ := leads_call_tba c (hv c (by simp)) ht h1
    have := ih (fun c' hc' => hv c' (by simp [hc'])) l1 e h2
    rwa [s1, s2] at this

/-- C13, leads, second attribute: with calls of `add` only, the array of single-particle
amplitudes is the one made from the stored amplitudes, so that building the object again gives
the same object. Missing: calls of `change` (see `c13_tleads_array_false`). -/
theorem c13_tleads_array_partial {si : SI} {nleads : Nat} {sym : Option (Nat × Nat)}
    {p : Param (Nat × Nat)} {l0 l : LeadsTun} (h0 : LeadsTun.init si nleads sym p = .ok l0)
    (ps : List (Param (Nat × Nat))) (hv : ∀ p ∈ ps, p.Valid)
    (h : l0.run (ps.map .add) = .ok l) :
    LeadsTun.init si nleads none (.dict l.tleads) = .ok { l with sym := none } := by
  have htba := c13_tba h0 (ps.map .add) (by
    intro c hc
    obtain ⟨q, hq, rfl⟩ := List.mem_map.1 hc
    exact hv q hq) h
  suffices H : l.si = si ∧ l.nleads = nleads ∧
      makeTleadsArray nleads si.nsingle l.tleads = .ok l.tleadsArray by
    obtain ⟨e1, e2, e3⟩ := H
    refine bind_iff.2 ⟨_, e3, bind_iff.2 ⟨_, htba, ?_⟩⟩
    cases l
    simp only at e1 e2
    subst e1 e2
    rfl
  obtain ⟨arr, ha, h0⟩ := bind_iff.1 h0
  obtain ⟨t, -, h0⟩ := bind_iff.1 h0
  cases h0
  suffices H : ∀ l0 : LeadsTun, l0.si = si ∧ l0.nleads = nleads ∧
      makeTleadsArray nleads si.nsingle l0.tleads = .ok l0.tleadsArray →
      l0.run (ps.map .add) = .ok l → l.si = si ∧ l.nleads = nleads ∧
      makeTleadsArray nleads si.nsingle l.tleads = .ok l.tleadsArray from H _ ⟨rfl, rfl, ha⟩ h
  clear h htba hv ha
  intro l0
  induction ps generalizing l0 with
  | nil => intro ha h; cases h; exact ha
  | cons q ps ih =>
    rintro ⟨e1, e2, ha⟩ h
    rw [LeadsTun.run, List.map_cons, List.foldlM_cons] at h
    obtain ⟨l1, h1, h2⟩ := bind_iff.1 h
    obtain ⟨arr1, ha1, h1⟩ := bind_iff.1 h1
    obtain ⟨t1, -, h1⟩ := bind_iff.1 h1
    cases h1
    rw [e1, e2] at ha1
    refine ih _ ?_ h2
    exact ⟨e1, e2, ha1⟩

theorem baths_call {b b' : Baths} (c : CoupCall (Nat × Nat × Nat)) (hc : c.Valid)
    (hinv : constructVbbp b.si b.nbaths b.velph none = .ok b.vbbp0) (h : b.call c = .ok b') :
    constructVbbp b'.si b'.nbaths b'.velph none = .ok b'.vbbp0 ∧ b'.si = b.si ∧
      b'.nbaths = b.nbaths := by
  obtain ⟨_, _, _, L⟩ := vbbp_linear b.si b.nbaths
  have zd : (Arr.zeros [b.nbaths, b.si.nmany, b.si.nmany]).dims =
    [b.nbaths, b.si.nmany, b.si.nmany] := rfl
  cases c with
  | add p =>
    obtain ⟨t, ht, h⟩ := bind_iff.1 h
    cases h
    exact ⟨L.sum (sumDict_add _ _) zd hinv ht, rfl, rfl⟩
  | change p =>
    obtain ⟨t, ht, h⟩ := bind_iff.1 h
    cases h
    exact ⟨L.sum (sumDict_change _ _ (velph_nodup _ hc _)) zd hinv ht, rfl, rfl⟩

/-- C13, phonon baths: after any calls of `add` and `change`, building the object again from its
stored couplings gives the same object. -/
theorem c13_vbbp {si : SI} {nbaths : Nat} {nss : Option Nat} {p : Param (Nat × Nat × Nat)}
    {b0 b : Baths} (h0 : Baths.init si nbaths nss p = .ok b0)
    (calls : List (CoupCall (Nat × Nat × Nat))) (hv : ∀ c ∈ calls, c.Valid)
    (h : b0.run calls = .ok b) :
    Baths.init si nbaths none (.dict b.velph) = .ok { b with nss := none } := by
  obtain ⟨t, ht, h0⟩ := bind_iff.1 h0
  cases h0
  suffices H : ∀ b0 : Baths, constructVbbp b0.si b0.nbaths b0.velph none = .ok b0.vbbp0 →
      b0.run calls = .ok b → b.si = b0.si ∧ b.nbaths = b0.nbaths ∧
        constructVbbp b0.si b0.nbaths b.velph none = .ok b.vbbp0 by
    obtain ⟨e1, e2, e3⟩ := H _ ht h
    refine bind_iff.2 ⟨_, e3, ?_⟩
    cases b
    simp only at e1 e2
    subst e1 e2
    rfl
  clear h ht
  intro b0
  induction calls generalizing b0 with
  | nil => intro ht h; cases h; exact ⟨rfl, rfl, ht⟩
  | cons c calls ih =>
    intro ht h
    rw [Baths.run, List.foldlM_cons] at h
    obtain ⟨b1, h1, h2⟩ := bind_iff.1 h
    obtain ⟨e, s1, s2⟩ := baths_call c (hv c (by simp)) ht h1
    have := ih (fun c' hc' => hv c' (by simp [hc'])) b1 e h2
    rwa [s1, s2] at this

end Verif

/-! ### Values after a change -/

namespace Verif

open Spec

/-- The value a dictionary of parameters assigns to a label; labels without entry have value
zero. -/
noncomputable def valueAt {κ : Type} [DecidableEq κ] (d : Dict κ ℂ) (k : κ) : ℂ :=
  (d.get? k).getD 0

theorem addHam_params {qd qd' : QD} {hs cs} (h : qd.addHam hs cs = .ok qd') :
    qd'.hsingle = qd.hsingle ∧ qd'.coulomb = qd.coulomb := by
  obtain ⟨h1, -⟩ := (blocks_iff _ _ _ (hamSectors_nodup _ _) _ _).1 h
  constructor <;> rw [h1]

/-- C51, `add` of dictionaries: the given values are added to the stored ones. -/
theorem c51_dot_add_partial {qd qd' : QD} (hsym : qd.nss = none) (hs : Dict (Nat × Nat) ℂ)
    (cs : Dict (Nat × Nat × Nat × Nat) ℂ) (hhs : (hs.map Prod.fst).Nodup)
    (hcs : (cs.map Prod.fst).Nodup) (h : qd.add (.dict hs) (.dict cs) = .ok qd') :
    (∀ k, valueAt qd'.hsingle k = valueAt qd.hsingle k + valueAt hs k) ∧
    ∀ k, valueAt qd'.coulomb k = valueAt qd.coulomb k + valueAt cs k := by
  obtain ⟨h1, h2⟩ := addHam_params h
  have e1 : makeHsingleDict qd.nss qd.hermHs (.dict hs) false = hs := by rw [hsym]; rfl
  have e2 : makeCoulombDict qd.nss qd.hermC qd.mLessN (.dict cs) = cs := by rw [hsym]; rfl
  simp only [e1, e2] at h1 h2
  rw [h1, h2]
  exact ⟨dictAdd_get _ _ hhs, dictAdd_get _ _ hcs⟩

/-- C51, `change` with dictionaries: the given labels have the given values, the others keep
theirs. -/
theorem c51_dot_change_partial {qd qd' : QD} (hsym : qd.nss = none) (hs : Dict (Nat × Nat) ℂ)
    (cs : Dict (Nat × Nat × Nat × Nat) ℂ) (hhs : (hs.map Prod.fst).Nodup)
    (hcs : (cs.map Prod.fst).Nodup) (h : qd.change (.dict hs) (.dict cs) = .ok qd') :
    (∀ k, valueAt qd'.hsingle k = (hs.get? k).getD (valueAt qd.hsingle k)) ∧
    ∀ k, valueAt qd'.coulomb k = (cs.get? k).getD (valueAt qd.coulomb k) := by
  obtain ⟨h1, h2⟩ := addHam_params h
  have e1 : makeHsingleDict qd.nss qd.hermHs (.dict hs) true = hs := by rw [hsym]; rfl
  have e2 : makeCoulombDict qd.nss qd.hermC qd.mLessN (.dict cs) = cs := by rw [hsym]; rfl
  simp only [e1, e2] at h1 h2
  rw [h1, h2]
  exact ⟨dictChange_value _ _ hhs, dictChange_value _ _ hcs⟩

/-- C51, leads. -/
theorem c51_leads_partial {l l' : LeadsTun} (hsym : l.sym = none) (ts : Dict (Nat × Nat) ℂ)
    (hts : (ts.map Prod.fst).Nodup) :
    (l.add (.dict ts) = .ok l' →
      ∀ k, valueAt l'.tleads k = valueAt l.tleads k + valueAt ts k) ∧
    (l.change (.dict ts) = .ok l' →
      ∀ k, valueAt l'.tleads k = (ts.get? k).getD (valueAt l.tleads k)) := by
  have e : ∀ z, makeTleadsDict l.sym (.dict ts) z = ts := by intro z; rw [hsym]; rfl
  constructor
  · intro h
    obtain ⟨_, -, h⟩ := bind_iff.1 h
    obtain ⟨_, -, h⟩ := bind_iff.1 h
    cases h
    simp only [e]
    exact dictAdd_get _ _ hts
  · intro h
    obtain ⟨_, -, h⟩ := bind_iff.1 h
    cases h
    simp only [e]
    exact dictChange_value _ _ hts

/-- C51, phonon baths. -/
theorem c51_baths_partial {b b' : Baths} (hsym : b.nss = none) (vs : Dict (Nat × Nat × Nat) ℂ)
    (hvs : (vs.map Prod.fst).Nodup) :
    (b.add (.dict vs) = .ok b' →
      ∀ k, valueAt b'.velph k = valueAt b.velph k + valueAt vs k) ∧
    (b.change (.dict vs) = .ok b' →
      ∀ k, valueAt b'.velph k = (vs.get? k).getD (valueAt b.velph k)) := by
  have e : ∀ z, makeVelphDict b.nss (.dict vs) z = vs := by intro z; rw [hsym]; rfl
  constructor
  · intro h
    obtain ⟨_, -, h⟩ := bind_iff.1 h
    cases h
    simp only [e]
    exact dictAdd_get _ _ hvs
  · intro h
    obtain ⟨_, -, h⟩ := bind_iff.1 h
    cases h
    simp only [e]
    exact dictChange_value _ _ hvs

/-- `change` of a Coulomb matrix element to zero, given as a list, leaves the element: rows with
value zero are dropped (qdot.py:655). -/
theorem c51_coulomb_list_zero {qd qd' : QD} (hsym : qd.nss = none) (k : Nat × Nat × Nat × Nat)
    (h : qd.change .other (.list [(k, 0)]) = .ok qd') : qd'.coulomb = qd.coulomb := by
  obtain ⟨-, h2⟩ := addHam_params h
  have e2 : makeCoulombDict qd.nss qd.hermC qd.mLessN (.list [(k, 0)]) = [] := by
    rw [hsym]
    simp [makeCoulombDict]
  simp only [e2] at h2
  rw [h2]
  rfl

/-! ### The calls succeed -/

/-- The keys are labels of the `n` orbitals. -/
def HsInRange (n : Nat) (hs : Dict (Nat × Nat) ℂ) : Prop :=
  ∀ k ∈ hs.map Prod.fst, k.1 < n ∧ k.2 < n

def CsInRange (n : Nat) (cs : Dict (Nat × Nat × Nat × Nat) ℂ) : Prop :=
  ∀ k ∈ cs.map Prod.fst, k.1 < n ∧ k.2.1 < n ∧ k.2.2.1 < n ∧ k.2.2.2 < n

def DotCall.InRange (n : Nat) : DotCall → Prop
  | .add (.dict hs) (.dict cs) => HsInRange n hs ∧ CsInRange n cs
  | .change (.dict hs) (.dict cs) => HsInRange n hs ∧ CsInRange n cs
  | _ => False

theorem hs_fin {n : Nat} {hs : Dict (Nat × Nat) ℂ} (h : HsInRange n hs) :
    ∃ l : List ((Fin n × Fin n) × ℂ), hopKeys l = hs := by
  induction hs with
  | nil => exact ⟨[], rfl⟩
  | cons e hs ih =>
    obtain ⟨l, hl⟩ := ih fun k hk => h k (by rw [List.map_cons, List.mem_cons]; exact .inr hk)
    obtain ⟨h1, h2⟩ := h e.1 (by simp)
    exact ⟨((⟨e.1.1, h1⟩, ⟨e.1.2, h2⟩), e.2) :: l, by
      rw [hopKeys, List.map_cons]; exact congrArg _ hl⟩

theorem cs_fin {n : Nat} {cs : Dict (Nat × Nat × Nat × Nat) ℂ} (h : CsInRange n cs) :
    ∃ l : List ((Fin n × Fin n × Fin n × Fin n) × ℂ), coulKeys l = cs := by
  induction cs with
  | nil => exact ⟨[], rfl⟩
  | cons e cs ih =>
    obtain ⟨l, hl⟩ := ih fun k hk => h k (by rw [List.map_cons, List.mem_cons]; exact .inr hk)
    obtain ⟨h1, h2, h3, h4⟩ := h e.1 (by simp)
    exact ⟨((⟨e.1.1, h1⟩, ⟨e.1.2.1, h2⟩, ⟨e.1.2.2.1, h3⟩, ⟨e.1.2.2.2, h4⟩), e.2) :: l, by
      rw [coulKeys, List.map_cons]; exact congrArg _ hl⟩

/-- A block with parameters in range is constructed, from nothing or on top of such a block. -/
theorem block_progress {n : Nat} {qd : QD} (hc : Consistent n qd.si) {hs cs hs' cs'}
    (hhs : HsInRange n hs) (hcs : CsInRange n cs) {c : Nat} (hcn : c ≤ n) {old : Option Arr}
    (hold : ∀ a, old = some a → qd.hamBlock hs' cs' c none none = .ok a) :
    ∃ ham, qd.hamBlock hs cs c none old = .ok ham := by
  obtain ⟨lst, h1, h2⟩ := closed_charge hc c hcn
  obtain ⟨lh, rfl⟩ := hs_fin hhs
  obtain ⟨lc, rfl⟩ := cs_fin hcs
  unfold QD.hamBlock at *
  simp only [h1, py_bind_ok] at hold ⊢
  have hd : ∀ a, old = some a → a.dims = [lst.length, lst.length] := by
    intro a ha
    obtain ⟨u, u1, u2⟩ := bind_iff.1 (hold a ha)
    obtain ⟨_, _, _, Lc⟩ := coulomb_linear qd.si qd.hermC qd.mLessN lst
    obtain ⟨_, _, _, Lh⟩ := hopping_linear qd.si qd.hermHs lst
    exact Lh.dims (Lc.dims (a := Arr.zeros [lst.length, lst.length]) rfl u1) u2
  obtain ⟨M, m1, m2, -⟩ := c11_list hc qd.hermC qd.mLessN lc SameCharge
    (fun m p k l _ s a b c d e f => count_coul m p k l s a b c d e f) lst h2 old hd
  obtain ⟨M', m1', -⟩ := c10_list hc qd.hermHs lh SameCharge
    (fun e _ s a b c => count_hop s a b c) lst h2 (some M) (by rintro a ⟨⟩; exact m2)
  exact ⟨M', bind_iff.2 ⟨M, m1, m1'⟩⟩

theorem blocks_progress (hs : Dict (Nat × Nat) ℂ) (cs : Dict (Nat × Nat × Nat × Nat) ℂ)
    (bs : List (Nat × Option Int × Int)) (hnd : (bs.map fun b => (b.1, b.2.2)).Nodup) (qd : QD)
    (h : ∀ b ∈ bs, ∃ ham, qd.hamBlock hs cs b.1 b.2.1 (qd.hamlst b.1 b.2.2) = .ok ham) :
    ∃ qd', bs.foldlM (fun (qd : QD) b => do
      let ham ← qd.hamBlock hs cs b.1 b.2.1 (qd.hamlst b.1 b.2.2)
      pure (qd.setBlock b.1 b.2.2 ham)) qd = .ok qd' := by
  induction bs generalizing qd with
  | nil => exact ⟨qd, rfl⟩
  | cons b bs ih =>
    rw [List.map_cons, List.nodup_cons] at hnd
    obtain ⟨ham, hb⟩ := h b (by simp)
    obtain ⟨qd', hq⟩ := ih hnd.2 (qd.setBlock b.1 b.2.2 ham) (by
      intro b' hb'
      obtain ⟨ham', h'⟩ := h b' (by simp [hb'])
      refine ⟨ham', ?_⟩
      have : (qd.setBlock b.1 b.2.2 ham).hamlst b'.1 b'.2.2 = qd.hamlst b'.1 b'.2.2 := by
        refine if_neg ?_
        rintro ⟨h1, h2⟩
        exact hnd.1 (List.mem_map.2 ⟨b', hb', by rw [h1, h2]⟩)
      rw [this]
      exact h')
    refine ⟨qd', ?_⟩
    rw [List.foldlM_cons, hb]
    exact hq

theorem sectors_charge {n : Nat} {si : SI} (hix : si.indexing = .Lin ∨ si.indexing = .charge)
    (hnc : si.ncharge = n + 1) (q : Bool) : ∀ b ∈ hamSectors si q, b.1 ≤ n ∧ b.2.1 = none := by
  intro b hb
  unfold hamSectors at hb
  obtain ⟨c, hc, hb⟩ := List.mem_flatMap.1 hb
  rw [hnc, List.mem_range] at hc
  rcases hix with h | h
  · simp only [h, List.mem_singleton] at hb
    subst hb; exact ⟨by omega, rfl⟩
  · simp only [h, List.mem_singleton] at hb
    subst hb; exact ⟨by omega, rfl⟩

/-- With the indexings by charge, `QuantumDot` objects can be built from, and changed with,
dictionaries that name orbitals: no call raises. -/
theorem c13_dot_succeeds {n : Nat} {si : SI} (hc : Consistent n si)
    (hix : si.indexing = .Lin ∨ si.indexing = .charge) (hnc : si.ncharge = n + 1)
    (hermHs hermC mLessN hamSsqQ : Bool) {hs cs} (hhs : HsInRange n hs) (hcs : CsInRange n cs)
    (calls : List DotCall) (hv : ∀ c ∈ calls, c.Valid) (hr : ∀ c ∈ calls, c.InRange n) :
    ∃ qd0 qd, QD.init si none hermHs hermC mLessN hamSsqQ (.dict hs) (.dict cs) = .ok qd0 ∧
      qd0.run calls = .ok qd := by
  have hsec := sectors_charge hix hnc hamSsqQ
  obtain ⟨qd0, h0⟩ : ∃ qd0, QD.init si none hermHs hermC mLessN hamSsqQ (.dict hs) (.dict cs)
      = .ok qd0 := by
    refine blocks_progress _ _ _ (hamSectors_nodup _ _) _ ?_
    intro b hb
    obtain ⟨h1, h2⟩ := hsec b hb
    rw [h2]
    exact block_progress (hs' := []) (cs' := []) hc hhs hcs h1 (by rintro a ⟨⟩)
  refine ⟨qd0, ?_⟩
  obtain ⟨inv, s1, s2, -, -, -, s6⟩ := init_inv' h0
  suffices H : ∀ q0 : QD, DotInv q0 → q0.si = si → q0.nss = none → q0.hamSsqQ = hamSsqQ →
      ∃ qd, q0.run calls = .ok qd by
    obtain ⟨qd, h⟩ := H qd0 inv s1 s2 s6
    exact ⟨qd, h0, h⟩
  clear inv s1 s2 s6 h0
  induction calls with
  | nil => intro q0 _ _ _ _; exact ⟨q0, rfl⟩
  | cons c calls ih =>
    intro q0 inv s1 s2 s6
    have hone : ∀ hs' hs'' cs' cs'', HsInRange n hs' → CsInRange n cs' →
        ∃ q1, QD.addHam { q0 with hsingle := hs'', coulomb := cs'' } hs' cs' = .ok q1 := by
      intro hs' hs'' cs' cs'' r1 r2
      refine blocks_progress _ _ _ (hamSectors_nodup _ _) _ ?_
      intro b hb
      simp only [s1, s6] at hb
      obtain ⟨h1, h2⟩ := hsec b hb
      rw [h2]
      have hc' : Consistent n (QD.si { q0 with hsingle := hs'', coulomb := cs'' }) := by
        show Consistent n q0.si
        rw [s1]; exact hc
      refine block_progress (hs' := q0.hsingle) (cs' := q0.coulomb) hc' r1 r2 h1 ?_
      intro a ha
      obtain ⟨ham, t1, t2⟩ := inv.blocks b (by rw [s1, s6]; exact hb)
      rw [show QD.hamlst { q0 with hsingle := hs'', coulomb := cs'' } b.1 b.2.2
        = q0.hamlst b.1 b.2.2 from rfl, t1] at ha
      cases ha
      rw [h2] at t2
      exact t2
    have hcall : ∃ q1, q0.call c = .ok q1 := by
      have hrc := hr c (by simp)
      cases c with
      | add a b =>
        cases a with
        | dict d =>
          cases b with
          | dict e =>
            refine hone _ _ _ _ ?_ ?_
            · rw [s2]; exact hrc.1
            · rw [s2]; exact hrc.2
          | list _ => exact hrc.elim
          | other => exact hrc.elim
        | list _ => exact hrc.elim
        | array _ _ => exact hrc.elim
        | other => exact hrc.elim
      | change a b =>
        cases a with
        | dict d =>
          cases b with
          | dict e =>
            refine hone _ _ _ _ ?_ ?_
            · intro k hk
              have := dictChange_keys _ _ _ hk
              rw [s2] at this; exact hrc.1 k this
            · intro k hk
              have := dictChange_keys _ _ _ hk
              rw [s2] at this; exact hrc.2 k this
          | list _ => exact hrc.elim
          | other => exact hrc.elim
        | list _ => exact hrc.elim
        | array _ _ => exact hrc.elim
        | other => exact hrc.elim
    obtain ⟨q1, h1⟩ := hcall
    obtain ⟨i1, t1, t2, -, -, -, t6⟩ := call_inv inv c (hv c (by simp)) h1
    obtain ⟨qd, h2⟩ := ih (fun c' h' => hv c' (by simp [h'])) (fun c' h' => hr c' (by simp [h']))
      q1 i1 (t1.trans s1) (t2.trans s2) (t6.trans s6)
    exact ⟨qd, by rw [QD.run, List.foldlM_cons, h1]; exact h2⟩

end Verif

/-! ### Counterexamples and concrete cases -/

namespace Verif

open Spec

/-- One orbital: the facts about the object `StateIndexing(1)` used below. -/
theorem one_orbital : ∃ si, SI.init 1 "Lin" = .ok si ∧ si.ncharge = 2 ∧ si.nmany = 2 ∧
    si.nsingle = 1 ∧ si.indexing = .Lin ∧
    si.getLst (some ((0 : Nat) : Int)) none none = .ok (some [0]) ∧
    si.getLst (some ((1 : Nat) : Int)) none none = .ok (some [1]) ∧
    si.getState ((0 : Nat) : Int) = .ok [0] ∧ si.getState ((1 : Nat) : Int) = .ok [1] := by
  have h1 : (SI.init 1 "Lin" >>= fun si => do
      let l0 ← si.getLst (some ((0 : Nat) : Int)) none none
      let l1 ← si.getLst (some ((1 : Nat) : Int)) none none
      let s0 ← si.getState ((0 : Nat) : Int)
      let s1 ← si.getState ((1 : Nat) : Int)
      pure (l0, l1, s0, s1)) = .ok (some [0], some [1], [0], [1]) := by decide +kernel
  have h2 : (SI.init 1 "Lin" >>= fun si => pure (si.ncharge, si.nmany, si.nsingle)) =
      .ok (2, 2, 1) := by decide +kernel
  have h3 : (SI.init 1 "Lin" >>= fun si => pure si.indexing) = .ok .Lin := by decide +kernel
  obtain ⟨si, hsi, h1⟩ := bind_iff.1 h1
  rw [hsi] at h2 h3
  obtain ⟨l0, e0, h1⟩ := bind_iff.1 h1
  obtain ⟨l1, e1, h1⟩ := bind_iff.1 h1
  obtain ⟨s0, e2, h1⟩ := bind_iff.1 h1
  obtain ⟨s1, e3, h1⟩ := bind_iff.1 h1
  have h5 := Except.ok.inj h1
  have h6 := Except.ok.inj h2
  simp only [Prod.mk.injEq] at h5 h6
  obtain ⟨a5, a6, a7, a8⟩ := h5
  subst a5 a6 a7 a8
  exact ⟨si, hsi, h6.1, h6.2.1, h6.2.2, Except.ok.inj h3, e0, e1, e2, e3⟩

/-- The blocks of one orbital with on-site energy `x`. -/
theorem one_orbital_blocks {qd : QD} (h1 : qd.si.getLst (some ((1 : Nat) : Int)) none none = .ok (some [1]))
    (h0 : qd.si.getLst (some ((0 : Nat) : Int)) none none = .ok (some [0]))
    (s0 : qd.si.getState ((0 : Nat) : Int) = .ok [0])
    (s1 : qd.si.getState ((1 : Nat) : Int) = .ok [1]) (x : ℂ) (old : Option Arr)
    (hold : ∀ a, old = some a → a.dims = [1, 1]) :
    qd.hamBlock [((0, 0), x)] [] 0 none old = .ok (old.getD (Arr.zeros [1, 1])) ∧
    qd.hamBlock [((0, 0), x)] [] 1 none old =
      .ok ((old.getD (Arr.zeros [1, 1])).plus (single [0, 0] x)) := by
  have hd : (old.getD (Arr.zeros [1, 1])).dims = [1, 1] := by
    cases old with
    | none => rfl
    | some a => exact hold a rfl
  have e0 : pyGet [0] ((0 : Nat) : Int) = .ok 0 := rfl
  have e1 : pyGet [1] ((0 : Nat) : Int) = .ok 1 := rfl
  have s0' : qd.si.getState 0 = .ok [0] := s0
  have s1' : qd.si.getState 1 = .ok [1] := s1
  constructor
  · unfold QD.hamBlock
    simp only [h0, py_bind_ok, constructHamCoulomb, constructHamHopping, List.length_singleton,
      show List.range 1 = [0] from rfl, List.foldlM_cons, List.foldlM_nil, e0, s0, s0',
      hopStep, if_true, zero_ne_one, if_false, Option.getD_some]
    rfl
  · unfold QD.hamBlock
    simp only [h1, py_bind_ok, constructHamCoulomb, constructHamHopping, List.length_singleton,
      show List.range 1 = [0] from rfl, List.foldlM_cons, List.foldlM_nil, e1, s1, s1',
      hopStep, if_true, Option.getD_some, pure_bind, bind_pure]
    rw [Arr.add_ok (by rw [hd]; exact forall2_pair (by norm_num) (by norm_num))]

/-- C13 is false when the stored dictionary itself is passed to `add` (without symmetry): for one
orbital with energy 1, `qd.add(hsingle=qd.hsingle)` stores the energy 2 and the Hamiltonian 3. -/
theorem c13_own_dict_false : ∃ (si : SI) (qd0 qd : QD) (ham : Arr), SI.init 1 "Lin" = .ok si ∧
    QD.init si none true false true false (.dict [((0, 0), 1)]) .other = .ok qd0 ∧
    qd0.addOwnHsingle = .ok qd ∧ qd.hsingle = [((0, 0), 2)] ∧
    qd.hamlst 1 0 = some ham ∧ ham.val [0, 0] = 3 ∧
    QD.init si none true false true false (.dict qd.hsingle) (.dict qd.coulomb)
      ≠ .ok { qd with nss := none } := by
  obtain ⟨si, hsi, a1, -, -, a4, e0, e1, e2, e3⟩ := one_orbital
  have hsec : ∀ q, hamSectors si q = [(0, none, 0), (1, none, 0)] := by
    intro q
    unfold hamSectors
    rw [a1, a4]
    rfl
  let z : Arr := Arr.zeros [1, 1]
  let base : QD := { si, nss := none, hermHs := true, hermC := false, mLessN := true,
                     hamSsqQ := false, hsingle := [((0, 0), 1)], coulomb := [],
                     hamlst := fun _ _ => none }
  have run : ∀ (qd : QD) (x : ℂ), qd.si = si → (∀ c a, qd.hamlst c 0 = some a → a.dims = [1, 1]) →
      qd.addHam [((0, 0), x)] [] = .ok ((qd.setBlock 0 0 ((qd.hamlst 0 0).getD z)).setBlock 1 0
        (((qd.hamlst 1 0).getD z).plus (single [0, 0] x))) := by
    intro qd x hq hdim
    unfold QD.addHam
    rw [hq, hsec]
    simp only [List.foldlM_cons, List.foldlM_nil]
    have b0 := (one_orbital_blocks (qd := qd) (by rw [hq]; exact e1) (by rw [hq]; exact e0)
      (by rw [hq]; exact e2) (by rw [hq]; exact e3) x (qd.hamlst 0 0) (hdim 0)).1
    have b1 := (one_orbital_blocks (qd := qd.setBlock 0 0 ((qd.hamlst 0 0).getD z))
      (by rw [← hq] at e1; exact e1) (by rw [← hq] at e0; exact e0)
      (by rw [← hq] at e2; exact e2) (by rw [← hq] at e3; exact e3) x (qd.hamlst 1 0) (hdim 1)).2
    rw [b0]
    simp only [py_bind_ok, pure_bind]
    have : (qd.setBlock 0 0 ((qd.hamlst 0 0).getD z)).hamlst 1 0 = qd.hamlst 1 0 := rfl
    rw [this, b1]
    rfl
  have r0 := run base 1 rfl (by rintro c a ⟨⟩)
  generalize hq0 : ((base.setBlock 0 0 ((base.hamlst 0 0).getD z)).setBlock 1 0
        (((base.hamlst 1 0).getD z).plus (single [0, 0] 1))) = qd0 at r0
  have r1 := run { qd0 with hsingle := [((0, 0), 2)] } 2 (by rw [← hq0]; rfl) (by
    intro c a h
    rw [← hq0] at h
    simp only [QD.setBlock] at h
    split at h
    · cases h; rfl
    · split at h
      · cases h; rfl
      · cases h)
  generalize hq1 : ((QD.setBlock { qd0 with hsingle := [((0, 0), 2)] } 0 0 _).setBlock 1 0 _) = qd1
    at r1
  have hh : qd1.hsingle = [((0, 0), 2)] := by rw [← hq1]; rfl
  have hcl : qd1.coulomb = [] := by rw [← hq1, ← hq0]; rfl
  have hham : qd1.hamlst 1 0 = some ((z.plus (single [0, 0] 1)).plus (single [0, 0] 2)) := by
    rw [← hq1, ← hq0]; rfl
  refine ⟨si, qd0, qd1, _, hsi, r0, ?_, hh, hham, ?_, ?_⟩
  · unfold QD.addOwnHsingle
    have : (qd0.hsingle.map fun e => (e.1, e.2 + e.2)) = [((0, 0), 2)] := by
      rw [← hq0]
      show [(((0 : Nat), (0 : Nat)), (1 : ℂ) + 1)] = [((0, 0), 2)]
      norm_num
    simp only [this]
    exact r1
  · simp [Arr.plus, single, z, Arr.zeros]
    norm_num
  · intro hc
    have r2 := run { base with hsingle := [((0, 0), 2)] } 2 rfl (by rintro c a ⟨⟩)
    rw [hh, hcl] at hc
    have hc' : Except.ok _ = Except.ok _ := r2.symm.trans hc
    have := congrArg (fun q : QD => q.hamlst 1 0) (Except.ok.inj hc')
    simp only [hham] at this
    have h3 := congrArg (fun a : Option Arr => a.elim 0 fun a => a.val [0, 0]) this
    simp [QD.setBlock, base, z, Arr.plus, single, Arr.zeros] at h3

/-- `LeadsTunneling.change` leaves the array of single-particle amplitudes as it was. -/
theorem change_keeps_array {l l' : LeadsTun} {p : Param (Nat × Nat)} (h : l.change p = .ok l') :
    l'.tleadsArray = l.tleadsArray := by
  obtain ⟨_, -, h⟩ := bind_iff.1 h
  cases h
  rfl

/-- C13 is false for the array of single-particle amplitudes: one lead, one orbital, amplitude 1
changed to 2. The stored amplitude is 2, the array (read by the RTD approach) still holds 1. -/
theorem c13_tleads_array_false : ∃ (si : SI) (l0 l : LeadsTun), SI.init 1 "Lin" = .ok si ∧
    LeadsTun.init si 1 none (.dict [((0, 0), 1)]) = .ok l0 ∧
    l0.run [.change (.dict [((0, 0), 2)])] = .ok l ∧
    l.tleads = [((0, 0), 2)] ∧ l.tleadsArray.val [0, 0] = 1 ∧
    makeTleadsArray 1 si.nsingle l.tleads ≠ .ok l.tleadsArray := by
  obtain ⟨si, hsi, -, -, a3, -⟩ := one_orbital
  obtain ⟨si', hsi', hc, -⟩ := init_consistent 1 (le_refl 1) "Lin"
  have : si' = si := Except.ok.inj (hsi'.symm.trans hsi)
  subst this
  have harr : ∀ x : ℂ, makeTleadsArray 1 si'.nsingle [((0, 0), x)] =
      .ok ⟨[1, 1], Function.update (fun _ => 0) [0, 0] x⟩ := by
    intro x
    rw [a3]
    unfold makeTleadsArray
    simp only [List.foldlM_cons, List.foldlM_nil]
    rw [Arr.put, if_pos (show List.Forall₂ (· < ·) [0, 0] (Arr.zeros [1, 1]).dims from
      forall2_pair (N := 1) (by norm_num) (by norm_num))]
    rfl
  obtain ⟨T, hT, -⟩ := c12_tba hc 1 [((0, 0), 1)] (by simp)
  have hT : constructTba si' 1 [((0, 0), 1)] none = .ok T := hT
  obtain ⟨_, _, _, L⟩ := tba_linear si' 1
  have hT' : constructTba si' 1 [((0, 0), 1)] (some (Arr.zeros [1, si'.nmany, si'.nmany])) = .ok T :=
    hT
  have hdT := L.dims rfl hT'
  obtain ⟨T', hT'⟩ := L.ok_of_keys (d' := [((0, 0), (1 : ℂ))]) rfl hT' hdT (by simp)
  have hch : dictChange [(((0 : Nat), (0 : Nat)), (1 : ℂ))] [((0, 0), 2)] =
      ([((0, 0), 2)], [((0, 0), 1)]) := by
    have h1 : (2 : ℂ) - 1 = 1 := by norm_num
    have h2 : (1 : ℂ) + 1 = 2 := by norm_num
    simp [dictChange, dictChangeStep, Dict.get?, Dict.set, h1, h2]
  refine ⟨si', ⟨si', 1, none, [((0, 0), 1)], ⟨[1, 1], Function.update (fun _ => 0) [0, 0] 1⟩, T⟩,
    ⟨si', 1, none, [((0, 0), 2)], ⟨[1, 1], Function.update (fun _ => 0) [0, 0] 1⟩, T'⟩,
    hsi, ?_, ?_, rfl, by simp, ?_⟩
  · exact bind_iff.2 ⟨_, harr 1, bind_iff.2 ⟨_, hT, rfl⟩⟩
  · rw [LeadsTun.run, List.foldlM_cons]
    refine bind_iff.2 ⟨_, ?_, rfl⟩
    show LeadsTun.change _ _ = _
    refine bind_iff.2 ⟨T', ?_, ?_⟩
    · show constructTba si' 1 (dictChange [((0, 0), 1)] [((0, 0), 2)]).2 (some T) = _
      rw [hch]; exact hT'
    · show (pure _ : Py LeadsTun) = _
      congr 1
      show LeadsTun.mk si' 1 none (dictChange [((0, 0), 1)] [((0, 0), 2)]).1 _ T' = _
      rw [hch]
  · rw [harr]
    intro hc
    have := congrArg (fun a : Arr => a.val [0, 0]) (Except.ok.inj hc)
    simp at this

/-- A history as in `c13_dot_partial` that succeeds: three orbitals, hopping, an interaction, an added
entry and a change. -/
example : ∃ si qd0 qd, SI.init 3 "charge" = .ok si ∧
    QD.init si none true false true false (.dict [((0, 1), Complex.I)])
      (.dict [((0, 1, 1, 0), 2)]) = .ok qd0 ∧
    qd0.run [.add (.dict [((0, 1), 1), ((2, 2), 3)]) (.dict []),
      .change (.dict [((2, 2), 0)]) (.dict [((0, 1, 1, 0), 5)])] = .ok qd := by
  obtain ⟨si, hsi, hc, -⟩ := init_consistent 3 (by decide) "charge"
  have h1 : (SI.init 3 "charge" >>= fun si => pure (si.ncharge, si.indexing)) =
      .ok (4, .charge) := by decide +kernel
  rw [hsi] at h1
  have h2 := Except.ok.inj h1
  simp only [Prod.mk.injEq] at h2
  obtain ⟨qd0, qd, g1, g2⟩ := c13_dot_succeeds hc (.inr h2.2) h2.1 true false true false
    (hs := [((0, 1), Complex.I)]) (cs := [((0, 1, 1, 0), 2)])
    (by simp [HsInRange]) (by simp [CsInRange])
    [.add (.dict [((0, 1), 1), ((2, 2), 3)]) (.dict []),
      .change (.dict [((2, 2), 0)]) (.dict [((0, 1, 1, 0), 5)])]
    (by simp [DotCall.Valid, Param.Valid, CoulombArg.Valid])
    (by
      simp only [List.mem_cons, List.not_mem_nil, or_false, forall_eq_or_imp, forall_eq,
        DotCall.InRange, HsInRange, CsInRange, List.map_cons, List.map_nil]
      simp)
  exact ⟨si, qd0, qd, hsi, g1, g2⟩

/-- Couplings that can be constructed and changed. -/
example : ∃ si b0, SI.init 2 "Lin" = .ok si ∧
    Baths.init si 1 none (.dict [((0, 0, 1), Complex.I)]) = .ok b0 := by
  obtain ⟨si, hsi, hc, -⟩ := init_consistent 2 (by decide) "Lin"
  obtain ⟨V, hV, -⟩ := c44_vbbp hc 1 [((0, 0, 1), Complex.I)] (by simp)
  exact ⟨si, _, hsi, bind_iff.2 ⟨V, hV, rfl⟩⟩

end Verif
