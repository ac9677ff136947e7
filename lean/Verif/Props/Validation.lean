import Verif.Model.Validation
import Verif.Props.SolveNeg

/-!
C33: validation of options.
-/

namespace Verif

/-- `x` is one of the documented values of `itype`. -/
def ItypeOk (x : PyVal) : Prop := x.asNum = some 0 ∨ x.asNum = some 1 ∨ x.asNum = some 2 ∨ x.asNum = some 3

instance (x : PyVal) : Decidable (ItypeOk x) := by unfold ItypeOk; infer_instance

/-- The documented configurations, with the restrictions of the 2vN and RTD approaches. -/
structure LegalCfg (c : Cfg) : Prop where
  kerntype : ∃ s, c.kerntype = .str s ∧ s ∈ ["Pauli", "Lindblad", "Redfield", "1vN", "2vN", "RTD", "pyPauli", "pyLindblad",
    "pyRedfield", "py1vN", "py2vN", "pyRTD"]
  itype : ItypeOk c.itype
  indexing : ∃ s, c.indexing = .str s ∧ s ∈ ["Lin", "charge", "sz", "ssq"]
  vn : c.kerntype = .str "2vN" ∨ c.kerntype = .str "py2vN" → c.indexing = .str "Lin" ∨ c.indexing = .str "charge"
  rtd : c.kerntype = .str "RTD" ∨ c.kerntype = .str "pyRTD" → c.indexing = .str "charge" ∧ c.itype.asNum = some 1

/-! ### Reading the comparisons -/

theorem eq_str (x : PyVal) (s : String) : x.eq (.str s) = decide (x = .str s) := by
  unfold PyVal.eq
  cases x <;> simp [PyVal.asNum, beq_eq_decide, bne, PyVal.str.injEq]

theorem eq_num (x : PyVal) (q : Rat) : x.eq (.num q) = decide (x.asNum = some q) := by
  unfold PyVal.eq
  cases x with
  | bool b => simp [PyVal.asNum, beq_eq_decide]
  | num p => simp [PyVal.asNum, beq_eq_decide]
  | none => simp [PyVal.asNum]
  | str s => simp [PyVal.asNum]
  | unhash => simp [PyVal.asNum]
  | cls a k => simp [PyVal.asNum]

theorem inTuple2 (x : PyVal) (s t : String) :
    x.inTuple [.str s, .str t] = decide (x = .str s ∨ x = .str t) := by
  simp [PyVal.inTuple, eq_str]

theorem inTuple4 (x : PyVal) (s t u w : String) :
    x.inTuple [.str s, .str t, .str u, .str w] = decide (x = .str s ∨ x = .str t ∨ x = .str u ∨ x = .str w) := by
  simp [PyVal.inTuple, eq_str]

theorem inTupleN (x : PyVal) : x.inTuple [.num 0, .num 1, .num 2, .num 3] = decide (ItypeOk x) := by
  rw [Bool.eq_iff_iff, decide_eq_true_iff]
  unfold ItypeOk
  simp [PyVal.inTuple, eq_num]

theorem inSet_hash {x : PyVal} (h : x ≠ .unhash) (s : List PyVal) : x.inSet s = .ok (x.inTuple s) := by
  unfold PyVal.inSet; rw [if_neg h]

/-- What `validate_itype` returns. -/
theorem validateItype_eq (i k : PyVal) (h : i ≠ .unhash ∨ k = .str "RTD" ∨ k = .str "pyRTD") :
    validateItype i k = .ok (if k = .str "RTD" ∨ k = .str "pyRTD" then (if i.asNum = some 1 then i else .num 1)
      else (if ItypeOk i then i else .num 0)) := by
  unfold validateItype
  rw [inTuple2]
  by_cases hk : k = .str "RTD" ∨ k = .str "pyRTD"
  · simp only [hk, decide_true, Bool.not_true, Bool.false_eq_true, if_false, if_true, eq_num, py_pure]
    by_cases h1 : i.asNum = some 1 <;> simp [h1]
  · have hi : i ≠ .unhash := by
      rcases h with h | h
      · exact h
      · exact absurd h hk
    simp only [hk, decide_false, Bool.not_false, if_true, if_false, inSet_hash hi, inTupleN, py_bind_ok, py_pure]
    by_cases h1 : ItypeOk i <;> simp [h1]

/-- What `validate_indexing` returns for a name of an approach. -/
theorem validateIndexing_eq (ix sy : PyVal) (k : String) (h : ix ≠ .unhash) :
    ∃ ix' sy', validateIndexing ix sy (.str k) = .ok (ix', sy') ∧
      (∃ s, ix' = .str s ∧ s ∈ ["Lin", "charge", "sz", "ssq"]) ∧
      (k = "2vN" ∨ k = "py2vN" → ix' = .str "Lin" ∨ ix' = .str "charge") ∧
      (k = "RTD" ∨ k = "pyRTD" → ix' = .str "charge") ∧
      ((∃ s, ix = .str s ∧ s ∈ ["Lin", "charge", "sz", "ssq"]) →
        (k = "2vN" ∨ k = "py2vN" → ix = .str "Lin" ∨ ix = .str "charge") →
        (k = "RTD" ∨ k = "pyRTD" → ix = .str "charge") → ix' = ix ∧ sy' = sy) := by
  have hk : (.str k : PyVal) ≠ .unhash := by simp
  -- the choice of a default
  have hd : ∃ p : PyVal × PyVal, withDefault ix sy (.str k) = .ok p ∧
      p.1 ≠ .unhash ∧ (ix ≠ .none → p = (ix, sy)) := by
    unfold withDefault
    by_cases h0 : ix = .none
    · rw [if_pos h0]
      unfold defaultIndexing
      rw [eq_str]
      by_cases h1 : sy = .str "spin"
      · simp only [h1, decide_true, if_true, inSet_hash hk, inTuple2, py_bind_ok, PyVal.str.injEq]
        by_cases h2 : k = "pyRTD" ∨ k = "RTD"
        · simp only [h2, decide_true, if_true]
          exact ⟨_, rfl, by simp, fun h => absurd h0 h⟩
        · simp only [h2, decide_false, Bool.false_eq_true, if_false]
          exact ⟨_, rfl, by simp only; split <;> simp, fun h => absurd h0 h⟩
      · simp only [h1, decide_false, Bool.false_eq_true, if_false]
        exact ⟨_, rfl, by simp, fun h => absurd h0 h⟩
    · rw [if_neg h0]
      exact ⟨_, rfl, h, fun _ => rfl⟩
  obtain ⟨⟨p1, p2⟩, e, hp, hsame⟩ := hd
  unfold validateIndexing
  rw [e]
  simp only [py_bind_ok, inSet_hash hp, inTuple4]
  -- an allowed name
  have h1 : ∃ s, (if (!decide (p1 = .str "Lin" ∨ p1 = .str "charge" ∨ p1 = .str "sz" ∨ p1 = .str "ssq")) = true
      then (.str "charge" : PyVal) else p1) = .str s ∧ s ∈ ["Lin", "charge", "sz", "ssq"] ∧
      ((∃ s, p1 = .str s ∧ s ∈ ["Lin", "charge", "sz", "ssq"]) → p1 = .str s) := by
    by_cases hc : p1 = .str "Lin" ∨ p1 = .str "charge" ∨ p1 = .str "sz" ∨ p1 = .str "ssq"
    · simp only [hc, decide_true, Bool.not_true, Bool.false_eq_true, if_false]
      rcases hc with rfl | rfl | rfl | rfl <;> exact ⟨_, rfl, by simp, fun _ => rfl⟩
    · simp only [hc, decide_false, Bool.not_false, if_true]
      refine ⟨_, rfl, by simp, ?_⟩
      rintro ⟨s, rfl, hs⟩
      simp only [PyVal.str.injEq] at hc
      simp at hs
      exact absurd hs hc
  obtain ⟨s, es, hs, hsame2⟩ := h1
  rw [es]
  have hsh : (.str s : PyVal) ≠ .unhash := by simp
  -- the restriction of 2vN
  have h2 : ∃ s', restrictVN (.str s) (.str k) = .ok (.str s') ∧ s' ∈ ["Lin", "charge", "sz", "ssq"] ∧
      (k = "2vN" ∨ k = "py2vN" → s' = "Lin" ∨ s' = "charge") ∧
      ((k = "2vN" ∨ k = "py2vN" → s = "Lin" ∨ s = "charge") → s' = s) := by
    unfold restrictVN
    simp only [inSet_hash hsh, inTuple2, py_bind_ok, PyVal.str.injEq, inSet_hash hk, py_pure]
    by_cases a : s = "Lin" ∨ s = "charge"
    · simp only [a, decide_true, Bool.not_true, Bool.false_eq_true, if_false]
      exact ⟨s, rfl, hs, fun _ => a, fun _ => rfl⟩
    · by_cases b : k = "py2vN" ∨ k = "2vN"
      · refine ⟨"charge", by simp [a, b], by simp, fun _ => Or.inr rfl, fun h => absurd (h b.symm) a⟩
      · simp only [a, b, decide_false, Bool.not_false, if_true, Bool.false_eq_true, if_false]
        exact ⟨s, rfl, hs, fun h => absurd h.symm b, fun _ => rfl⟩
  obtain ⟨s', es', hs', hv', hsame3⟩ := h2
  rw [es']
  unfold restrictRTD
  simp only [py_bind_ok, eq_str, PyVal.str.injEq, inSet_hash hk, inTuple2, py_pure]
  -- the restriction of RTD
  by_cases a : s' = "charge"
  · simp only [a, decide_true, Bool.not_true, Bool.false_eq_true, if_false, py_bind_ok]
    refine ⟨_, _, rfl, ⟨_, rfl, by simp⟩, fun _ => Or.inr rfl, fun _ => rfl, ?_⟩
    intro g1 g2 g3
    obtain ⟨t, rfl, ht⟩ := g1
    have hp := hsame (by simp)
    simp only [Prod.mk.injEq] at hp
    obtain ⟨rfl, rfl⟩ := hp
    have := PyVal.str.inj (hsame2 ⟨t, rfl, ht⟩)
    subst this
    have := hsame3 (fun h => by simpa using g2 h)
    exact ⟨by rw [← this, a], rfl⟩
  · by_cases b : k = "pyRTD" ∨ k = "RTD"
    · simp only [a, b, decide_true, decide_false, Bool.not_false, if_true, py_bind_ok]
      refine ⟨_, _, rfl, ⟨_, rfl, by simp⟩, fun _ => Or.inr rfl, fun _ => rfl, ?_⟩
      intro g1 g2 g3
      exact ⟨(g3 b.symm).symm, by rw [g3 b.symm] at hsame; exact (Prod.mk.inj (hsame (by simp))).2⟩
    · simp only [a, b, decide_false, Bool.not_false, if_true, Bool.false_eq_true, if_false, py_bind_ok]
      refine ⟨_, _, rfl, ⟨_, rfl, hs'⟩, fun h => by simpa using hv' h, fun h => absurd h.symm b, ?_⟩
      intro g1 g2 g3
      obtain ⟨t, rfl, ht⟩ := g1
      have hp := hsame (by simp)
      simp only [Prod.mk.injEq] at hp
      obtain ⟨rfl, rfl⟩ := hp
      have := PyVal.str.inj (hsame2 ⟨t, rfl, ht⟩)
      subst this
      have := hsame3 (fun h => by simpa using g2 h)
      exact ⟨by rw [this], rfl⟩

theorem validateKerntype_str (s : String) : ∃ k, validateKerntype (.str s) = .str k ∧ k ∈ kernNames ∧
    (s ∈ kernNames → k = s) ∧ (s ∉ kernNames → k = "Pauli") := by
  unfold validateKerntype
  by_cases h : s ∈ kernNames
  · exact ⟨s, by simp [h], h, fun _ => rfl, fun h' => absurd h h'⟩
  · exact ⟨"Pauli", by simp [h], by decide, fun h' => absurd h' h, fun _ => rfl⟩

theorem kernNames_doc : ∀ k ∈ kernNames, k ∈ ["Pauli", "Lindblad", "Redfield", "1vN", "2vN", "RTD", "pyPauli",
    "pyLindblad", "pyRedfield", "py1vN", "py2vN", "pyRTD"] := by decide +kernel

theorem doc_kernNames : ∀ k ∈ ["Pauli", "Lindblad", "Redfield", "1vN", "2vN", "RTD", "pyPauli",
    "pyLindblad", "pyRedfield", "py1vN", "py2vN", "pyRTD"], k ∈ kernNames := by decide +kernel

/-! ### C33 -/

/-- **C33**. Whatever string is given as `kerntype` and whatever hashable values as `itype` and `indexing` (and
anything as `symmetry`), the constructor arrives at a documented configuration. -/
theorem c33_legal (s : String) (itype indexing symmetry : PyVal) (hi : itype ≠ .unhash) (hx : indexing ≠ .unhash) :
    ∃ c, Cfg.validate ⟨.str s, itype, indexing, symmetry⟩ = .ok c ∧ LegalCfg c := by
  obtain ⟨k, ek, hk, hs1, hs2⟩ := validateKerntype_str s
  obtain ⟨ix, sy, e, g1, g2, g3, -⟩ := validateIndexing_eq indexing symmetry k hx
  unfold Cfg.validate
  rw [validateItype_eq _ _ (Or.inl hi)]
  simp only [py_bind_ok, ek, e, py_pure]
  refine ⟨_, rfl, ?_, ?_, g1, ?_, ?_⟩
  · refine ⟨k, rfl, ?_⟩
    exact kernNames_doc k hk
  · simp only
    split
    · split
      · right; left; assumption
      · right; left; rfl
    · split
      · assumption
      · left; rfl
  · intro h
    simp only [PyVal.str.injEq] at h
    exact g2 h
  · intro h
    simp only [PyVal.str.injEq] at h
    refine ⟨g3 h, ?_⟩
    have hsk : s = k := by
      by_contra hne
      have : s ∉ kernNames := fun h' => hne (hs1 h').symm
      have := hs2 this
      subst this
      simp at h
    have : (PyVal.str s = .str "RTD" ∨ PyVal.str s = .str "pyRTD") := by
      simp only [PyVal.str.injEq]; rw [hsk]; exact h
    simp only [if_pos this]
    split
    · assumption
    · rfl

/-- **C33**, legal values are not altered. -/
theorem c33_unchanged {c : Cfg} (h : LegalCfg c) : c.validate = .ok c := by
  obtain ⟨k, i, x, y⟩ := c
  obtain ⟨s, hs, hk⟩ := h.kerntype
  simp only at hs
  subst hs
  have hk' : s ∈ kernNames := doc_kernNames s hk
  obtain ⟨k', ek, _, hs1, _⟩ := validateKerntype_str s
  have := hs1 hk'
  subst this
  have hx : x ≠ .unhash := by
    obtain ⟨t, ht, _⟩ := h.indexing
    simp only at ht
    rw [ht]; simp
  have hi : i ≠ .unhash := by
    have := h.itype
    unfold ItypeOk at this
    intro e
    simp only at this
    rw [e] at this
    simp [PyVal.asNum] at this
  obtain ⟨ix, sy, e, -, -, -, g⟩ := validateIndexing_eq x y k' hx
  obtain ⟨rfl, rfl⟩ := g h.indexing (fun hh => h.vn (by simpa using hh)) (fun hh => (h.rtd (by simpa using hh)).1)
  unfold Cfg.validate
  rw [validateItype_eq _ _ (Or.inl hi)]
  simp only [py_bind_ok, ek, e, py_pure]
  have hI := h.itype
  simp only at hI
  congr 2
  by_cases hr : PyVal.str k' = .str "RTD" ∨ PyVal.str k' = .str "pyRTD"
  · rw [if_pos hr, if_pos (h.rtd hr).2]
  · rw [if_neg hr, if_pos hI]

/-- **C33**, validation is idempotent. -/
theorem c33_idempotent (s : String) (itype indexing symmetry : PyVal) (hi : itype ≠ .unhash) (hx : indexing ≠ .unhash) :
    (Cfg.validate ⟨.str s, itype, indexing, symmetry⟩ >>= Cfg.validate)
      = Cfg.validate ⟨.str s, itype, indexing, symmetry⟩ := by
  obtain ⟨c, e, h⟩ := c33_legal s itype indexing symmetry hi hx
  rw [e]
  exact c33_unchanged h

/-- **C33**, `itype_ph`. -/
theorem c33_itype_ph (i : PyVal) (hi : i ≠ .unhash) : ∃ j, validateItypePh i = .ok j ∧
    (j.asNum = some 0 ∨ j.asNum = some 2) ∧ (i.asNum = some 0 ∨ i.asNum = some 2 → j = i) ∧
    validateItypePh j = .ok j := by
  have key : ∀ i : PyVal, i ≠ .unhash → validateItypePh i
      = .ok (if i.asNum = some 0 ∨ i.asNum = some 2 then i else .num 0) := by
    intro i hi
    have h02 : i.inTuple [.num 0, .num 2] = decide (i.asNum = some 0 ∨ i.asNum = some 2) := by
      rw [Bool.eq_iff_iff]
      simp [PyVal.inTuple, eq_num]
    unfold validateItypePh
    simp only [inSet_hash hi, h02, py_bind_ok, py_pure]
    by_cases h : i.asNum = some 0 ∨ i.asNum = some 2 <;> simp [h]
  rw [key i hi]
  refine ⟨_, rfl, ?_, ?_, ?_⟩
  · split
    · assumption
    · left; rfl
  · intro h; rw [if_pos h]
  · by_cases h : i.asNum = some 0 ∨ i.asNum = some 2
    · rw [if_pos h, key i hi, if_pos h]
    · rw [if_neg h, key _ (by simp)]
      simp

/-- **C33**, `mfreeq`: the matrix-free method is switched off for RTD, and only there. -/
theorem c33_mfreeq (k m : PyVal) (hk : k ≠ .unhash) : ∃ m', validateMfreeq k m = .ok m' ∧
    (k = .str "RTD" ∨ k = .str "pyRTD" → m'.truthy = false) ∧
    (¬ (k = .str "RTD" ∨ k = .str "pyRTD") → m' = m) ∧ (m.truthy = false → m' = m) ∧
    validateMfreeq k m' = .ok m' := by
  have key : ∀ m, validateMfreeq k m = .ok (if m.truthy = true ∧ (k = .str "RTD" ∨ k = .str "pyRTD")
      then .bool false else m) := by
    intro m
    unfold validateMfreeq
    simp only [inSet_hash hk, inTuple2, py_bind_ok, py_pure]
    by_cases h : m.truthy = true <;> by_cases h2 : k = .str "RTD" ∨ k = .str "pyRTD" <;> simp [h, h2]
  rw [key]
  refine ⟨_, rfl, ?_, ?_, ?_, ?_⟩
  · intro h
    by_cases hm : m.truthy = true
    · rw [if_pos ⟨hm, h⟩]; rfl
    · rw [if_neg (fun x => hm x.1)]; simpa using hm
  · intro h; rw [if_neg (fun x => h x.2)]
  · intro h; rw [if_neg (by simp [h])]
  · by_cases h : m.truthy = true ∧ (k = .str "RTD" ∨ k = .str "pyRTD")
    · rw [if_pos h, key]; simp [PyVal.truthy]
    · rw [if_neg h, key, if_neg h]

example : validateMfreeq (.str "RTD") (.bool true) = .ok (.bool false) ∧
    validateMfreeq (.str "Pauli") (.bool true) = .ok (.bool true) := by decide +kernel

/-- **C33**, the class of the approach is found for every string. -/
theorem c33_class_found (s : String) (itype indexing symmetry : PyVal) (hi : itype ≠ .unhash)
    (hx : indexing ≠ .unhash) :
    ∃ c k, Cfg.build baseGlobals ⟨.str s, itype, indexing, symmetry⟩ = .ok (c, k) ∧ LegalCfg c ∧
      (∃ t, c.kerntype = .str t ∧ classOf baseGlobals t = .ok k) := by
  obtain ⟨c, e, h⟩ := c33_legal s itype indexing symmetry hi hx
  obtain ⟨t, ht, hm⟩ := h.kerntype
  have : ∀ t ∈ ["Pauli", "Lindblad", "Redfield", "1vN", "2vN", "RTD", "pyPauli", "pyLindblad",
    "pyRedfield", "py1vN", "py2vN", "pyRTD"], ∃ k, classOf baseGlobals t = .ok k := by
    have hb : ∀ t ∈ ["Pauli", "Lindblad", "Redfield", "1vN", "2vN", "RTD", "pyPauli", "pyLindblad",
      "pyRedfield", "py1vN", "py2vN", "pyRTD"], (classOf baseGlobals t).isOk = true := by decide +kernel
    intro t ht
    have := hb t ht
    cases h : classOf baseGlobals t with
    | ok k => exact ⟨k, rfl⟩
    | error e => rw [h] at this; cases this
  obtain ⟨k, hk⟩ := this t hm
  refine ⟨c, k, ?_, h, t, ht, hk⟩
  unfold Cfg.build
  rw [e]
  simp only [py_bind_ok, setApproachClass, ht, hk, py_pure]

example : Cfg.build baseGlobals ⟨.str "pyRTD", .num 0, .none, .str "spin"⟩
    = .ok (⟨.str "pyRTD", .num 1, .str "charge", .none⟩, "ApproachPyRTD") := by decide +kernel

example : Cfg.build baseGlobals ⟨.str "bogus", .num (1/2), .str "Sz", .none⟩
    = .ok (⟨.str "Pauli", .num 0, .str "charge", .none⟩, "ApproachPauli") := by decide +kernel

example : LegalCfg ⟨.str "2vN", .num 2, .str "Lin", .none⟩ where
  kerntype := ⟨_, rfl, by simp⟩
  itype := by decide +kernel
  indexing := ⟨_, rfl, by simp⟩
  vn := fun _ => Or.inl rfl
  rtd := by simp

/-! ### What is not validated -/

/-- **C33**, violated: a list (or another unhashable object) as `itype` raises instead of being replaced. -/
theorem c33_unhashable_raises (s : String) (indexing symmetry : PyVal) (h : s ≠ "RTD") (h' : s ≠ "pyRTD") :
    Cfg.validate ⟨.str s, .unhash, indexing, symmetry⟩ = .error .type := by
  unfold Cfg.validate validateItype
  rw [inTuple2]
  simp [h, h', PyVal.inSet]
  rfl

/-- **C33**, violated: a class derived from `Approach` is accepted by the code of the constructor, which then
raises. -/
theorem c33_class_raises (k : String) (itype indexing symmetry : PyVal) (hi : itype ≠ .unhash)
    (hx : indexing = .str "charge") (g : List String) :
    Cfg.build g ⟨.cls true k, itype, indexing, symmetry⟩ = .error .attribute := by
  subst hx
  unfold Cfg.build Cfg.validate
  rw [validateItype_eq _ _ (Or.inl hi)]
  simp [validateKerntype, validateIndexing, withDefault, restrictVN, restrictRTD, PyVal.inSet, PyVal.inTuple, eq_str,
    setApproachClass, py_pure]
  rfl

/-- **C33**, violated: `BuilderElPh` accepts 'RTD' and 'pyRTD' and raises `KeyError` afterwards. -/
theorem c33_elph_rtd_raises (s : String) (hs : s = "RTD" ∨ s = "pyRTD") (itype indexing symmetry : PyVal)
    (hi : itype ≠ .unhash) (hx : indexing ≠ .unhash) :
    Cfg.build elphGlobals ⟨.str s, itype, indexing, symmetry⟩ = .error .key := by
  obtain ⟨k, ek, -, hs1, -⟩ := validateKerntype_str s
  have hk : k = s := hs1 (by rcases hs with rfl | rfl <;> decide)
  subst hk
  obtain ⟨ix, sy, e, -⟩ := validateIndexing_eq indexing symmetry k hx
  unfold Cfg.build Cfg.validate
  rw [validateItype_eq _ _ (Or.inl hi)]
  simp only [py_bind_ok, ek, e, py_pure, setApproachClass]
  rcases hs with rfl | rfl
  · have : classOf elphGlobals "RTD" = .error .key := by decide +kernel
    rw [this]; rfl
  · have : classOf elphGlobals "pyRTD" = .error .key := by decide +kernel
    rw [this]; rfl

/-- The options kept by a system after construction. -/
def Built.Legal (b : Built) : Prop :=
  LegalCfg ⟨.str b.kerntype, b.itype, b.indexing, .none⟩ ∧
    (b.kerntype = "RTD" ∨ b.kerntype = "pyRTD" → b.mfreeq = .bool false)

/-- **C33**, violated: changing `kerntype` on an existing system validates nothing. `itype`, `indexing` and `mfreeq`
stay, so every legal system of another approach with `itype` different from 1 becomes an illegal RTD system. -/
theorem c33_set_kerntype_false (b : Built) (hk : b.kerntype ≠ "RTD") (h1 : b.itype.asNum ≠ some 1) :
    ∃ b', b.setKerntype baseGlobals "RTD" = .ok b' ∧ b'.kerntype = "RTD" ∧ b'.itype = b.itype ∧
      b'.indexing = b.indexing ∧ b'.mfreeq = b.mfreeq ∧ ¬ b'.Legal := by
  have hc : classOf baseGlobals "RTD" = .ok "ApproachRTD" := by decide +kernel
  refine ⟨{ b with cls := "ApproachRTD", kerntype := "RTD" }, ?_, rfl, rfl, rfl, rfl, ?_⟩
  · unfold Built.setKerntype
    rw [if_pos hk, hc]
    rfl
  · rintro ⟨h, -⟩
    exact h1 (h.rtd (Or.inl rfl)).2

example : Built.Legal ⟨"ApproachPauli", "Pauli", .num 0, .str "sz", .bool false⟩ :=
  ⟨⟨⟨_, rfl, by simp⟩, by decide +kernel, ⟨_, rfl, by simp⟩, by simp, by simp⟩, by simp⟩

/-- **C33**, violated: an unknown name assigned to `kerntype` raises `KeyError` instead of being replaced by the
default, the empty name raises `IndexError`. -/
theorem c33_set_kerntype_raises (b : Built) :
    (b.kerntype ≠ "bogus" → b.setKerntype baseGlobals "bogus" = .error .key) ∧
    (b.kerntype ≠ "" → b.setKerntype baseGlobals "" = .error .index) := by
  have hc : classOf baseGlobals "bogus" = .error .key := by decide +kernel
  have hc' : classOf baseGlobals "" = .error .index := by decide +kernel
  constructor
  · intro h
    unfold Built.setKerntype
    rw [if_pos h, hc]; rfl
  · intro h
    unfold Built.setKerntype
    rw [if_pos h, hc']; rfl

/-! ### The solution method -/

/-- **C33**, solution method in matrix mode: with the overdetermined system the method is 'lsqr' or 'lsmr', with the
square system it is the given one or 'solve'; a method valid for the mode is kept. -/
theorem c33_solmethod_partial (o : Opts) (hm : o.mfreeq = false) :
    (o.symq = false → o.prepareSolver.solmethod = some "lsqr" ∨ o.prepareSolver.solmethod = some "lsmr") ∧
    (o.symq = false → ∀ m, o.solmethod = some m → m = "lsqr" ∨ m = "lsmr" → o.prepareSolver.solmethod = some m) ∧
    (o.symq = true → o.solmethod = none → o.prepareSolver.solmethod = some "solve") ∧
    (o.symq = true → ∀ m, o.solmethod = some m → o.prepareSolver.solmethod = some m) ∧
    o.prepareSolver.prepareSolver = o.prepareSolver := by
  refine ⟨?_, ?_, ?_, ?_, prepareSolver_idem o⟩
  · intro hs
    unfold Opts.prepareSolver
    simp only [hm, hs, Bool.false_eq_true, if_false, Bool.not_false, Bool.true_and]
    by_cases h1 : o.solmethod.getD "lsqr" = "lsqr"
    · simp [h1]
    · by_cases h2 : o.solmethod.getD "lsqr" = "lsmr" <;> simp [h1, h2]
  · intro hs m e hm'
    unfold Opts.prepareSolver
    simp only [hm, hs, e, Bool.false_eq_true, if_false, Bool.not_false, Bool.true_and, Option.getD_some]
    rcases hm' with rfl | rfl <;> simp
  · intro hs e
    unfold Opts.prepareSolver
    simp [hm, hs, e]
  · intro hs m e
    unfold Opts.prepareSolver
    simp [hm, hs, e]

example : (⟨false, false, 0, some "lsmr", none⟩ : Opts).prepareSolver.solmethod = some "lsmr" := by decide
example : (⟨false, false, 0, some "solve", none⟩ : Opts).prepareSolver.solmethod = some "lsqr" := by decide

theorem stepS_some (f : AState → Py AState) (s : AState) (e : PyErr) : stepS f (s, some e) = (s, some e) := rfl

/-- **C33**, violated: the accepted methods are not all implemented. With 'lsmr' (which passes the check for
`symq=False`) or any unknown name with `symq=True` nothing is solved: after an earlier solve, a solve for any other
parameters of the system leaves the old solution as `phi0` and reports success. -/
theorem c33_stale_solution {size : View → Nat} {useKh : Bool} {s : AState} (hs : Reached size useKh s)
    (hm : s.opts.mfreeq = false) (h1 : s.opts.prepareSolver.solmethod ≠ some "solve")
    (h2 : s.opts.prepareSolver.solmethod ≠ some "lsqr") {x : Vec} (hx : s.sol0 = some x)
    (hn : x.size = s.size s.v) (lib : LinLib) (run : RootRun) (c : Bool)
    (hok : (s.solve lib run c).2 = none) :
    (s.solve lib run c).1.phi0 = some x ∧ (s.solve lib run c).1.success = some true := by
  have hi : LInv s := hs.inv.1
  -- preparation succeeds
  have hnv : ∃ nv, s.v.genNormVec (Vec.zeros (s.size s.v)) = .ok nv := by
    cases e : s.v.genNormVec (Vec.zeros (s.size s.v)) with
    | ok nv => exact ⟨nv, rfl⟩
    | error er =>
      have e1 := prepare_error hi hm e
      have e2 : stepS AState.prepare (s, none) = (s, some er) := by
        unfold stepS; simp only [e1]
      unfold AState.solve at hok
      simp only [hm, Bool.false_eq_true, if_false, e2] at hok
      simp only [stepS_some] at hok
      cases c <;> simp at hok
  obtain ⟨t, ht, P⟩ := prepare_ok hi (fun _ => hnv)
  have s1 : stepS AState.prepare (s, none) = (t, none) := by
    unfold stepS; simp only [ht]
  obtain ⟨p, hp, hps⟩ := P.ready.phi0
  have htm : t.opts.mfreeq = false := by rw [P.opts, (prepareSolver_fields _).2.1, hm]
  have hpsz : p.size = s.size s.v := by rw [hps, P.size, P.v]
  unfold AState.solve at hok ⊢
  simp only [hm, Bool.false_eq_true, if_false, s1] at hok ⊢
  -- the kernel
  cases hg : t.generate with
  | error e =>
    have s2 : stepS AState.generate (t, none) = (t, some e) := by unfold stepS; simp only [hg]
    simp only [s2, stepS_some] at hok
    cases c <;> simp at hok
  | ok u =>
    have s2 : stepS AState.generate (t, none) = (u, none) := by unfold stepS; simp only [hg]
    rw [s2] at hok ⊢
    have hu : u.opts = t.opts ∧ u.phi0 = t.phi0 ∧ u.sol0 = t.sol0 := by
      unfold AState.generate at hg
      obtain ⟨_, -, hg⟩ := bind_ok hg
      obtain ⟨hd, -, hg⟩ := bind_ok hg
      split at hg
      · obtain ⟨_, -, hg⟩ := bind_ok hg
        obtain ⟨_, -, hg⟩ := bind_ok hg
        obtain ⟨_, -, hg⟩ := bind_ok hg
        rw [← pure_ok hg]; exact ⟨rfl, rfl, rfl⟩
      · obtain ⟨_, -, hg⟩ := bind_ok hg
        obtain ⟨_, -, hg⟩ := bind_ok hg
        rw [← pure_ok hg]; exact ⟨rfl, rfl, rfl⟩
    -- the solution
    cases hw : u.solveKern lib with
    | error e =>
      have s3 : stepS (fun s => s.solveKern lib) (u, none) = (u, some e) := by unfold stepS; simp only [hw]
      simp only [s3, stepS_some] at hok
      cases c <;> simp at hok
    | ok w =>
      have s3 : stepS (fun s => s.solveKern lib) (u, none) = (w, none) := by unfold stepS; simp only [hw]
      rw [s3] at hok ⊢
      have hw' : w.phi0 = some x ∧ w.success = some true := by
        unfold AState.solveKern at hw
        obtain ⟨k0, -, hw⟩ := bind_ok hw
        obtain ⟨p', hp', hw⟩ := bind_ok hw
        obtain ⟨kb, -, hw⟩ := bind_ok hw
        rw [hu.2.1, hp] at hp'
        have hpp : p = p' := pure_ok hp'
        have hr : u.runSolver lib kb.1 kb.2 = some (some x) := by
          unfold AState.runSolver
          rw [hu.1, P.opts, if_neg h1, if_neg h2, hu.2.2, P.sol0, hx]
        have hf : (u.finish p' (u.runSolver lib kb.1 kb.2)).phi0 = some x ∧
            (u.finish p' (u.runSolver lib kb.1 kb.2)).success = some true := by
          rw [hr, ← hpp]
          unfold AState.finish
          simp only [show x.size = p.size by rw [hn, hpsz], if_true]
          exact ⟨trivial, trivial⟩
        simp only at hw
        split at hw
        · obtain ⟨_, -, hw⟩ := bind_ok hw
          obtain ⟨_, -, hw⟩ := bind_ok hw
          rw [← pure_ok hw]; exact hf
        · rw [← pure_ok hw]; exact hf
      cases c
      · exact hw'
      · simp only [if_true] at hok ⊢
        unfold stepS at hok ⊢
        simp only at hok ⊢
        cases hcur : w.genCurrent with
        | error e => rw [hcur] at hok; simp at hok
        | ok z =>
          simp only
          unfold AState.genCurrent at hcur
          obtain ⟨_, -, hcur⟩ := bind_ok hcur
          obtain ⟨_, -, hcur⟩ := bind_ok hcur
          obtain ⟨_, -, hcur⟩ := bind_ok hcur
          obtain ⟨_, -, hcur⟩ := bind_ok hcur
          rw [← pure_ok hcur]; exact hw'

noncomputable section

/-- The same object with the method 'solve'. -/
def AState.toSolve (s : AState) : AState := { s with opts := { s.opts with solmethod := some "solve" } }

theorem clean_toSolve (s : AState) : s.toSolve.clean = s.clean.map AState.toSolve := by
  obtain ⟨⟨sy, mf, nr, sm, pi⟩, v, ch, ap, size, uk, ip, kern, bvec, nv, sol0, phi0, dphi, su, h, cur⟩ := s
  cases cur <;> cases mf <;> cases kern <;> cases bvec <;> rfl

theorem generate_toSolve (s : AState) : s.toSolve.generate = s.generate.map AState.toSolve := by
  obtain ⟨⟨sy, mf, nr, sm, pi⟩, v, ch, ap, size, uk, ip, kern, bvec, nv, sol0, phi0, dphi, su, h, cur⟩ := s
  unfold AState.generate AState.toSolve
  simp only
  cases ap.calls v with
  | error e => rfl
  | ok cs =>
    cases h with
    | none => rfl
    | some h =>
      simp only [attr, py_pure, py_bind_ok]
      by_cases hf : h.free = true
      · simp only [hf, if_true]
        cases phi0 with
        | none => rfl
        | some p =>
          cases dphi with
          | none => rfl
          | some d =>
            simp only [py_bind_ok]
            cases (h.view v).runFree (h.trial.getD p) d cs <;> rfl
      · simp only [hf]
        cases kern with
        | none => rfl
        | some k =>
          simp only [py_bind_ok]
          cases (h.view v).runKern k cs <;> rfl

theorem genCurrent_toSolve (s : AState) : s.toSolve.genCurrent = s.genCurrent.map AState.toSolve := by
  obtain ⟨⟨sy, mf, nr, sm, pi⟩, v, ch, ap, size, uk, ip, kern, bvec, nv, sol0, phi0, dphi, su, h, cur⟩ := s
  unfold AState.genCurrent AState.toSolve
  simp only
  cases phi0 with
  | none => rfl
  | some p =>
    cases h with
    | none => rfl
    | some h =>
      cases cur with
      | none => rfl
      | some c =>
        simp only [attr, py_pure, py_bind_ok]
        cases ap.cur (h.view v) (if uk = true then h.trial.getD p else p) <;> rfl

theorem solveKern_toSolve (s : AState) (h1 : s.opts.solmethod ≠ some "solve") (h2 : s.opts.solmethod ≠ some "lsqr")
    {x : Vec} (hx : s.sol0 = some x) (lib : LinLib) :
    s.toSolve.solveKern ⟨fun _ _ => some x, lib.lstsq⟩ = (s.solveKern lib).map AState.toSolve := by
  obtain ⟨⟨sy, mf, nr, sm, pi⟩, v, ch, ap, size, uk, ip, kern, bvec, nv, sol0, phi0, dphi, su, h, cur⟩ := s
  simp only at h1 h2 hx
  subst hx
  cases kern with
  | none => rfl
  | some k =>
    cases phi0 with
    | none => rfl
    | some p =>
      unfold AState.solveKern
      simp only [AState.toSolve, attr, py_pure, py_bind_ok]
      have hsys : ∀ (m : Option String),
          (AState.mk ⟨sy, mf, nr, m, pi⟩ v ch ap size uk ip (some k) bvec nv (some x) (some p) dphi su h cur).system
          = (AState.mk ⟨sy, mf, nr, sm, pi⟩ v ch ap size uk ip (some k) bvec nv (some x) (some p) dphi su h cur).system :=
        fun m => rfl
      rw [hsys]
      cases (AState.mk ⟨sy, mf, nr, sm, pi⟩ v ch ap size uk ip (some k) bvec nv (some x) (some p) dphi su h cur).system with
      | error e => rfl
      | ok kb =>
        simp only [py_bind_ok, AState.runSolver, if_true, if_neg h1, if_neg h2, AState.finish, Option.map_some]
        by_cases hz : x.size = p.size
        · simp only [hz, if_true]
          cases sy
          · rfl
          · simp only [if_true]
            cases k.getRow nr with
            | error e => rfl
            | ok old =>
              simp only [py_bind_ok]
              cases kb.1.setRow nr old <;> rfl
        · simp only [hz, if_false]
          cases sy
          · rfl
          · simp only [if_true]
            cases k.getRow nr with
            | error e => rfl
            | ok old =>
              simp only [py_bind_ok]
              cases kb.1.setRow nr old <;> rfl

theorem stepS_toSolve {f g : AState → Py AState} {s : AState} (h : g s.toSolve = (f s).map AState.toSolve) :
    stepS g (s.toSolve, none) = ((stepS f (s, none)).1.toSolve, (stepS f (s, none)).2) := by
  unfold stepS
  simp only [h]
  cases f s <;> rfl

theorem stepS_ok_of {f : AState → Py AState} {s : AState} (h : (stepS f (s, none)).2 = none) :
    ∃ t, f s = .ok t ∧ stepS f (s, none) = (t, none) := by
  unfold stepS at h ⊢
  simp only at h ⊢
  cases hf : f s with
  | ok t => exact ⟨t, rfl, rfl⟩
  | error e => rw [hf] at h; simp at h

/-- With an unknown method the object does what it would do if 'solve' returned the old solution. -/
theorem solve_toSolve {s : AState} (hp : s.isPrepared = true) (hc : s.changed = false) (hm : s.opts.mfreeq = false)
    (h1 : s.opts.solmethod ≠ some "solve") (h2 : s.opts.solmethod ≠ some "lsqr") {x : Vec} (hx : s.sol0 = some x)
    (lib : LinLib) (run : RootRun) (c : Bool) :
    (s.toSolve.solve ⟨fun _ _ => some x, lib.lstsq⟩ run c).2 = (s.solve lib run c).2 := by
  have e0 : stepS AState.prepare (s.toSolve, none)
      = ((stepS AState.prepare (s, none)).1.toSolve, (stepS AState.prepare (s, none)).2) := by
    apply stepS_toSolve
    unfold AState.prepare
    rw [show (s.toSolve.isPrepared && !s.toSolve.changed) = true by simp [AState.toSolve, hp, hc],
      show (s.isPrepared && !s.changed) = true by simp [hp, hc]]
    exact clean_toSolve s
  unfold AState.solve
  rw [show s.toSolve.opts.mfreeq = s.opts.mfreeq from rfl, hm]
  simp only [Bool.false_eq_true, if_false]
  rw [e0]
  cases ea : s.prepare with
  | error e =>
    have : stepS AState.prepare (s, none) = (s, some e) := by unfold stepS; simp only [ea]
    rw [this]
    cases c <;> rfl
  | ok t =>
    have : stepS AState.prepare (s, none) = (t, none) := by unfold stepS; simp only [ea]
    rw [this]
    simp only
    have ht : t.opts = s.opts ∧ t.sol0 = s.sol0 := by
      unfold AState.prepare at ea
      rw [show (s.isPrepared && !s.changed) = true by simp [hp, hc]] at ea
      simp only [if_true] at ea
      unfold AState.clean at ea
      obtain ⟨_, -, ea⟩ := bind_ok ea
      rw [hm] at ea
      simp only [Bool.false_eq_true, if_false] at ea
      obtain ⟨_, -, ea⟩ := bind_ok ea
      obtain ⟨_, -, ea⟩ := bind_ok ea
      rw [← pure_ok ea]; exact ⟨rfl, rfl⟩
    rw [stepS_toSolve (generate_toSolve t)]
    cases eb : t.generate with
    | error e =>
      have : stepS AState.generate (t, none) = (t, some e) := by unfold stepS; simp only [eb]
      rw [this]
      cases c <;> rfl
    | ok u =>
      have : stepS AState.generate (t, none) = (u, none) := by unfold stepS; simp only [eb]
      rw [this]
      simp only
      have hu : u.opts = t.opts ∧ u.sol0 = t.sol0 := by
        unfold AState.generate at eb
        obtain ⟨_, -, hg⟩ := bind_ok eb
        obtain ⟨hd, -, hg⟩ := bind_ok hg
        split at hg
        · obtain ⟨_, -, hg⟩ := bind_ok hg
          obtain ⟨_, -, hg⟩ := bind_ok hg
          obtain ⟨_, -, hg⟩ := bind_ok hg
          rw [← pure_ok hg]; exact ⟨rfl, rfl⟩
        · obtain ⟨_, -, hg⟩ := bind_ok hg
          obtain ⟨_, -, hg⟩ := bind_ok hg
          rw [← pure_ok hg]; exact ⟨rfl, rfl⟩
      rw [stepS_toSolve (f := fun s => s.solveKern lib) (solveKern_toSolve u (by rw [hu.1, ht.1]; exact h1)
        (by rw [hu.1, ht.1]; exact h2) (by rw [hu.2, ht.2, hx]) lib)]
      cases ec : u.solveKern lib with
      | error e =>
        have : stepS (fun s => s.solveKern lib) (u, none) = (u, some e) := by unfold stepS; simp only [ec]
        rw [this]
        cases c <;> rfl
      | ok w =>
        have : stepS (fun s => s.solveKern lib) (u, none) = (w, none) := by unfold stepS; simp only [ec]
        rw [this]
        cases c
        · rfl
        · simp only [if_true]
          rw [stepS_toSolve (genCurrent_toSolve w)]

/-- After a successful solve `sol0` and `phi0` are the same vector. -/
theorem solve_sol0 {s : AState} (h0 : s.success = none) (hm : s.opts.mfreeq = false) (lib : LinLib) (run : RootRun)
    (c : Bool) (h : (s.solve lib run c).1.success = some true) :
    (s.solve lib run c).1.sol0 = (s.solve lib run c).1.phi0 := by
  let P : AState → Prop := fun t => t.success = none
  let Q : AState → Prop := fun t => t.success = some true → t.sol0 = t.phi0
  have k1 : P (stepS AState.prepare (s, none)).1 := stepS_pres (P := P) (fun s t hs g => by
      unfold AState.prepare at g
      split at g
      · unfold AState.clean at g
        obtain ⟨_, -, g⟩ := bind_ok g
        split at g
        · rw [← pure_ok g]; exact hs
        · obtain ⟨_, -, g⟩ := bind_ok g
          obtain ⟨_, -, g⟩ := bind_ok g
          rw [← pure_ok g]; exact hs
      · obtain ⟨u, hu, g⟩ := bind_ok g
        unfold AState.prepareArrays at hu
        simp only at hu
        split at hu
        · rw [← pure_ok g]; rw [← pure_ok hu]; exact hs
        · obtain ⟨_, -, hu⟩ := bind_ok hu
          rw [← pure_ok g]; rw [← pure_ok hu]; exact hs) h0
  have k2 : P (stepS AState.generate (stepS AState.prepare (s, none))).1 := stepS_pres (P := P) (fun s t hs g => by
      unfold AState.generate at g
      obtain ⟨_, -, g⟩ := bind_ok g
      obtain ⟨hd, -, g⟩ := bind_ok g
      split at g
      · obtain ⟨_, -, g⟩ := bind_ok g
        obtain ⟨_, -, g⟩ := bind_ok g
        obtain ⟨_, -, g⟩ := bind_ok g
        rw [← pure_ok g]; exact hs
      · obtain ⟨_, -, g⟩ := bind_ok g
        obtain ⟨_, -, g⟩ := bind_ok g
        rw [← pure_ok g]; exact hs) k1
  have k3 : ∀ r : AState × Option PyErr, P r.1 → Q (stepS (fun s => s.solveKern lib) r).1 := by
    intro r hr
    refine stepS_pres (P := Q) (fun s t hs g => ?_) (fun e => by rw [show r.1.success = none from hr] at e; simp at e)
    unfold AState.solveKern at g
    obtain ⟨k0, -, g⟩ := bind_ok g
    obtain ⟨p, -, g⟩ := bind_ok g
    obtain ⟨kb, -, g⟩ := bind_ok g
    have hf : Q (s.finish p (s.runSolver lib kb.1 kb.2)) := by
      show (s.finish p (s.runSolver lib kb.1 kb.2)).success = some true → _
      generalize s.runSolver lib kb.1 kb.2 = z
      unfold AState.finish
      rcases z with _ | _ | x
      · simp
      · simp
      · simp only
        split <;> simp
    simp only at g
    split at g
    · obtain ⟨_, -, g⟩ := bind_ok g
      obtain ⟨_, -, g⟩ := bind_ok g
      rw [← pure_ok g]; exact hf
    · rw [← pure_ok g]; exact hf
  have k4 : ∀ r : AState × Option PyErr, Q r.1 → Q (stepS AState.genCurrent r).1 := fun r hr =>
    stepS_pres (P := Q) (fun s t hs g => by
      unfold AState.genCurrent at g
      obtain ⟨_, -, g⟩ := bind_ok g
      obtain ⟨_, -, g⟩ := bind_ok g
      obtain ⟨_, -, g⟩ := bind_ok g
      obtain ⟨_, -, g⟩ := bind_ok g
      rw [← pure_ok g]; exact hs) hr
  revert h
  unfold AState.solve
  simp only [hm, Bool.false_eq_true, if_false]
  cases c
  · exact k3 _ k2
  · exact k4 _ (k3 _ k2)

/-- **C33**, violated: the solution methods are not validated, and an unknown one (also 'lsmr', which is
documented) is accepted and never run. For every approach and system: solve successfully, assign such a method, change
the parameters of the system to any others, solve again. No exception is raised, `success` is true and `phi0` is still the
solution for the old parameters. -/
theorem c33_stale_false {v : View} {la : Lab} (h : VOk v la) (k : Kind) (num : NumLib) (E E' : Nat → ℝ) (L L' : Leads)
    (hrow : ∃ r, pyIdx (k.size v) 0 = .ok r ∧ r < v.npauli) (m : String) (h1 : m ≠ "solve") (h2 : m ≠ "lsqr")
    (lib lib' : LinLib) (run run' : RootRun) (c c' : Bool) :
    let s := (AState.fresh ⟨true, false, 0, some "solve", none⟩ v (k.ap num E L) k.size k.useKh).op (.solve lib run c)
    let t := [AOp.solmethod (some m), .params (k.ap num E' L')].foldl AState.op s
    s.success = some true →
      (t.solve lib' run' c').2 = none ∧ (t.solve lib' run' c').1.phi0 = s.phi0 ∧
      (t.solve lib' run' c').1.success = some true := by
  intro s t hs
  let f := AState.fresh ⟨true, false, 0, some "solve", none⟩ v (k.ap num E L) k.size k.useKh
  have hsf : s = (f.solve lib run c).1 := rfl
  have hr : Reached k.size k.useKh f := ⟨_, _, _, [], by simp, rfl⟩
  obtain ⟨K, S, b, gK, -, g, gk, gphi, -⟩ := c31_solve h k num E L (s := f) hr rfl rfl rfl (Or.inl rfl)
      (fun _ => hrow) lib run c
  obtain ⟨p1, p2⟩ := solve_prepared g
  obtain ⟨u, e, gu, -, o1, o2, o3, o4, o5, o6⟩ := solve_matrix hr.inv.1 rfl (Or.inl rfl) lib run c
  have hopts : s.opts = ⟨true, false, 0, some "solve", none⟩ := by
    rw [hsf, gu]
    cases hR : Ref.solve f.opts.prepareSolver f.v f.ap (f.size f.v) lib c with
    | error x =>
      rw [hR] at o6
      rw [gu] at g
      simp only at o6 g
      rw [g] at o6
      simp at o6
    | ok r =>
      rw [hR] at o6
      exact o6.2.2.2.2.2.2
  have hsv : s.v = v := by rw [hsf, gu]; exact o1
  have hss : s.size = k.size := by rw [hsf, gu]; exact o3
  have hx : s.sol0 = s.phi0 := by
    rw [hsf]; exact solve_sol0 rfl rfl lib run c hs
  -- the solution has the right size
  have hp : ∃ x, s.phi0 = some x ∧ x.size = k.size v := by
    obtain ⟨x, e1, e2⟩ := (solve_inv hr.inv.1 lib run c p1 p2).phi0
    refine ⟨x, e1, e2.trans ?_⟩
    show s.size s.v = _
    rw [hss, hsv]
  obtain ⟨x, hx1, hx2⟩ := hp
  rw [hx1] at hx
  have ht : t = { s with opts := ⟨true, false, 0, some m, none⟩, ap := k.ap num E' L' } := by
    show (s.op (.solmethod (some m))).op (.params _) = _
    simp only [AState.op, hopts]
    rfl
  have hreach : Reached k.size k.useKh t :=
    ⟨_, _, _, [.solve lib run c, .solmethod (some m), .params (k.ap num E' L')], by simp [AOp.plain], rfl⟩
  have hto : t.opts = ⟨true, false, 0, some m, none⟩ := by rw [ht]
  -- the solve does not raise
  have hreach' : Reached k.size k.useKh t.toSolve := by
    refine ⟨⟨true, false, 0, some "solve", none⟩, v, k.ap num E L,
      [.solve lib run c, .solmethod (some "solve"), .params (k.ap num E' L')], by simp [AOp.plain], ?_⟩
    show _ = (s.op (.solmethod (some "solve"))).op (.params _)
    rw [ht]
    simp only [AState.op, hopts]
    rfl
  have hok : (t.solve lib' run' c').2 = none := by
    rw [← solve_toSolve (s := t) (x := x) (by rw [ht]; exact p1) (by rw [ht]; exact p2) (by rw [hto])
      (by rw [hto]; simpa using h1) (by rw [hto]; simpa using h2) (by rw [ht]; exact hx)]
    obtain ⟨-, -, -, -, -, g', -⟩ := c31_solve h k num E' L' hreach' (by show t.v = v; rw [ht]; exact hsv)
      (by show t.ap = _; rw [ht]) (by show t.opts.mfreeq = _; rw [hto])
      (by left; show (Opts.prepareSolver { t.opts with solmethod := some "solve" }).solmethod = _; rw [hto]; rfl)
      (fun _ => by
        show ∃ r, pyIdx (k.size v) t.opts.normRow = .ok r ∧ _
        rw [hto]; exact hrow) ⟨fun _ _ => some x, lib'.lstsq⟩ run' c'
    exact g'
  refine ⟨hok, ?_⟩
  have hps : t.opts.prepareSolver.solmethod = some m := by rw [hto]; rfl
  rw [hx1]
  refine c33_stale_solution hreach (by rw [hto]) (by rw [hps]; simpa using h1) (by rw [hps]; simpa using h2) (x := x)
    (by rw [ht]; exact hx) ?_ lib' run' c' hok
  rw [hx2, ht]
  show _ = s.size s.v
  rw [hss, hsv]

end

end Verif
