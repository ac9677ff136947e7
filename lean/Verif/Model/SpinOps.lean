import Verif.Model.Fock

/-!
Model of the spin operators in the Fock basis: `operator_sm`, `operator_sp` and
`operator_ssquare` (qmeq/qdot.py).

Simplifications: numpy integers are unbounded. The number `0` that the functions return for an
operator without target states is `none`.
-/

namespace Verif

/-- A numpy matrix of integers. -/
structure IMat where
  rows : Nat
  cols : Nat
  val : Nat → Nat → ℤ

/-- `np.zeros((rows, cols), dtype=int)`. -/
def IMat.zeros (rows cols : Nat) : IMat := ⟨rows, cols, fun _ _ => 0⟩

/-- `m[i, j] = x` for natural numbers `i`, `j`. -/
def IMat.put (m : IMat) (i j : Nat) (x : ℤ) : Py IMat :=
  if i < m.rows ∧ j < m.cols then
    .ok ⟨m.rows, m.cols, fun i' j' => if i' = i ∧ j' = j then x else m.val i' j'⟩
  else .error .index

/-- `si.get_lst(charge, sz)` used as a list (`len(None)` is a `TypeError`). -/
def SI.lstSz (si : SI) (charge : Nat) (sz : Int) : Py (List Nat) := do
  let r ← si.getLst (some charge) (some sz) none
  match r with
  | none => .error .type
  | some l => pure l

/-- qdot.py:252-260 and 297-305, one pass of the inner loop: moves an electron from orbital `src` to
orbital `dst`. The sign is `(-1)**(sum(state[0:lo]) + sum(state[0:hi]) + extra)` where `lo` is the
orbital with spin up and `hi` the one with spin down. `statesm.index(None)`, for a removed Fock
state, is a `ValueError`. -/
def flipStep (si : SI) (lst : List Nat) (j1 : Nat) (state : List Nat) (src dst lo hi extra : Nat)
    (m : IMat) : Py IMat := do
  let x ← pyGet state src
  let y ← pyGet state dst
  if x = 1 ∧ y = 0 then do
    let fsign : ℤ := (-1) ^ ((state.take lo).sum + (state.take hi).sum + extra)
    let state2 ← pySet state src 0
    let state2 ← pySet state2 dst 1
    let r ← si.getInd state2
    match r with
    | none => .error .value
    | some k => do
      let ind ← pyIndex lst k
      m.put ind j1 (2 * fsign)
  else pure m

/-- qdot.py:219-261 `operator_sm`. -/
def operatorSm (charge : Nat) (sz : Int) (si : SI) : Py (Option IMat) :=
  let szmin := -min (charge : Int) (si.nsingle - charge)
  if sz - 2 < szmin then pure none
  else do
    let states ← si.lstSz charge sz
    let statesm ← si.lstSz charge (sz - 2)
    let dind := si.nsingle / 2
    let sm ← (List.range states.length).foldlM (fun sm (j1 : Nat) => do
      let b ← pyGet states j1
      let state ← si.getState b
      (List.range (si.nsingle / 2)).foldlM (fun sm (j2 : Nat) =>
        flipStep si statesm j1 state j2 (dind + j2) j2 (dind + j2) 1 sm) sm)
      (IMat.zeros statesm.length states.length)
    pure (some sm)

/-- qdot.py:264-306 `operator_sp`. -/
def operatorSp (charge : Nat) (sz : Int) (si : SI) : Py (Option IMat) :=
  let szmax := min (charge : Int) (si.nsingle - charge)
  if sz + 2 > szmax then pure none
  else do
    let states ← si.lstSz charge sz
    let statesp ← si.lstSz charge (sz + 2)
    let dind := si.nsingle / 2
    let sp ← (List.range states.length).foldlM (fun sp (j1 : Nat) => do
      let b ← pyGet states j1
      let state ← si.getState b
      (List.range (si.nsingle / 2)).foldlM (fun sp (j2 : Nat) =>
        flipStep si statesp j1 state (dind + j2) j2 j2 (dind + j2) 0 sp) sp)
      (IMat.zeros statesp.length states.length)
    pure (some sp)

/-- `np.dot(a, b)`, where a factor may be the number `0`. -/
def imatDot : Option IMat → Option IMat → Py (Option IMat)
  | some a, some b =>
    if a.cols = b.rows then
      .ok (some ⟨a.rows, b.cols, fun i j =>
        (List.range a.cols).foldl (fun s k => s + a.val i k * b.val k j) 0⟩)
    else .error .value
  | none, some b => .ok (some (IMat.zeros b.rows b.cols))
  | some a, none => .ok (some (IMat.zeros a.rows a.cols))
  | none, none => .ok none

/-- `a + b`, where a summand may be the number `0` (matrices of different shapes raise;
broadcasting of an axis of length 1 is left out). -/
def imatAdd : Option IMat → Option IMat → Py (Option IMat)
  | some a, some b =>
    if a.rows = b.rows ∧ a.cols = b.cols then
      .ok (some ⟨a.rows, a.cols, fun i j => a.val i j + b.val i j⟩)
    else .error .value
  | none, b => .ok b
  | a, none => .ok a

/-- `a // 2`, entry by entry; Python's `//` rounds down. -/
def imatHalf : Option IMat → Option IMat
  | some a => some ⟨a.rows, a.cols, fun i j => Int.fdiv (a.val i j) 2⟩
  | none => none

/-- qdot.py:331: `sp_sm`. -/
def spSm (charge : Nat) (sz : Int) (si : SI) : Py (Option IMat) :=
  let szmin := -min (charge : Int) (si.nsingle - charge)
  if sz - 2 ≥ szmin then do
    let a ← operatorSp charge (sz - 2) si
    let b ← operatorSm charge sz si
    imatDot a b
  else pure none

/-- qdot.py:332: `sm_sp`. -/
def smSp (charge : Nat) (sz : Int) (si : SI) : Py (Option IMat) :=
  let szmax := min (charge : Int) (si.nsingle - charge)
  if sz + 2 ≤ szmax then do
    let a ← operatorSm charge (sz + 2) si
    let b ← operatorSp charge sz si
    imatDot a b
  else pure none

/-- qdot.py:309-335 `operator_ssquare`. -/
def operatorSsquare (charge : Nat) (sz : Int) (si : SI) : Py IMat := do
  let a ← spSm charge sz si
  let b ← smSp charge sz si
  let lst ← si.lstSz charge sz
  let sum ← imatAdd a b
  let r ← imatAdd (imatHalf sum)
    (some ⟨lst.length, lst.length, fun i j => (if i = j then 1 else 0) * sz ^ 2⟩)
  match r with
  | some m => pure m
  | none => .error .value

end Verif
