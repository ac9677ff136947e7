import Verif.Model.Approach

/-! Leads that are divided into parts. -/

namespace Verif

open Finset

/-- The `n` leads `L` are divided into the `n'` leads `L'`: the lead `l` of `L'` is a part of the lead `π l` of `L`. It
has the same chemical potential, temperature and band, and the amplitudes are multiplied by `x l`. The squares of the
`x l` of the parts of a lead add up to one. -/
structure Divided (n n' : Nat) (π : Nat → Nat) (x : Nat → ℝ) (L L' : Leads) : Prop where
  lt : ∀ l, l < n' → π l < n
  one : ∀ l, l < n → ∑ l' ∈ range n' with π l' = l, x l' ^ 2 = 1
  mu : ∀ l, l < n' → L'.mu l = L.mu (π l)
  temp : ∀ l, l < n' → L'.T l = L.T (π l)
  Dm : ∀ l, l < n' → L'.Dm l = L.Dm (π l)
  Dp : ∀ l, l < n' → L'.Dp l = L.Dp (π l)
  tba : ∀ l, l < n' → ∀ b a, L'.Tba l b a = x l * L.Tba (π l) b a
  itype : L'.itype = L.itype
  limit : L'.limit = L.limit

/-- The same indexing with `n'` leads. -/
def View.withLeads (v : View) (n' : Nat) : View := { v with nleads := n' }

/-- The increments `evs'` share the currents of `evs` among the parts: the fraction `x l ^ 2` flows through the part `l`,
and all of it through all parts of a lead. -/
structure Shared (n n' : Nat) (π : Nat → Nat) (x : Nat → ℝ) (L L' : Leads) (evs evs' : List CEv) : Prop where
  cur : ∀ l, l < n' → current evs' l = x l ^ 2 * current evs (π l)
  en : ∀ l, l < n' → energyCurrent evs' l = x l ^ 2 * energyCurrent evs (π l)
  heat : ∀ l, l < n' → heatCurrent L' evs' l = x l ^ 2 * heatCurrent L evs (π l)
  cur_all : ∀ l, l < n → ∑ l' ∈ range n' with π l' = l, current evs' l' = current evs l
  en_all : ∀ l, l < n → ∑ l' ∈ range n' with π l' = l, energyCurrent evs' l' = energyCurrent evs l
  heat_all : ∀ l, l < n → ∑ l' ∈ range n' with π l' = l, heatCurrent L' evs' l' = heatCurrent L evs l

end Verif
