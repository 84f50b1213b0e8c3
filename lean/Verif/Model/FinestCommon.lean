import Verif.Out
import Mathlib.Data.Finset.Basic
import Mathlib.Data.Finset.SDiff

/-! # Model of `finest_common` in `hermipy/lib.py`

Python sets of frozensets are `Finset (Finset α)`. The order in which Python iterates over a set is unspecified and may depend on the
history of the set object; it is given by an oracle `order`, which is asked with the number of orders requested so far and the set. -/

namespace Hermipy

variable {α : Type} [DecidableEq α]

/-- `for t in list(blocks): if s.intersection(t) != set(): s = s.union(t); blocks.remove(t)`. lib.py:56-59 and 61-64. The list is the
copy of `blocks` made before the loop. -/
def absorb (s : Finset α) (blocks : Finset (Finset α)) : List (Finset α) → Finset α × Finset (Finset α)
  | [] => (s, blocks)
  | t :: ts => if s ∩ t ≠ ∅ then absorb (s ∪ t) (blocks.erase t) ts else absorb s blocks ts

/-- The state of the loop: the number of iteration orders used, `s`, `set1`, `set2`. -/
abbrev FcState (α : Type) := ℕ × Finset α × Finset (Finset α) × Finset (Finset α)

/-- The body of the loop. lib.py:56-64. -/
def finestStep (order : ℕ → Finset (Finset α) → List (Finset α)) (st : FcState α) : FcState α :=
  let a := absorb st.2.1 st.2.2.2 (order st.1 st.2.2.2)
  let b := absorb a.1 st.2.2.1 (order (st.1 + 1) st.2.2.1)
  (st.1 + 2, b.1, b.2, a.2)

/-- The loop. lib.py:53-64. -/
def finestLoop (order : ℕ → Finset (Finset α) → List (Finset α)) (st : FcState α) : Out (FcState α) :=
  if (∃ s1 ∈ st.2.2.1, s1 ∩ st.2.1 ≠ ∅) ∨ ∃ s2 ∈ st.2.2.2, s2 ∩ st.2.1 ≠ ∅ then
    finestLoop order (finestStep order st)
  else .ok st
partial_fixpoint

/-- `finest_common(set1, set2)`. lib.py:41-69. `k` is the number of iteration orders used before the call. The argument copies of
line 43 are implicit. `set1.remove(s)` and the removals in the loop raise on missing elements; the removed elements come from a copy of
the same set, so `erase` is exact. -/
def finest_common (order : ℕ → Finset (Finset α) → List (Finset α)) (k : ℕ) (set1 set2 : Finset (Finset α)) :
    Out (Finset (Finset α)) :=
  let difference := set1 \ set2
  if difference = ∅ then .ok set1
  else
    match order k difference with
    | [] => .throws
    | s :: _ => do
      let st ← finestLoop order (k + 1, s, set1.erase s, set2)
      finest_common order st.1 (insert st.2.1 st.2.2.1) (insert st.2.1 st.2.2.2)
partial_fixpoint

end Hermipy
