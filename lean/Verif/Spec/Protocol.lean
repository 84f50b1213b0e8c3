/-!
# Specification of the iteration protocol

An iterator over a list of `N` elements is a cursor `(position, exhausted)`.
-/

namespace Hermipy.Spec

/-- Calls a client may issue. -/
inductive Call where
  | increment | reset
deriving DecidableEq, Repr

/-- Effect of a call on the cursor of an `N`-element list. -/
def step (N : Nat) : Nat × Bool → Call → Nat × Bool
  | (p, ex), .increment => if p + 1 = N then (p, true) else (p + 1, ex)
  | _, .reset => (0, false)

/-- Cursor after a history of calls. -/
def cursor (N : Nat) (h : List Call) : Nat × Bool := h.foldl (step N) (0, false)

end Hermipy.Spec
