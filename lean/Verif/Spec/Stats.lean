import Verif.Model.Stats

/-! # The semantics of call trees, for `log_stats` -/

namespace Hermipy.Spec

open Hermipy

mutual
/-- `RunsCall c raised failed returned depth`: the call `c` ends with an exception iff `raised`; among it and the calls made inside it,
`failed` end with an exception, `returned k` calls with key `k` return. -/
inductive RunsCall : Call → Bool → ℕ → (String → ℕ) → Prop where
  | returns {key body failed returned} : RunsBody body false failed returned →
      RunsCall (.call key body) false failed (fun k => returned k + if k = key then 1 else 0)
  | raises {key body failed returned} : RunsBody body true failed returned →
      RunsCall (.call key body) true (failed + 1) returned
/-- The same for the rest of a body. -/
inductive RunsBody : Body → Bool → ℕ → (String → ℕ) → Prop where
  | ret : RunsBody .ret false 0 (fun _ => 0)
  | raise : RunsBody .raise true 0 (fun _ => 0)
  | escape {c rest failed returned} : RunsCall c true failed returned → RunsBody (.step c false rest) true failed returned
  | catches {c rest r failed returned failed' returned'} : RunsCall c true failed returned → RunsBody rest r failed' returned' →
      RunsBody (.step c true rest) r (failed + failed') (fun k => returned k + returned' k)
  | proceed {c caught rest r failed returned failed' returned'} : RunsCall c false failed returned →
      RunsBody rest r failed' returned' → RunsBody (.step c caught rest) r (failed + failed') (fun k => returned k + returned' k)
end

/-- A history: the calls made from the top level one after the other, whatever their outcome. -/
inductive RunsHistory : List Call → ℕ → (String → ℕ) → Prop where
  | nil : RunsHistory [] 0 (fun _ => 0)
  | cons {c cs r failed returned failed' returned'} : RunsCall c r failed returned → RunsHistory cs failed' returned' →
      RunsHistory (c :: cs) (failed + failed') (fun k => returned k + returned' k)

mutual
/-- The lines a call should print: one for each call in its tree, callers before callees, in order, indented by the nesting depth
counted from `depth`. Meant for trees in which nothing raises. -/
def callLines : Call → ℕ → List (ℕ × String)
  | .call key body, depth => (depth, key) :: bodyLines body (depth + 1)
/-- The same for the rest of a body. -/
def bodyLines : Body → ℕ → List (ℕ × String)
  | .ret, _ => []
  | .raise, _ => []
  | .step c _ rest, depth => callLines c depth ++ bodyLines rest depth
end

end Hermipy.Spec
