import Mathlib.Data.Nat.Notation

/-! # Model of `log_stats` in `hermipy/stats.py`

A call tree: each node is a call of a decorated function, whose body makes further decorated calls, possibly inside `try … except`, and
ends by returning or raising. The parts of a body without decorated calls do not touch `indent` and `stats` and are left out. -/

namespace Hermipy

mutual
/-- A call of the decorated function with the given key (`function.__name__ + '-' + function.__module__`). -/
inductive Call where
  | call (key : String) (body : Body)
/-- What remains to be executed of the body of a function. -/
inductive Body where
  /-- `return` -/
  | ret
  /-- an exception is raised here -/
  | raise
  /-- a decorated call, then the rest; if `caught`, the call is inside a `try` whose `except` catches its exceptions -/
  | step (c : Call) (caught : Bool) (rest : Body)
end

/-- `indent` and the number of `Calls` in `stats`, and the lines printed by `print(indent_str + "Entering " + key)` as pairs of the
indent and the key. stats.py:26-27, 64-66. The times are left out. -/
structure StatsState where
  indent : ℕ
  calls : String → ℕ
  log : List (ℕ × String)

mutual
/-- `wrapper`. stats.py:60-85. The first component tells whether an exception leaves the call. The body of a raising call does not reach
`indent -= 1` (line 72). -/
def runCall : Call → StatsState → Bool × StatsState
  | .call key body, st =>
    let r := runBody body { st with indent := st.indent + 1, log := st.log ++ [(st.indent, key)] }
    if r.1 then (true, r.2)
    else (false, { r.2 with indent := r.2.indent - 1, calls := fun k => if k = key then r.2.calls k + 1 else r.2.calls k })
/-- The body of a decorated function. -/
def runBody : Body → StatsState → Bool × StatsState
  | .ret, st => (false, st)
  | .raise, st => (true, st)
  | .step c caught rest, st =>
    let r := runCall c st
    if r.1 && !caught then (true, r.2) else runBody rest r.2
end

end Hermipy
