import Verif.Model.Matrix
import Mathlib.Analysis.Real.Sqrt

/-!
# Model of `cpp/src/hermite/hermite.hpp` and `hermite.cpp`

Numbers of type `double` are real numbers.
-/

namespace Hermipy

/-- `REC_A(i)`. hermite.hpp:27. -/
noncomputable def REC_A (i : Nat) : ℝ := 1 / √((i : ℝ) + 1)

/-- `REC_B(i)`. hermite.hpp:28. -/
noncomputable def REC_B (i : Nat) : ℝ := √(i : ℝ) / √((i : ℝ) + 1)

/-- Loop `for (i = a; i < b; i++) body(i)`. -/
def forFrom {σ : Type} (a b : Nat) (acc : σ) (body : Nat → σ → Out σ) : Out σ :=
  (List.range' a (b - a)).foldlM (fun s i => body i s) acc

/-- `v[i] = a` on a buffer followed by `slack` doubles that belong to nobody else: a write there has no effect, a write further
out is undefined. The language guarantees `slack = 0` only. -/
def wrPad {α : Type} (slack : Nat) (v : List α) (i : Nat) (a : α) : Out (List α) :=
  if i < v.length then .ok (v.set i a) else if i < v.length + slack then .ok v else .ub

/-- `hermite_eval`. hermite.cpp:29-41. -/
noncomputable def hermite_eval (slack : Nat) (x : ℝ) (degree : Nat) (values : List ℝ) : Out (List ℝ) := do
  let values ← wrPad slack values 0 1
  let values ← wrPad slack values 1 x
  forFrom 1 degree values fun i values => do
    let u ← rd values i
    let v ← rd values (i - 1)
    wrPad slack values (i + 1) (REC_A i * x * u - REC_B i * v)

end Hermipy
