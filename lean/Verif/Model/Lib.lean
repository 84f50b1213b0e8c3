import Verif.Out

/-! # Model of `cpp/src/hermite/lib.cpp` and `lib.hpp` -/

namespace Hermipy

/-- `ivec = std::vector<u_int>` (types.hpp); entries as natural numbers. -/
abbrev IVec := List Nat

/-- The loop of `isAligned(m, dirs)`, from position `j` on. lib.cpp:44-59. The inner loop (47-53) computes membership. -/
def isAlignedFrom (dirs : IVec) : Nat → IVec → Bool
  | _, [] => true
  | j, x :: xs => if x ≠ 0 ∧ j ∉ dirs then false else isAlignedFrom dirs (j + 1) xs

/-- `isAligned(m, dirs)`. lib.cpp:42-61. -/
def isAligned (m dirs : IVec) : Bool := isAlignedFrom dirs 0 m

/-- `hash_print`. lib.cpp:76-84. `std::to_string` of an unsigned is its decimal representation. -/
def hash_print : IVec → String
  | [] => ""
  | x :: xs => (Nat.repr x ++ "-") ++ hash_print xs

/-- `extract`. lib.hpp:37-46. Reading an index outside `input` is undefined behaviour. -/
def extract {α : Type u} (input : List α) : IVec → Out (List α)
  | [] => .ok []
  | i :: is => do
    let a ← rd input i
    let r ← extract input is
    .ok (a :: r)

/-- The `while (true)` loop of `pos_bissect`. lib.cpp:107-130. The differences are taken in 64-bit `long`,
so only their sign matters. -/
def bissectLoop (f : Nat → Out Nat) (image x1 x2 : Nat) : Out Nat := do
  let new_x := (x1 + x2) / 2
  let y ← f new_x
  if y < image then
    if new_x = x1 then .exit 1
    else bissectLoop f image new_x x2
  else if image < y then bissectLoop f image x1 new_x
  else .ok new_x
partial_fixpoint

/-- `pos_bissect`. lib.cpp:86-131. -/
def pos_bissect (image : Nat) (f : Nat → Out Nat) (max : Nat) : Out Nat := do
  let y1 ← f 0
  let y2 ← f max
  if image < y1 ∨ y2 < image then .exit 0
  else if y1 = image then .ok 0
  else if y2 = image then .ok max
  else bissectLoop f image 0 max

end Hermipy
