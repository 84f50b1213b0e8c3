import Verif.Model.Iterators
import Mathlib.Algebra.Group.Defs

/-!
# Model of `cpp/src/hermite/matrix.hpp`, `matrix.cpp` and `sparse.cpp`

Numbers are elements of a type `α` (see DESIGN.md, section 3: floating-point rounding is not modelled).
-/

namespace Hermipy

/-- Loop over an iterator: `for (i = 0; !it.isFull(); i++, it.increment()) body(i, it.get())`, carrying the state `acc`
of the enclosing function. This loop shape occurs in tensorize.cpp:111, project.cpp:48, 91, 97, inner.cpp:113, 142, 170, 190,
transform.cpp, varf.cpp. The iterator object survives the loop and is returned in the state the loop leaves it in. -/
def iterLoopS {σ : Type} (it : Iter) (i : Nat) (acc : σ) (body : Nat → IVec → σ → Out σ) : Out (Iter × σ) :=
  if it.full then .ok (it, acc)
  else do
    let acc ← body i it.multi_index acc
    let it ← it.increment
    iterLoopS it (i + 1) acc body
partial_fixpoint

/-- `iterLoopS` for an iterator which is not used after the loop. -/
def iterLoop {σ : Type} (it : Iter) (i : Nat) (acc : σ) (body : Nat → IVec → σ → Out σ) : Out σ := do
  let r ← iterLoopS it i acc body
  .ok r.2

/-- Counting loop: `for (i = 0; i < n; i++) body(i)`. -/
def forRange {σ : Type} (n : Nat) (acc : σ) (body : Nat → σ → Out σ) : Out σ :=
  (List.range n).foldlM (fun a i => body i a) acc

/-- `mat = std::vector<std::vector<double>>`. types.hpp:40. -/
abbrev DMat (α : Type) := List (List α)

/-- `spmat = boost::numeric::ublas::compressed_matrix<double, row_major>`. types.hpp:60. The stored elements, in the order in
which `begin1`/`begin` iterate over them: by row, then by column, every position at most once. (Behaviour of the library
type is assumed, not modelled further.) -/
structure SpMat (α : Type) where
  size1 : Nat
  size2 : Nat
  elems : List ((Nat × Nat) × α)

/-- Row-major order of positions. -/
def posLt (p q : Nat × Nat) : Prop := p.1 < q.1 ∨ (p.1 = q.1 ∧ p.2 < q.2)

instance (p q : Nat × Nat) : Decidable (posLt p q) := by unfold posLt; infer_instance

/-- Assignment through the element reference of a compressed matrix: overwrite the stored element or insert one. -/
def insertElem {α : Type} (p : Nat × Nat) (v : α) : List ((Nat × Nat) × α) → List ((Nat × Nat) × α)
  | [] => [(p, v)]
  | (q, w) :: t =>
    if p = q then (p, v) :: t
    else if posLt p q then (p, v) :: (q, w) :: t
    else (q, w) :: insertElem p v t

/-- The operations `matrix::construct`, `size1`, `size2`, `get`, `set` used by the templates over the matrix type.
matrix.hpp:34-98, matrix.cpp:27-46. -/
class MatOps (M : Type) (α : outParam (Type)) where
  construct : Nat → Nat → M
  size1 : M → Nat
  size2 : M → Out Nat
  get : M → Nat → Nat → Out α
  set : M → Nat → Nat → α → Out M

/-- Dense matrices: matrix.hpp:44-57, 89-92; matrix.cpp:27-30. `size2` reads row 0. -/
instance {α : Type} [Zero α] : MatOps (DMat α) α where
  construct n1 n2 := List.replicate n1 (List.replicate n2 0)
  size1 M := M.length
  size2 M := do
    let r ← rd M 0
    .ok r.length
  get M i j := do
    let r ← rd M i
    rd r j
  set M i j v := do
    let r ← rd M i
    let r ← wr r j v
    wr M i r

/-- Sparse matrices: matrix.hpp:34-37, 59-67, 79-82; matrix.cpp:32-35. Positions out of range are undefined behaviour (the
checks of the library are compiled out). Reading a position that is not stored gives zero. -/
instance {α : Type} [Zero α] : MatOps (SpMat α) α where
  construct n1 n2 := ⟨n1, n2, []⟩
  size1 M := M.size1
  size2 M := .ok M.size2
  get M i j := if i < M.size1 ∧ j < M.size2 then .ok ((M.elems.lookup (i, j)).getD 0) else .ub
  set M i j v := if i < M.size1 ∧ j < M.size2 then .ok { M with elems := insertElem (i, j) v M.elems } else .ub

/-- `to_spmat(mat)`. sparse.cpp:45-59. -/
def to_spmat {α : Type} [Zero α] [DecidableEq α] (input : DMat α) : Out (SpMat α) := do
  let r0 ← rd input 0
  forRange input.length (⟨input.length, r0.length, []⟩ : SpMat α) fun i result =>
    forRange r0.length result fun j result => do
      let row ← rd input i
      let x ← rd row j
      if x ≠ 0 then MatOps.set result i j x else .ok result

/-- `full`. sparse.cpp:88-100. -/
def full {α : Type} [Zero α] (input : SpMat α) : Out (DMat α) :=
  forRange input.size1 (MatOps.construct (M := DMat α) input.size1 input.size2) fun i result =>
    forRange input.size2 result fun j result => do
      let x ← MatOps.get input i j
      MatOps.set result i j x

/-- `matrix::convert`. matrix.cpp:61-79 (dense and sparse; the ublas dense type is not used by the Python interface). -/
class Convert (S T : Type) where
  convert : S → Out T

instance {M : Type} : Convert M M where
  convert := .ok
instance {α : Type} [Zero α] : Convert (SpMat α) (DMat α) where
  convert := full
instance {α : Type} [Zero α] [DecidableEq α] : Convert (DMat α) (SpMat α) where
  convert := to_spmat

/-- `matrix::eye`. matrix.hpp:99-107. -/
def eye {M α : Type} [MatOps M α] [One α] (n : Nat) : Out M :=
  forRange n (MatOps.construct (M := M) n n) fun i result => MatOps.set result i i 1

end Hermipy
