import Verif.Model.Matrix

/-! # Model of the dense ublas matrices and of the arithmetic on matrices -/

namespace Hermipy

/-- `boost_mat = boost::numeric::ublas::matrix<double>`. types.hpp:57. Row-major contiguous storage (behaviour of the library
type is assumed). -/
structure BMat (α : Type) where
  size1 : Nat
  size2 : Nat
  data : List α

/-- matrix.hpp:39-42, 69-77, 84-87; matrix.cpp:37-40. Positions out of range are undefined behaviour (the checks of the library
are compiled out). -/
instance {α : Type} [Zero α] : MatOps (BMat α) α where
  construct n1 n2 := ⟨n1, n2, List.replicate (n1 * n2) 0⟩
  size1 M := M.size1
  size2 M := .ok M.size2
  get M i j := if i < M.size1 ∧ j < M.size2 then rd M.data (i * M.size2 + j) else .ub
  set M i j v := if i < M.size1 ∧ j < M.size2 then do
      let d ← wr M.data (i * M.size2 + j) v
      .ok { M with data := d }
    else .ub

/-- `naive_convert`. matrix.cpp:48-56. The sizes are read before the loops and again in every loop test. -/
def naive_convert {S T α : Type} [MatOps S α] [MatOps T α] (input : S) : Out T := do
  let n2 ← MatOps.size2 input
  forRange (MatOps.size1 input) (MatOps.construct (M := T) (MatOps.size1 input) n2) fun i result =>
    forRange n2 result fun j result => do
      let x ← MatOps.get input i j
      MatOps.set result i j x

/-- matrix.cpp:81-84. -/
instance {α : Type} [Zero α] : Convert (DMat α) (BMat α) where
  convert := naive_convert
/-- matrix.cpp:86-89. -/
instance {α : Type} [Zero α] : Convert (BMat α) (DMat α) where
  convert := naive_convert
/-- matrix.cpp:91-94. -/
instance {α : Type} [Zero α] : Convert (SpMat α) (BMat α) where
  convert := naive_convert

/-- `operator+` and `operator*(·, double)` on matrices. -/
class MatArith (M : Type) (α : outParam Type) where
  add : M → M → Out M
  scale : M → α → M

/-- `result[i] = v1[i] + v2[i]` on vectors. templates.hpp:36-42. A second operand that is too short is read out of range. -/
def vecAdd {α : Type} (add : α → α → Out α) : List α → List α → Out (List α)
  | [], _ => .ok []
  | _ :: _, [] => .ub
  | x :: xs, y :: ys => do
    let z ← add x y
    let zs ← vecAdd add xs ys
    .ok (z :: zs)

/-- Nested vectors: templates.hpp:36-42 and 53-59 instantiated twice. -/
instance {α : Type} [Add α] [Mul α] : MatArith (DMat α) α where
  add := vecAdd (vecAdd fun x y => .ok (x + y))
  scale A x := A.map fun r => r.map fun y => y * x

/-- ublas expression `A + B` assigned to a compressed matrix: assumed to have the positions stored in either operand (the library may
drop stored zeros, which changes no entry). Operands of different sizes are undefined behaviour. -/
instance {α : Type} [Add α] [Mul α] [Zero α] : MatArith (SpMat α) α where
  add A B := if A.size1 = B.size1 ∧ A.size2 = B.size2 then
      B.elems.foldlM (fun R e => do
        let x ← MatOps.get R e.1.1 e.1.2
        MatOps.set R e.1.1 e.1.2 (x + e.2)) A
    else .ub
  scale A x := { A with elems := A.elems.map fun e => (e.1, e.2 * x) }

/-- ublas dense expressions: entry by entry. Operands of different sizes are undefined behaviour. -/
instance {α : Type} [Add α] [Mul α] : MatArith (BMat α) α where
  add A B := if A.size1 = B.size1 ∧ A.size2 = B.size2 then do
      let d ← vecAdd (fun x y => .ok (x + y)) A.data B.data
      .ok { A with data := d }
    else .ub
  scale A x := { A with data := A.data.map fun y => y * x }

/-- Iteration over the stored elements, `begin1`/`begin`. -/
class Stored (M : Type) (α : outParam Type) where
  stored : M → List ((Nat × Nat) × α)

/-- Compressed matrices: the stored elements. -/
instance {α : Type} : Stored (SpMat α) α where
  stored M := M.elems

/-- Dense ublas matrices: all positions, row by row. -/
instance {α : Type} [Zero α] : Stored (BMat α) α where
  stored M := (List.range M.size1).flatMap fun i => (List.range M.size2).map fun j => ((i, j), M.data.getD (i * M.size2 + j) 0)

end Hermipy
