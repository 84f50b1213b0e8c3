import Verif.Model.Transform
import Mathlib.Algebra.Group.Defs

/-!
# The numerical loops over a type of floating-point numbers

`Model/Hermite.lean` and `Model/Transform.lean` take `double` for the real numbers. Here the same loops run over any type with the
operations which the C++ code uses, so that the operations may round. They are evaluated as written; what `-Ofast` (cpp/CMakeLists.txt:8) allows
in addition, reassociation for instance, is not modelled. For the real numbers these are the functions of the other files (`C91_exact`).
`inner`, `tensorize_vecs_dirs` and `project_vec` have the type of the coefficients as a parameter already. -/

namespace Hermipy

/-- The operations on `double` in hermite.cpp and transform.cpp. `M_PI` is `pi`; `ofNat` converts an `unsigned int`. A product with the number
one is exact. -/
class Floats (α : Type) extends MulOneClass α, Zero α, Add α, Sub α, Div α where
  ofNat : ℕ → α
  sqrt : α → α
  sin : α → α
  cos : α → α
  pi : α

section
variable {α : Type} [Floats α]

/-- `REC_A(i)`. hermite.hpp:27. -/
def recA (i : Nat) : α := 1 / Floats.sqrt (Floats.ofNat (i + 1))

/-- `REC_B(i)`. hermite.hpp:28. -/
def recB (i : Nat) : α := Floats.sqrt (Floats.ofNat i) / Floats.sqrt (Floats.ofNat (i + 1))

/-- `hermite_eval`. hermite.cpp:29-41. -/
def hermite_evalF (slack : Nat) (x : α) (degree : Nat) (values : List α) : Out (List α) := do
  let values ← wrPad slack values 0 1
  let values ← wrPad slack values 1 x
  forFrom 1 degree values fun i values => do
    let u ← rd values i
    let v ← rd values (i - 1)
    wrPad slack values (i + 1) (recA i * x * u - recB i * v)

/-- The row of basis functions at one node. transform.cpp:80-110. -/
def basisRowF (slack degree fourier : Nat) (x : α) : Out (List α) :=
  let row := List.replicate (degree + 1) (0 : α)
  if fourier = 0 then hermite_evalF slack x degree row
  else if fourier = 1 then
    if degree % 2 = 1 then .exit 1
    else do
      let max_freq := degree / 2
      let row ← wr row 0 (1 / Floats.sqrt (Floats.ofNat 2 * Floats.pi))
      forFrom 1 (max_freq + 1) row fun k row => do
        let row ← wr row (COS k) (Floats.cos (Floats.ofNat k * x) / Floats.sqrt Floats.pi)
        wr row (SIN k) (Floats.sin (Floats.ofNat k * x) / Floats.sqrt Floats.pi)
  else .ok row

/-- All nodes of one direction. transform.cpp:80-110. -/
def basisMatF (slack degree fourier : Nat) : List α → Out (List (List α))
  | [] => .ok []
  | x :: xs => do
    let row ← basisRowF slack degree fourier x
    let rows ← basisMatF slack degree fourier xs
    .ok (row :: rows)

/-- `bases_functions_1d`. transform.cpp:77-111. -/
def basisCubeF (slack degree : Nat) : List (List α) → List Nat → Out (List (List (List α)))
  | [], _ => .ok []
  | [] :: ns, [] => do
    let r ← basisCubeF slack degree ns []
    .ok ([] :: r)
  | (_ :: _) :: _, [] => .ub
  | n :: ns, f :: fs => do
    let b ← basisMatF slack degree f n
    let r ← basisCubeF slack degree ns fs
    .ok (b :: r)

/-- `val_at_point *= bases_functions_1d[k][p[k]][m[k]]`. transform.cpp:132-136. -/
def valAtF (dim : Nat) (bases : List (List (List α))) (p m : IVec) : Out α :=
  forRange dim (1 : α) fun k val => do
    let b ← rd bases k
    let pk ← rd p k
    let r ← rd b pk
    let mk ← rd m k
    let x ← rd r mk
    .ok (val * x)

/-- `weight *= weights[j][p[j]]`. transform.cpp:121-128. -/
def weightAtF (dim : Nat) (weights : List (List α)) (p : IVec) : Out α :=
  forRange dim (1 : α) fun j w => do
    let ws ← rd weights j
    let pj ← rd p j
    let x ← rd ws pj
    .ok (w * x)

/-- `_transform<Iterator>`. transform.cpp:44-149; dispatch 151-168. -/
def transformF (slack : Nat) (s : IndexSet) (degree : Nat) (input : List α) (nodes weights : List (List α))
    (do_fourier : List Nat) (forward : Bool) : Out (List α) := do
  let dim := nodes.length
  let n_polys ← s.s_size dim degree
  let n_points := nodes.map List.length
  let n_points_tot := n_points.foldl (fun t n => wrap32 (t * n)) 1
  let output := List.replicate (if forward then n_polys else n_points_tot) (0 : α)
  let bases ← basisCubeF slack degree nodes do_fourier
  let m ← s.iter dim degree
  let r ← gridLoop n_points_tot (mkGrid n_points) (m, output) fun i p st => do
    let weight ← if forward then weightAtF dim weights p else .ok (1 : α)
    countLoop n_polys st.1.reset st.2 fun j m output => do
      let val ← valAtF dim bases p m
      if forward then do
        let old ← rd output j
        let x ← rd input i
        wr output j (old + x * weight * val)
      else do
        let old ← rd output i
        let x ← rd input j
        wr output i (old + x * weight * val)
  .ok r.2.2

/-- `integrate`. transform.cpp:170-181. -/
def integrateF (slack : Nat) (f_grid : List α) (nodes weights : List (List α)) (do_fourier : List Nat) : Out α := do
  let integral ← transformF slack .triangle 0 f_grid nodes weights do_fourier true
  let factor := do_fourier.foldl (fun t f => t * (if f = 1 then Floats.sqrt (Floats.ofNat 2 * Floats.pi) else 1)) 1
  let x ← rd integral 0
  .ok (factor * x)

end

end Hermipy
