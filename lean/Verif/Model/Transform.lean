import Verif.Model.Hermite
import Mathlib.Analysis.SpecialFunctions.Trigonometric.Basic

/-! # Model of `cpp/src/hermite/transform.cpp` -/

namespace Hermipy

/-- `COS(k)`. transform.hpp:51. -/
def COS (k : Nat) : Nat := 2 * k

/-- `SIN(k)` for `k ≥ 1`. transform.hpp:52. -/
def SIN (k : Nat) : Nat := 2 * k - 1

/-- The row of basis functions at one node. transform.cpp:80-110. `slack` is explained at `wrPad`. -/
noncomputable def basisRow (slack degree fourier : Nat) (x : ℝ) : Out (List ℝ) :=
  let row := List.replicate (degree + 1) (0 : ℝ)
  if fourier = 0 then hermite_eval slack x degree row
  else if fourier = 1 then
    if degree % 2 = 1 then .exit 1
    else do
      let max_freq := degree / 2
      let row ← wr row 0 (1 / √(2 * Real.pi))
      forFrom 1 (max_freq + 1) row fun k row => do
        let row ← wr row (COS k) (Real.cos (k * x) / √Real.pi)
        wr row (SIN k) (Real.sin (k * x) / √Real.pi)
  else .ok row

/-- All nodes of one direction. transform.cpp:80-110. -/
noncomputable def basisMat (slack degree fourier : Nat) : List ℝ → Out (List (List ℝ))
  | [] => .ok []
  | x :: xs => do
    let row ← basisRow slack degree fourier x
    let rows ← basisMat slack degree fourier xs
    .ok (row :: rows)

/-- `bases_functions_1d`. transform.cpp:77-111. `do_fourier[i]` is read for every node of direction `i`. -/
noncomputable def basisCube (slack degree : Nat) : List (List ℝ) → List Nat → Out (List (List (List ℝ)))
  | [], _ => .ok []
  | [] :: ns, [] => do
    let r ← basisCube slack degree ns []
    .ok ([] :: r)
  | (_ :: _) :: _, [] => .ub
  | n :: ns, f :: fs => do
    let b ← basisMat slack degree f n
    let r ← basisCube slack degree ns fs
    .ok (b :: r)

/-- Counting loop that advances an iterator: `for (j = 0; j < n; j++, it.increment()) body(j, it.get())`. transform.cpp:130,
varf.cpp:236, 337, 423. -/
def countLoop {σ : Type} (n : Nat) (it : Iter) (acc : σ) (body : Nat → IVec → σ → Out σ) : Out (Iter × σ) :=
  forRange n (it, acc) fun j st => do
    let acc ← body j st.1.multi_index st.2
    let it ← st.1.increment
    .ok (it, acc)

/-- The same for the grid iterator. transform.cpp:114-115. -/
def gridLoop {σ : Type} (n : Nat) (g : GridIter) (acc : σ) (body : Nat → IVec → σ → Out σ) : Out (GridIter × σ) :=
  forRange n (g, acc) fun j st => do
    let acc ← body j st.1.multi_index st.2
    let g ← st.1.increment
    .ok (g, acc)

/-- Product over the directions of table entries: `val *= table[k][p[k]][m[k]]`. transform.cpp:132-136. -/
noncomputable def valAt (dim : Nat) (bases : List (List (List ℝ))) (p m : IVec) : Out ℝ :=
  forRange dim (1 : ℝ) fun k val => do
    let b ← rd bases k
    let pk ← rd p k
    let r ← rd b pk
    let mk ← rd m k
    let x ← rd r mk
    .ok (val * x)

/-- `weight *= weights[j][p[j]]`. transform.cpp:121-128. -/
noncomputable def weightAt (dim : Nat) (weights : List (List ℝ)) (p : IVec) : Out ℝ :=
  forRange dim (1 : ℝ) fun j w => do
    let ws ← rd weights j
    let pj ← rd p j
    let x ← rd ws pj
    .ok (w * x)

/-- `_transform<Iterator>`. transform.cpp:44-149; dispatch 151-168. -/
noncomputable def transform (slack : Nat) (s : IndexSet) (degree : Nat) (input : List ℝ) (nodes weights : List (List ℝ))
    (do_fourier : List Nat) (forward : Bool) : Out (List ℝ) := do
  let dim := nodes.length
  let n_polys ← s.s_size dim degree
  let n_points := nodes.map List.length
  let n_points_tot := n_points.foldl (fun t n => wrap32 (t * n)) 1
  let output := List.replicate (if forward then n_polys else n_points_tot) (0 : ℝ)
  let bases ← basisCube slack degree nodes do_fourier
  let m ← s.iter dim degree
  let r ← gridLoop n_points_tot (mkGrid n_points) (m, output) fun i p st => do
    let weight ← if forward then weightAt dim weights p else .ok (1 : ℝ)
    countLoop n_polys st.1.reset st.2 fun j m output => do
      let val ← valAt dim bases p m
      if forward then do
        let old ← rd output j
        let x ← rd input i
        wr output j (old + x * weight * val)
      else do
        let old ← rd output i
        let x ← rd input j
        wr output i (old + x * weight * val)
  .ok r.2.2

/-- `integrate`. transform.cpp:170-181. -/
noncomputable def integrate (slack : Nat) (f_grid : List ℝ) (nodes weights : List (List ℝ)) (do_fourier : List Nat) :
    Out ℝ := do
  let integral ← transform slack .triangle 0 f_grid nodes weights do_fourier true
  let factor := do_fourier.foldl (fun t f => t * (if f = 1 then √(2 * Real.pi) else 1)) 1
  let x ← rd integral 0
  .ok (factor * x)

end Hermipy
