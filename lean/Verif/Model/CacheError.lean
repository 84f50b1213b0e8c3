import Verif.Model.Cache
import Mathlib.Analysis.CStarAlgebra.Matrix

/-! # Model of the comparison of results with cached results (`gen_error`, `hermipy/cache.py`) -/

namespace Hermipy.Cache

/-- The shape of the difference of two arrays: numpy appends axes of length one in front of the shorter shape, and repeats along axes of
length one. -/
def bshape (s t : List ℕ) : Out (List ℕ) :=
  let n := max s.length t.length
  let s := List.replicate (n - s.length) 1 ++ s
  let t := List.replicate (n - t.length) 1 ++ t
  if ∃ p ∈ s.zip t, p.1 ≠ p.2 ∧ p.1 ≠ 1 ∧ p.2 ≠ 1 then .throws
  else .ok (List.zipWith (fun a b => if a = 1 then b else a) s t)

/-- The entries (the last axis runs fastest) of an array of shape `s`, repeated along the axes of length one so that the shape is `t`. -/
def expand : List ℕ → List ℕ → List ℝ → List ℝ
  | m :: s, n :: t, d =>
    if m = n then ((List.range n).map fun i => expand s t ((d.drop (i * s.prod)).take s.prod)).flatten
    else (List.replicate n (expand s t d)).flatten
  | _, _, d => d

/-- `u - v` for arrays. -/
noncomputable def subArrays (s : List ℕ) (d : List ℝ) (t : List ℕ) (e : List ℝ) : Out (List ℕ × List ℝ) := do
  let r ← bshape s t
  .ok (r, List.zipWith (· - ·) (expand (List.replicate (r.length - s.length) 1 ++ s) r d)
    (expand (List.replicate (r.length - t.length) 1 ++ t) r e))

/-- The Euclidean norm. -/
noncomputable def vecNorm (d : List ℝ) : ℝ := √(d.map (· ^ 2)).sum

open scoped Matrix.Norms.L2Operator in
/-- The largest singular value of the matrix with these entries. -/
noncomputable def matNorm (m n : ℕ) (d : List ℝ) : ℝ := ‖(Matrix.of fun (i : Fin m) (j : Fin n) => d.getD (i * n + j) 0 : Matrix _ _ ℝ)‖

/-- `la.norm(x, 2)`: the Euclidean norm for one axis, the largest singular value for two axes (the maximum of the empty list raises), and
`ValueError` for more axes. -/
noncomputable def npNorm : List ℕ × List ℝ → Out ℝ
  | ([_], d) => .ok (vecNorm d)
  | ([m, n], d) => if m = 0 ∨ n = 0 then .throws else .ok (matNorm m n d)
  | _ => .throws

/-- The entries of a sparse matrix, row by row. -/
noncomputable def dense (n1 n2 : ℕ) (e : List ((ℕ × ℕ) × ℝ)) : List ℝ :=
  (List.range n1).flatMap fun i => (List.range n2).map fun j => ((e.filter fun p => p.1 = (i, j)).map (·.2)).sum

/-- `la.norm(u - v, 2)` for an array `u`; `v` is an array, or a number, which is an array without axes. cache.py:81-82. -/
noncomputable def arrayError (s : List ℕ) (d : List ℝ) (t : List ℕ) (e : List ℝ) : Out ℝ := do
  let w ← subArrays s d t e
  npNorm w

/-- `the_error`, for a result and what has been loaded. cache.py:78-89. The value is a list of numbers, because for a number and an array
it is an array. For a number and a sparse matrix, and for a tuple and a sparse matrix, see the lines; a loaded result is never a tuple. -/
noncomputable def theError : Res → Res → Out (List ℝ)
  | .num _ q, .num _ r => .ok [|(q : ℝ) - r|]
  | .num _ q, .array _ d => .ok (d.map fun x => |(q : ℝ) - x|)
  -- `0 - v` is a sparse matrix; other numbers raise `NotImplementedError`. The values do not matter, see cache.py:153
  | .num _ q, .csr .. => if q = 0 then .ok [] else .throws
  | .array s d, .num _ q => do
    let e ← arrayError s d [] [(q : ℝ)]
    .ok [e]
  | .array s d, .array t e => do
    let e ← arrayError s d t e
    .ok [e]
  -- scipy repeats the entries of `u`, but not those of `v`
  | .array s d, .csr n1 n2 e => do
    let r ← bshape s [n1, n2]
    if r = [n1, n2] then do
      let e ← arrayError s d [n1, n2] (dense n1 n2 e)
      .ok [e]
    else .throws
  | .csr _ _ e, .csr _ _ e' => do
    let e ← arrayError [e.length] (e.map (·.2)) [e'.length] (e'.map (·.2))
    .ok [e]
  | .csr .., _ => .throws
  -- a loop over the first axis; `zip` stops with the shorter one
  | .tuple us, .array (n :: t) e => do
    let es ← (us.zip (List.range n)).mapM fun p => arrayError [p.1.length] p.1 t ((e.drop (p.2 * t.prod)).take t.prod)
    .ok [es.sum]
  -- iterating over a number raises; for a sparse matrix this is a simplification
  | .tuple _, _ => .throws
  | _, .tuple _ => .throws

open scoped Classical in
/-- `error < 1e-10` as a condition. cache.py:153-154. The condition of an array with several entries raises; with `quiet`, it is not
evaluated. -/
noncomputable def closeTo (quiet : Bool) (u v : Res) : Out Bool := do
  let e ← theError u v
  match e with
  | [e] => .ok (decide (e < 1 / 10 ^ 10))
  | _ => if quiet || isSparse v then .ok false else .throws

/-- The decorator `cache(hash_extend, quiet=quiet)`; `error_extend` is never given. cache.py:95-97. -/
noncomputable def decorator (extend : ℕ → Option Str) (quiet : Bool) : Decorator := ⟨extend, closeTo quiet, quiet⟩

end Hermipy.Cache
