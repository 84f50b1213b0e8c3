import Verif.Model.Position
import Verif.Model.Iterators

/-! # Model of the objects of `hermipy/series.py` and `hermipy/varf.py`

Coefficient vectors and matrices are lists of real numbers; a sparse matrix is represented by the matrix it stands for. The factor is a
symbolic function (function.py:23): all that matters is the comparison `==` (equality of directions and expressions, function.py:76-78),
the constant function one, and its values. The cached functions of `core` are called directly. An unknown name of an index set raises in
`core`; here the index set is one of the five. -/

namespace Hermipy

/-- Symbolic functions, as far as factors are concerned. -/
class SymFn (Φ : Type) [DecidableEq Φ] where
  /-- `Function(1, dirs=dirs)` -/
  one : List ℕ → Φ
  /-- the value at the point with coordinate `x d` in direction `d` -/
  value : Φ → (ℕ → ℝ) → ℝ
  value_one : ∀ dirs x, value (one dirs) x = 1

/-- The attributes of a `Series`. series.py:80-106. -/
structure HSeries (Φ : Type) where
  coeffs : List ℝ
  position : Position
  degree : ℕ
  factor : Φ
  index_set : IndexSet

/-- The attributes of a `Varf`. varf.py:66-76. -/
structure HVarf (Φ : Type) where
  is_sparse : Bool
  matrix : List (List ℝ)
  position : Position
  degree : ℕ
  factor : Φ
  index_set : IndexSet

variable {Φ : Type}

/-- `Series(coeffs, position, factor, index_set)` without rounding. series.py:80-106, with `multi_indices` (211-215), for a factor which
is already a function: `Function(f, dirs)` is `f` then (function.py:49-52). -/
def mkSeries (coeffs : List ℝ) (position : Position) (factor : Φ) (index_set : IndexSet) : Out (HSeries Φ) :=
  if position.dirs = [] then .ok ⟨coeffs, position, 0, factor, index_set⟩
  else do
    let degree ← index_set.s_get_degree position.dim coeffs.length
    let n ← if position.dim = 0 then .ok 1 else do
      let L ← index_set.s_list position.dim degree
      .ok L.length
    if ¬ n = coeffs.length then .throws else .ok ⟨coeffs, position, degree, factor, index_set⟩

/-- `Varf(matrix, position, factor, index_set)`. varf.py:66-76; a failed `assert` raises. -/
def mkVarf (is_sparse : Bool) (matrix : List (List ℝ)) (position : Position) (factor : Φ) (index_set : IndexSet) : Out (HVarf Φ) := do
  let degree ← index_set.s_get_degree position.dim matrix.length
  let L ← index_set.s_list position.dim degree
  if ¬ L.length = matrix.length then .throws else .ok ⟨is_sparse, matrix, position, degree, factor, index_set⟩

/-- Arithmetic of two numpy vectors: equal lengths, or one of the lengths is 1; otherwise `ValueError`. -/
def broadcast (f : ℝ → ℝ → ℝ) (a b : List ℝ) : Out (List ℝ) :=
  if a.length = b.length then .ok (List.zipWith f a b)
  else if b.length = 1 then .ok (a.map fun x => f x (b.getD 0 0))
  else if a.length = 1 then .ok (b.map fun y => f (a.getD 0 0) y)
  else .throws

/-- Arithmetic of two numpy matrices: the rows are broadcast, then the entries of the rows. -/
def broadcast2 (f : ℝ → ℝ → ℝ) (A B : List (List ℝ)) : Out (List (List ℝ)) :=
  if A.length = B.length then (List.zip A B).mapM fun r => broadcast f r.1 r.2
  else if B.length = 1 then A.mapM fun r => broadcast f r (B.getD 0 [])
  else if A.length = 1 then B.mapM fun r => broadcast f (A.getD 0 []) r
  else .throws

/-- Sum with a sparse operand: the shapes must be equal. -/
def sparseAdd (A B : List (List ℝ)) : Out (List (List ℝ)) :=
  if A.map List.length = B.map List.length then .ok (List.zipWith (List.zipWith (· + ·)) A B) else .throws

section arithmetic
variable [DecidableEq Φ]

/-- `series + c` for a number. series.py:117-118, 132-133. -/
def series_add_scalar (f : HSeries Φ) (c : ℝ) : Out (HSeries Φ) :=
  mkSeries (f.coeffs.map (· + c)) f.position f.factor f.index_set

open scoped Classical in
/-- `series + series`. series.py:120-133. -/
noncomputable def series_add (f g : HSeries Φ) : Out (HSeries Φ) :=
  if ¬ pos_eq f.position g.position ∨ ¬ f.index_set = g.index_set ∨ ¬ f.factor = g.factor then .throws
  else do
    let new_coeffs ← broadcast (· + ·) f.coeffs g.coeffs
    mkSeries new_coeffs f.position f.factor f.index_set

/-- `series * c` for a number. series.py:137-140. -/
def series_mul_scalar (f : HSeries Φ) (c : ℝ) : Out (HSeries Φ) :=
  mkSeries (f.coeffs.map (· * c)) f.position f.factor f.index_set

/-- `series - series`. series.py:152-153. -/
noncomputable def series_sub (f g : HSeries Φ) : Out (HSeries Φ) := do
  let h ← series_mul_scalar g (-1)
  series_add f h

/-- `-series`. series.py:155-156. -/
def series_neg (f : HSeries Φ) : Out (HSeries Φ) := series_mul_scalar f (-1)

/-- `series / c`. series.py:158-163. (Division by zero gives infinities in numpy; here `c ≠ 0`.) -/
noncomputable def series_div (f : HSeries Φ) (c : ℝ) : Out (HSeries Φ) :=
  mkSeries (f.coeffs.map (· / c)) f.position f.factor f.index_set

/-- `varf + c`. varf.py:87-88, 100-101. Adding a nonzero number to a sparse matrix raises `NotImplementedError`. -/
noncomputable def varf_add_scalar (A : HVarf Φ) (c : ℝ) : Out (HVarf Φ) :=
  if A.is_sparse ∧ c ≠ 0 then .throws
  else mkVarf A.is_sparse (A.matrix.map fun r => r.map (· + c)) A.position A.factor A.index_set

open scoped Classical in
/-- `varf + varf`. varf.py:90-101. The sum is sparse if both matrices are. -/
noncomputable def varf_add (A B : HVarf Φ) : Out (HVarf Φ) :=
  if ¬ pos_eq A.position B.position ∨ ¬ A.index_set = B.index_set ∨ ¬ A.factor = B.factor then .throws
  else do
    let new_matrix ← if A.is_sparse || B.is_sparse then sparseAdd A.matrix B.matrix else broadcast2 (· + ·) A.matrix B.matrix
    mkVarf (A.is_sparse && B.is_sparse) new_matrix A.position A.factor A.index_set

/-- `varf * c`. varf.py:105-108. -/
def varf_mul_scalar (A : HVarf Φ) (c : ℝ) : Out (HVarf Φ) :=
  mkVarf A.is_sparse (A.matrix.map fun r => r.map (· * c)) A.position A.factor A.index_set

/-- `varf - varf`. varf.py:121-122. -/
noncomputable def varf_sub (A B : HVarf Φ) : Out (HVarf Φ) := do
  let C ← varf_mul_scalar B (-1)
  varf_add A C

/-- `matrix.dot(vector)`. -/
def matDot (A : List (List ℝ)) (v : List ℝ) : Out (List ℝ) :=
  A.mapM fun r => if r.length = v.length then .ok (List.zipWith (· * ·) r v).sum else .throws

open scoped Classical in
/-- `varf(series)`. varf.py:127-134. -/
noncomputable def varf_call (A : HVarf Φ) (f : HSeries Φ) : Out (HSeries Φ) :=
  if ¬ pos_eq A.position f.position ∨ ¬ A.index_set = f.index_set then .throws
  else do
    let coeffs ← matDot A.matrix f.coeffs
    mkSeries coeffs A.position A.factor A.index_set

end arithmetic

/-- `Series.subdegree`. series.py:194-209. `np.zeros` of a negative number raises. -/
def series_subdegree (f : HSeries Φ) (degree : ℕ) : Out (HSeries Φ) :=
  if f.index_set = .cross_nc then .throws
  else do
    let n_polys ← f.index_set.s_size f.position.dim degree
    let coeffs ← if degree ≤ f.degree then .ok (f.coeffs.take n_polys)
      else if n_polys < f.coeffs.length then .throws
      else .ok (f.coeffs ++ List.replicate (n_polys - f.coeffs.length) 0)
    mkSeries coeffs f.position f.factor f.index_set

/-- `Varf.subdegree`. varf.py:147-155. -/
def varf_subdegree (A : HVarf Φ) (degree : ℕ) : Out (HVarf Φ) :=
  if ¬ degree ≤ A.degree then .throws
  else do
    let n_polys ← A.index_set.s_size A.position.dim degree
    mkVarf A.is_sparse ((A.matrix.take n_polys).map fun r => r.take n_polys) A.position A.factor A.index_set

/-- `lib.cross_in_triangle`. lib.py:36-38. -/
def cross_in_triangle (dim degree : ℕ) : Out (List ℕ) := do
  let list_cross ← IndexSet.cross.s_list dim degree
  list_cross.mapM Triangle.s_index

/-- `Function(1, dirs=dirs)`: the directions must be sorted, and there are five symbols. function.py:26, 62-74. -/
def oneFunction [DecidableEq Φ] [SymFn Φ] (dirs : List ℕ) : Out Φ :=
  if ¬ dirs.Pairwise (· ≤ ·) ∨ ∃ d ∈ dirs, ¬ d < 5 then .throws else .ok (SymFn.one dirs)

/-- `Series.to_cross`. series.py:293-298. The comparison `degree + dim - 1 <= self.degree` is one of Python integers. -/
def series_to_cross [DecidableEq Φ] [SymFn Φ] (f : HSeries Φ) (degree : ℕ) : Out (HSeries Φ) :=
  if ¬ f.index_set = .triangle ∨ ¬ degree + f.position.dim ≤ f.degree + 1 then .throws
  else do
    let inds ← cross_in_triangle f.position.dim degree
    let coeffs ← inds.mapM fun i => pyget f.coeffs i
    let factor ← oneFunction f.position.dirs
    mkSeries coeffs f.position factor .cross

/-- `Varf.to_cross`. varf.py:161-168. -/
def varf_to_cross (A : HVarf Φ) (degree : ℕ) : Out (HVarf Φ) :=
  if ¬ A.index_set = .triangle ∨ ¬ degree + A.position.dim ≤ A.degree + 1 then .throws
  else do
    let inds ← cross_in_triangle A.position.dim degree
    let matrix ← inds.mapM fun i => do
      let r ← pyget A.matrix i
      inds.mapM fun j => pyget r j
    mkVarf A.is_sparse matrix A.position A.factor .cross

/-- The polynomials of one direction at the value `y` of `h1`, as a list. series.py:264-283. -/
noncomputable def hermiteDir (degree : ℕ) (y : ℝ) : List ℝ :=
  (List.range' 1 (degree - 1)).foldl (fun (hs : List ℝ) (j : ℕ) =>
    hs ++ [hs.getD (hs.length - 1) 0 * hs.getD 1 0 * (1 / √((j : ℝ) + 1)) + hs.getD (hs.length - 2) 0 * -(√(j : ℝ) / √((j : ℝ) + 1))])
    [1, y]

open scoped Classical in
/-- The value of `to_function()` at a point. series.py:260-291. The functions have the directions of the position (see `oneFunction`); the
products and sums of functions are those of their values (function.py:84-106). -/
noncomputable def series_to_function (f : HSeries Φ) (x : ℕ → ℝ) : Out ℝ :=
  if ¬ f.position.is_diag then .throws
  else if ¬ f.position.dirs.Pairwise (· ≤ ·) then .throws
  else do
    let hermite_dirs ← (List.range f.position.dirs.length).mapM fun i => do
      let d ← pyget f.position.dirs i
      if ¬ d < 5 then .throws
      else do
        let μ ← pyget f.position.mean i
        let row ← pyget f.position.cov i
        let σ ← pyget row i
        .ok (hermiteDir f.degree (√σ * (x d - μ)))
    let L ← if f.position.dim = 0 then .ok [[]] else f.index_set.s_list f.position.dim f.degree
    (List.range L.length).foldlM (fun result im => do
      let m ← pyget L im
      let c ← pyget f.coeffs im
      let result_m ← (List.range f.position.dim).foldlM (fun r i => do
        let hs ← pyget hermite_dirs i
        let mi ← pyget m i
        let h ← pyget hs mi
        .ok (r * h)) c
      .ok (result + result_m)) 0

end Hermipy
