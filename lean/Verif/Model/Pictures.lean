import Verif.Model.Series
import Verif.Model.FunctionObject
import Verif.Model.Discretize

/-! # The data of the pictures of series and forms, and the coordinates of the nodes, after series.py, varf.py and quad.py

As in `Model/Plot.lean`, what is handed to matplotlib is returned here; colours, titles and the figures themselves are left out. -/

namespace Hermipy
variable {Φ : Type}

/-! ## `Varf.plot` -/

/-- What `Varf.plot` draws: points with abscissa, ordinate and the number that gives the colour, the ends of the axes, and the positions of
the lines, each drawn as a vertical and as a horizontal line. -/
structure MatrixPicture where
  points : List (ℕ × ℕ × ℝ)
  xlim : ℕ
  ylim : ℕ
  lines : List ℕ

/-- The points for a dense matrix: row after row, the entries above the threshold. varf.py:253-260. `1e-9` is taken as the decimal number. -/
noncomputable def densePoints (matrix : List (List ℝ)) (n m : ℕ) : List (ℕ × ℕ × ℝ) :=
  (List.range n).flatMap fun i => (List.range m).filterMap fun j =>
    if |entryOf matrix i j| > 1 / 10 ^ 9 then some (i, j, |entryOf matrix i j|) else none

/-- `sum(m)` if the index set is the triangle, otherwise `max(m)`, which raises for an empty multi-index. varf.py:271. -/
def lineFunction (index_set : IndexSet) (m : IVec) : Out ℕ :=
  if index_set = .triangle then .ok m.sum
  else match m with
    | [] => .throws
    | a :: l => .ok (l.foldl max a)

/-- The loop over `enumerate(self.multi_indices())` from the `i`-th multi-index on. varf.py:268-275. -/
def degreeLines (function : IVec → Out ℕ) : ℕ → ℕ → List IVec → Out (List ℕ)
  | _, _, [] => .ok []
  | i, degree, m :: l => do
    let v ← function m
    if v > degree then do
      let rest ← degreeLines function (i + 1) (degree + 1) l
      .ok (i :: rest)
    else degreeLines function (i + 1) degree l

/-- `Varf.plot`. varf.py:242-284. `coo` are the row, the column and the value of the stored entries of a sparse matrix, in the order of
`tocoo()`; `shape[1]` is the length of the first row. -/
noncomputable def varf_plot (coo : List (ℕ × ℕ × ℝ)) (A : HVarf Φ) (lines : Bool) : Out MatrixPicture := do
  let n := A.matrix.length
  let m := (A.matrix.getD 0 []).length
  let points := if A.is_sparse then coo else densePoints A.matrix n m
  let drawn ← if lines then do
      let L ← A.index_set.s_list A.position.dim A.degree
      degreeLines (lineFunction A.index_set) 0 0 L
    else .ok []
  .ok ⟨points, n, m, drawn⟩

/-! ## `Series.plot` -/

/-- What `Series.plot` draws: bars with position and height, points with two coordinates and the number for the colour, or nothing. -/
inductive SeriesPicture where
  | bars (l : List (ℕ × ℝ))
  | points (l : List (ℕ × ℕ × ℝ))
  | nothing

/-- `m[:, k]`. -/
def column (L : List IVec) (k : ℕ) : Out (List ℕ) := L.mapM fun m => pyget m k

/-- `Series.plot`. series.py:217-258; `given` says whether the axes are an argument, in which case the variable `pl` is returned, which is
unbound unless there are one or two directions. matplotlib raises for arrays of other lengths (except for one bar). -/
noncomputable def series_plot (given : Bool) (f : HSeries Φ) : Out SeriesPicture := do
  let m ← if f.position.dim = 0 then .ok [[]] else f.index_set.s_list f.position.dim f.degree
  if f.position.dim = 1 then do
    let mx ← column m 0
    if mx.length ≠ f.coeffs.length then .throws else .ok (.bars (mx.zip f.coeffs))
  else if f.position.dim = 2 then do
    let mx ← column m 0
    let my ← column m 1
    if mx.length ≠ f.coeffs.length then .throws else .ok (.points (mx.zip (my.zip (f.coeffs.map fun c => |c|))))
  else if given then .throws else .ok .nothing

/-! ## `Quad.mapped_nodes` -/

/-- The name of the `i`-th coordinate, `'x_{}'.format(i)`. quad.py:245. -/
def nodeName (i : ℕ) : List Char := ['x', '_'] ++ (toString i).toList

/-- The loop over the coordinates. quad.py:243-246, with `discretize` (249-254). `Function(coord)` keeps a name which is not in `conv`
(function.py:57-59), and sympy's `ccode` of a symbol is its name. The shared objects are kept from one coordinate to the next. -/
noncomputable def mappedLoop (hash : String → ℕ) (compile : String → Option (List ℝ → Out ℝ)) (dirs : List ℕ) (nodes : List (List ℝ))
    (mean : List ℝ) (factor : List (List ℝ)) : List ℕ → SoFiles (List ℝ → Out ℝ) → Out (List (List ℝ))
  | [], _ => .ok []
  | i :: l, files => do
    let r := discretize_from_string hash compile files (String.ofList (ccodeOf dirs (nodeName i))) nodes mean factor
    let row ← r.2
    let rest ← mappedLoop hash compile dirs nodes mean factor l r.1
    .ok (row :: rest)

/-- `Quad.mapped_nodes`. quad.py:242-247. `vstack` raises for an empty list; the result is transposed. -/
noncomputable def mapped_nodes (hash : String → ℕ) (compile : String → Option (List ℝ → Out ℝ)) (files : SoFiles (List ℝ → Out ℝ))
    (p : Position) (nodes : List (List ℝ)) (factor : List (List ℝ)) : Out (List (List ℝ)) := do
  let coords ← mappedLoop hash compile p.dirs nodes p.mean factor (List.range p.dim) files
  match coords with
  | [] => .throws
  | row :: rest => .ok ((List.range row.length).map fun k => (row :: rest).map fun r => r.getD k 0)

end Hermipy
