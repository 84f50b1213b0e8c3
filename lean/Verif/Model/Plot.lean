import Verif.Model.QuadConstructors
import Verif.Model.Core

/-! # The data that is plotted, after quad.py

Functions of `Quad` which hand data to matplotlib return this data here; titles, colours and the figures themselves are left out. -/

namespace Hermipy
variable {F : Type}

/-- The argument of `plot`: an expression or a `Function`, an array, or a `Series` with real coefficients. -/
inductive PlotArg (F : Type) where
  | fn (f : FactorArg F)
  | array (values : List ℝ)
  | series (s : HSeries (SFn F))

/-- The argument `factor` of `plot` and `streamlines`. -/
inductive PlotFactor (F : Type) where
  | none
  | array (values : List ℝ)
  | expr (f : FactorArg F)

/-- What is drawn: `ax.plot(x, y)` or `ax.contourf(x, y, z)`, where `z[j][i]` is drawn at `(x[i], y[j])`. -/
inductive PlotData where
  | curve (x y : List ℝ)
  | surface (x y : List ℝ) (z : List (List ℝ))

/-- A plot: the data, the positions of the vertical and of the horizontal lines, and the extreme values in the title. -/
structure Plot where
  data : PlotData
  vlines : List ℝ
  hlines : List ℝ
  low : ℝ
  high : ℝ

/-- `Quad.series`. quad.py:412-425. -/
def quad_series (q : HQuad F) (coeffs : List ℝ) (index_set : IndexSet) : Out (HSeries (SFn F)) := mkSeries coeffs q.position q.factor index_set

/-- `Function.xyz[d]` as a function of direction `d`: `var d` is the factor `x_d`. function.py:26; there are five symbols. -/
def coordinate (var : ℕ → F) (d : ℕ) : FactorArg F := .expr {{({d}, var d)}}

/-- The coordinates of the nodes of one direction: `self.project(d').discretize(hm.Function.xyz[d])`. quad.py:529-531, 592-594. -/
noncomputable def axisNodes [Interp F] (eig : Eig) (var : ℕ → F) (q : HQuad F) (d' d : ℕ) : Out (List ℝ) :=
  if 5 ≤ d then .throws
  else do
    let p ← quad_project q [d']
    let f ← factorOf (coordinate var d) p.position.dirs
    quad_discretize eig p f

/-- `v.reshape(n0, n1).T`, as rows. quad.py:532, 595. -/
def reshapeT (v : List ℝ) (n0 n1 : ℕ) : Out (List (List ℝ)) :=
  if v.length ≠ n0 * n1 then .throws else .ok ((List.range n1).map fun j => (List.range n0).map fun i => v.getD (i * n1 + j) 0)

/-- `np.min` and `np.max`, which raise for empty arrays. quad.py:543, 611. -/
noncomputable def npMin (v : List ℝ) : Out ℝ := match v with
  | [] => .throws
  | a :: l => .ok (l.foldl min a)

noncomputable def npMax (v : List ℝ) : Out ℝ := match v with
  | [] => .throws
  | a :: l => .ok (l.foldl max a)

/-- The values that `plot` draws. quad.py:479-504. With an array as `factor`, `solution` is unbound. -/
noncomputable def plotValues [Interp F] (slack : ℕ) (eig : Eig) (q : HQuad F) (arg : PlotArg F) (factor : PlotFactor F) : Out (List ℝ) :=
  match arg with
  | .fn f => do
    let f ← factorOf f q.position.dirs
    match factor with
    | .none => quad_discretize eig q f
    | _ => .throws
  | .array v => .ok v
  | .series s =>
    match factor with
    | .none => quad_eval slack eig q s
    | .expr g => do
      let g ← factorOf g q.position.dirs
      let fac ← quad_discretize eig q g
      let val ← quad_eval slack eig q s
      broadcast (· * ·) val fac
    | .array _ => .throws

/-- `[mean - width * sqrt(cov), mean + width * sqrt(cov)]` with `width = sqrt(2) * sqrt(2 d + 1)`. quad.py:446-451, 508-514. -/
noncomputable def plotBounds (p : Position) (i d : ℕ) : Out (ℝ × ℝ) := do
  let m ← pyget p.mean i
  let r ← pyget p.cov i
  let c ← pyget r i
  .ok (m - √2 * √(2 * d + 1) * √c, m + √2 * √(2 * d + 1) * √c)

/-- The lines of `plot(series, bounds=True)`. quad.py:506-521. -/
noncomputable def seriesLines (q : HQuad F) (arg : PlotArg F) (bounds : Bool) : Out (List ℝ × List ℝ) :=
  match arg with
  | .series s => if bounds then do
      let b ← (List.range s.position.dim).mapM fun i => plotBounds s.position i s.degree
      let v ← if 1 ≤ q.position.dim then do
          let b0 ← pyget b 0
          .ok [b0.1, b0.2]
        else .ok []
      let h ← if q.position.dim = 2 then do
          let b1 ← pyget b 1
          .ok [b1.1, b1.2]
        else .ok []
      .ok (v, h)
    else .ok ([], [])
  | _ => .ok ([], [])

/-- `Quad.plot` with `ax` given. quad.py:468-554. In dimensions other than one and two `plot` is unbound at the end. -/
noncomputable def quad_plot [Interp F] (slack : ℕ) (eig : Eig) (var : ℕ → F) (q : HQuad F) (arg : PlotArg F) (factor : PlotFactor F)
    (bounds : Bool) : Out Plot :=
  open scoped Classical in
  if ¬ q.position.is_diag then .throws
  else do
    let solution ← plotValues slack eig q arg factor
    let lines ← seriesLines q arg bounds
    let r_nodes ← q.position.dirs.mapM fun d => axisNodes eig var q d d
    let n_nodes := q.nodes.map List.length
    match r_nodes, n_nodes with
    | [x], [n0] => do
      if solution.length ≠ n0 then .throws else do
        let low ← npMin solution
        let high ← npMax solution
        .ok ⟨.curve x solution, lines.1, lines.2, low, high⟩
    | [x, y], [n0, n1] => do
      let z ← reshapeT solution n0 n1
      let low ← npMin z.flatten
      let high ← npMax z.flatten
      .ok ⟨.surface x y z, lines.1, lines.2, low, high⟩
    | _, _ => .throws

/-- `Quad.plot_hf` with `ax` given. quad.py:427-466. The lines come after those of `plot`, of which there are none. -/
noncomputable def quad_plot_hf [Interp F] (slack : ℕ) (eig : Eig) (var : ℕ → F) (q : HQuad F) (multi_index : List ℕ) (factor : PlotFactor F)
    (bounds : Bool) : Out Plot :=
  if multi_index.length ≠ q.position.dim then .throws
  else do
    let n ← Core.iterator_size multi_index.length multi_index.sum "triangle"
    let k ← Core.iterator_index multi_index "triangle"
    if n ≤ k then .throws
    else do
      let hf ← quad_series q ((List.replicate n 0).set k 1) .triangle
      let plot ← quad_plot slack eig var q (.series hf) factor false
      if bounds then do
        let b ← (List.range multi_index.length).mapM fun i => do
          let d ← pyget multi_index i
          plotBounds q.position i d
        let v ← if 1 ≤ multi_index.length then do
            let b0 ← pyget b 0
            .ok [b0.1, b0.2]
          else .ok []
        let h ← if multi_index.length = 2 then do
            let b1 ← pyget b 1
            .ok [b1.1, b1.2]
          else .ok []
        .ok { plot with vlines := v, hlines := h }
      else .ok plot

/-! ## Stream lines -/

/-- The first row of `psi`: `psi[0, jx] = psi[0, jx-1] - fy[0, jx] * (x[jx] - x[jx-1])`. quad.py:603-605. -/
def psiRow (x fy0 : List ℝ) (nx : ℕ) : Out (List ℝ) :=
  (List.range (nx - 1)).foldlM (fun row j => do
    let a ← pyget row j
    let f ← pyget fy0 (j + 1)
    let x1 ← pyget x (j + 1)
    let x0 ← pyget x j
    .ok (row ++ [a - f * (x1 - x0)])) [0]

/-- `calc_psi2d`. quad.py:600-608. `psi[jy, :] = psi[jy-1, :] + fx[jy, :] * (y[jy] - y[jy-1])`. -/
def calc_psi2d (x y : List ℝ) (fx fy : List (List ℝ)) : Out (List (List ℝ)) := do
  let fx0 ← pyget fx 0
  let fy0 ← pyget fy 0
  let row ← psiRow x fy0 fx0.length
  (List.range (fx.length - 1)).foldlM (fun psi j => do
    let a ← pyget psi j
    let f ← pyget fx (j + 1)
    let y1 ← pyget y (j + 1)
    let y0 ← pyget y j
    let r ← broadcast (fun a f => a + f * (y1 - y0)) a f
    .ok (psi ++ [r])) [row]

/-- The levels of the stream function. quad.py:611-616. -/
noncomputable def streamLevels (low high : ℝ) : List ℝ :=
  let low' := if |low| < 1 / 10 * (high - low) then 1 / 10 * (high - low) else low
  let high' := if |high| < 1 / 10 * (high - low') then -(1 / 10 * (high - low')) else high
  (List.range 10).map fun (i : ℕ) => low' + i * ((high' - low') / 9)

/-- What `streamlines` draws: the coordinates, the stream function, and the levels. -/
structure Streams where
  x : List ℝ
  y : List ℝ
  psi : List (List ℝ)
  levels : List ℝ

/-- The values of the field. quad.py:567-586. For functions, the values are assigned to `fx`, `fy`, and `sx`, `sy` are unbound; with an array as
`factor` they are unbound too. Arrays have an unsupported type. -/
noncomputable def streamValues [Interp F] (slack : ℕ) (eig : Eig) (q : HQuad F) (fx fy : PlotArg F) (factor : PlotFactor F) :
    Out (List ℝ × List ℝ) :=
  match fx, fy with
  | .series fx, .series fy =>
    match factor with
    | .none => do
      let sx ← quad_eval slack eig q fx
      let sy ← quad_eval slack eig q fy
      .ok (sx, sy)
    | .expr g => do
      let g ← factorOf g q.position.dirs
      let fac ← quad_discretize eig q g
      let sx ← quad_eval slack eig q fx
      let sx ← broadcast (· * ·) sx fac
      let sy ← quad_eval slack eig q fy
      let sy ← broadcast (· * ·) sy fac
      .ok (sx, sy)
    | .array _ => .throws
  | .fn fx, .fn fy => do
    let fx ← factorOf fx q.position.dirs
    let fy ← factorOf fy q.position.dirs
    match factor with
    | .none => do
      let _ ← quad_discretize eig q fx
      let _ ← quad_discretize eig q fy
      .throws
    | _ => .throws
  | _, _ => .throws

/-- `Quad.streamlines` with `ax` given. quad.py:556-623. The axis is projected on direction `i`, and not on `dirs[i]`. -/
noncomputable def quad_streamlines [Interp F] (slack : ℕ) (eig : Eig) (var : ℕ → F) (q : HQuad F) (fx fy : PlotArg F) (factor : PlotFactor F) :
    Out Streams :=
  open scoped Classical in
  if ¬ q.position.is_diag ∨ q.position.dim ≠ 2 then .throws
  else do
    let s ← streamValues slack eig q fx fy factor
    let r_nodes ← (List.range q.position.dim).mapM fun i => do
      let d ← pyget q.position.dirs i
      axisNodes eig var q i d
    let n0 ← pyget (q.nodes.map List.length) 0
    let n1 ← pyget (q.nodes.map List.length) 1
    let sx ← reshapeT s.1 n0 n1
    let sy ← reshapeT s.2 n0 n1
    let x ← pyget r_nodes 0
    let y ← pyget r_nodes 1
    let psi ← calc_psi2d x y sx sy
    let low ← npMin psi.flatten
    let high ← npMax psi.flatten
    .ok ⟨x, y, psi, streamLevels low high⟩

end Hermipy
