import Verif.Model.Quad
import Verif.Model.QuadObject

/-! # Model of the constructors of `Quad`: `__init__`, `gauss_hermite`, `fourier` and `newton_cotes` (`hermipy/quad.py`)

Numbers of points are Python integers, and bounds and extrema Python numbers (whose division by zero raises). `hermegauss` of numpy is a
parameter: the nodes and weights for each number of points; it raises for 0. -/

namespace Hermipy
variable {F : Type}

/-- The argument `n_points`: one integer or a list. -/
inductive Points where
  | one (n : ℕ)
  | each (l : List ℕ)

/-- The argument `factor`: an expression (or what sympy makes one of), or a `Function`. -/
inductive FactorArg (F : Type) where
  | expr (terms : Multiset (Product F))
  | fn (f : SFn F)

/-- `Function(factor, dirs=dirs)`. function.py:46-74. There are five symbols (function.py:26-30): `x_sub[d]` raises for other directions. -/
noncomputable def factorOf (factor : FactorArg F) (dirs : List ℕ) : Out (SFn F) :=
  open scoped Classical in
  match factor with
  | .fn f => .ok f
  | .expr terms =>
    if ¬ isSorted dirs then .throws
    else if ∃ d ∈ dirs, 5 ≤ d then .throws
    else if ∃ p ∈ terms, ∃ x ∈ p.vars, x ∉ dirs then .throws
    else .ok ⟨dirs, terms⟩

/-- The position in the constructor. quad.py:73-75. -/
noncomputable def initPosition (dim : ℕ) (position : Option Position) (mean : Option (List ℝ)) (cov : Option (List (List ℝ)))
    (dirs : Option (List ℕ)) (types : Option (List String)) : Out Position :=
  match position with
  | some p => .ok p
  | none => mkPosition (some dim) mean cov dirs types

/-- `Quad(nodes, weights, position, factor, mean, cov, dirs, types)`. quad.py:52-80. -/
noncomputable def quad_init (nodes weights : List (List ℝ)) (position : Option Position) (factor : FactorArg F) (mean : Option (List ℝ))
    (cov : Option (List (List ℝ))) (dirs : Option (List ℕ)) (types : Option (List String)) : Out (HQuad F) :=
  if ¬ uniform nodes ∨ ¬ uniform weights then .throws
  else do
    let position ← initPosition nodes.length position mean cov dirs types
    let factor ← factorOf factor position.dirs
    .ok ⟨nodes, weights, position, factor⟩

/-- `np.full(dim, n_points)`: a list must have `dim` elements, or one. -/
def npFull (dim : ℕ) : Points → Out (List ℕ)
  | .one n => .ok (List.replicate dim n)
  | .each l => if l.length = dim then .ok l else if l.length = 1 then .ok (List.replicate dim (l.getD 0 0)) else .throws

/-- `lib.hermegauss_nd`. lib.py:24-33. -/
noncomputable def hermegauss_nd (hermegauss : ℕ → List ℝ × List ℝ) (n_points : List ℕ) : Out (List (List ℝ) × List (List ℝ)) := do
  let r ← n_points.mapM fun n => if n = 0 then .throws else .ok ((hermegauss n).1, (hermegauss n).2.map fun w => w / √(2 * Real.pi))
  .ok (r.map Prod.fst, r.map Prod.snd)

/-- The numbers of points in `Quad.gauss_hermite`. quad.py:85-92. -/
def gaussPoints (n_points : Points) (dim : Option ℕ) (dirs : Option (List ℕ)) : Out (List ℕ) :=
  let dim := match dirs with
    | some ds => some ds.length
    | none => dim
  match dim with
  | some d => npFull d n_points
  | none => match n_points with
    | .one n => .ok [n]
    | .each l => .ok l

/-- `Quad.gauss_hermite`. quad.py:82-95. -/
noncomputable def quad_gauss_hermite (hermegauss : ℕ → List ℝ × List ℝ) (n_points : Points) (dim : Option ℕ) (dirs : Option (List ℕ))
    (position : Option Position) (factor : FactorArg F) (mean : Option (List ℝ)) (cov : Option (List (List ℝ)))
    (types : Option (List String)) : Out (HQuad F) := do
  let n_points ← gaussPoints n_points dim dirs
  let nw ← hermegauss_nd hermegauss n_points
  quad_init nw.1 nw.2 position factor mean cov dirs types

/-- The dimension in `Quad.fourier`. quad.py:102-110. (That of `position` is overwritten.) -/
def fourierDim (n_points : Points) (bounds : Option (List (ℝ × ℝ))) (dirs : Option (List ℕ)) : ℕ :=
  match dirs with
  | some ds => ds.length
  | none => match bounds with
    | some b => b.length
    | none => match n_points with
      | .each l => l.length
      | .one _ => 1

/-- `[n_points]*dim` for an integer. quad.py:136-137. -/
def fourierPoints (dim : ℕ) : Points → List ℕ
  | .one n => List.replicate dim n
  | .each l => l

/-- The position in `Quad.fourier`, if it is not given. quad.py:115-134. -/
noncomputable def defaultPosition (dim : ℕ) (bounds : Option (List (ℝ × ℝ))) (dirs : Option (List ℕ)) : Out Position :=
  let bounds := bounds.getD (List.replicate dim (-Real.pi, Real.pi))
  let dirs := dirs.getD (List.range dim)
  if ¬ dim = bounds.length ∨ ¬ dim = dirs.length then .throws
  else mkPosition (some dim) (some (bounds.map fun b => b.1 / 2 + b.2 / 2))
    (some (diagMat (bounds.map fun b => ((b.2 - b.1) / (2 * Real.pi)) ^ 2))) (some dirs) (some (List.replicate dim "fourier"))

/-- The position in `Quad.fourier`. quad.py:112-134. -/
noncomputable def fourierPosition (dim : ℕ) (bounds : Option (List (ℝ × ℝ))) (position : Option Position) (dirs : Option (List ℕ)) :
    Out Position :=
  match position with
  | some p => .ok p
  | none => defaultPosition dim bounds dirs

/-- `Quad.fourier`. quad.py:97-143. -/
noncomputable def quad_fourier (n_points : Points) (bounds : Option (List (ℝ × ℝ))) (position : Option Position) (factor : FactorArg F)
    (dirs : Option (List ℕ)) : Out (HQuad F) := do
  let dim := fourierDim n_points bounds dirs
  let position ← fourierPosition dim bounds position dirs
  let n_points := fourierPoints dim n_points
  if dim ≠ n_points.length ∨ 0 ∈ n_points then .throws
  else quad_init (n_points.map fourierNodes) (n_points.map fourierWeights) (some position) factor none none none none

/-- `np.linspace(-extremum, extremum, n)`. quad.py:149. -/
noncomputable def linspace (e : ℝ) (n : ℕ) : List ℝ := (List.range n).map fun (i : ℕ) => -e + (i : ℝ) * (2 * e / ((n : ℝ) - 1))

/-- The weights of one direction of `newton_cotes`. quad.py:150-154. -/
noncomputable def trapezoidWeights (e : ℝ) (n : ℕ) : List ℝ :=
  (List.range n).map fun (i : ℕ) => (if i = 0 ∨ i = n - 1 then 1 / 2 else 1) *
    (1 / √(2 * Real.pi) * Real.exp (-((linspace e n).getD i 0) ^ 2 / 2)) * (2 * e / ((n : ℝ) - 1))

/-- `Quad.newton_cotes`. quad.py:145-155. One point is a division by zero, no point an index error. -/
noncomputable def quad_newton_cotes (n_points : List ℕ) (extrema : List ℝ) (position : Option Position) (factor : FactorArg F)
    (mean : Option (List ℝ)) (cov : Option (List (List ℝ))) (dirs : Option (List ℕ)) (types : Option (List String)) : Out (HQuad F) := do
  let nw ← extrema.zipIdx.mapM fun e => do
    let n ← pyget n_points e.2
    if n ≤ 1 then .throws else .ok (linspace e.1 n, trapezoidWeights e.1 n)
  quad_init (nw.map Prod.fst) (nw.map Prod.snd) position factor mean cov dirs types

end Hermipy
