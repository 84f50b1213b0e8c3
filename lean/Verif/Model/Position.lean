import Verif.Out
import Mathlib.Data.List.Sort
import Mathlib.Analysis.CStarAlgebra.Matrix
import Mathlib.Analysis.SpecialFunctions.Sqrt
import Mathlib.Analysis.SpecialFunctions.Exp
import Mathlib.Analysis.Real.Pi.Bounds
import Mathlib.LinearAlgebra.Matrix.NonsingularInverse

/-! # Model of `hermipy/position.py`

Doubles are real numbers. The attribute `factor` (an eigenvalue decomposition) is not modelled. `types` are strings as in the code. -/

namespace Hermipy

/-- `v[i]` in Python: `IndexError` if out of range. (Negative indices do not occur.) -/
def pyget {α : Type} (v : List α) (i : ℕ) : Out α :=
  match v[i]? with
  | some a => .ok a
  | none => .throws

/-- `l.index(d)`: the first position, `ValueError` if missing. -/
def pyindex (l : List ℕ) (d : ℕ) : Out ℕ := if d ∈ l then .ok (l.idxOf d) else .throws

/-- The attributes of a `Position`. -/
structure Position where
  dim : ℕ
  dirs : List ℕ
  mean : List ℝ
  cov : List (List ℝ)
  types : List String

/-- The entry in row `i`, column `j`. -/
def entryOf (cov : List (List ℝ)) (i j : ℕ) : ℝ := (cov.getD i []).getD j 0

/-- `la.norm(cov - np.diag(np.diag(cov)), 2)`: the spectral norm. position.py:106-109. -/
noncomputable def offDiagNorm (n : ℕ) (cov : List (List ℝ)) : ℝ :=
  ‖Matrix.toEuclideanCLM (n := Fin n) (𝕜 := ℝ) (Matrix.of fun i j => if i = j then 0 else entryOf cov i j)‖

/-- `is_diag`. position.py:108-110. -/
noncomputable def Position.is_diag (p : Position) : Prop := ¬ (0 < p.dirs.length ∧ offDiagNorm p.dim p.cov > 1 / 10 ^ 10)

/-- `np.diag(v)` for a vector, and `np.eye`. -/
def diagMat (v : List ℝ) : List (List ℝ) := (List.range v.length).map fun i => (List.range v.length).map fun j => if i = j then v.getD i 0 else 0

/-- `Position(dim, mean, cov, dirs, types)`. position.py:71-110. A covariance that is not square raises in `np.asarray` or `la.eig`. -/
noncomputable def mkPosition (dim : Option ℕ) (mean : Option (List ℝ)) (cov : Option (List (List ℝ))) (dirs : Option (List ℕ))
    (types : Option (List String)) : Out Position := do
  let selfdim ← match mean, cov, dirs, dim with
    | some m, _, _, _ => .ok m.length
    | none, some c, _, _ => .ok c.length
    | none, none, some ds, _ => .ok ds.length
    | none, none, none, some n => .ok n
    | none, none, none, none => .throws
  if (mean.any fun m => m.length ≠ selfdim) || (cov.any fun c => c.length ≠ selfdim) || (dirs.any fun ds => ds.length ≠ selfdim) ||
      (dim.any fun n => n ≠ selfdim) || (types.any fun t => t.length ≠ selfdim) then .throws
  else do
    let selfdirs ← match dirs, dim with
      | some ds, _ => .ok ds
      | none, some n => .ok (List.range n)
      | none, none => .throws
    let selfmean := mean.getD (List.replicate selfdim 0)
    let selfcov := cov.getD (diagMat (List.replicate selfdim 1))
    let selftypes := types.getD (List.replicate selfdim "hermite")
    if ∀ r ∈ selfcov, r.length = selfdim then .ok ⟨selfdim, selfdirs, selfmean, selfcov, selftypes⟩ else .throws

/-- The first loop of `tensorize`: the positions must be diagonal, and no direction may appear a third time. position.py:33-40. -/
noncomputable def checkDirs : List Position → List ℕ → Out Unit
  | [], _ => .ok ()
  | a :: as, dirs =>
    open scoped Classical in
    if ¬ a.is_diag then .throws
    else do
      let dirs ← a.dirs.foldlM (fun dirs d => if ¬ dirs.count d ≤ 1 then .throws else .ok (dirs ++ [d])) dirs
      checkDirs as dirs

/-- Removed directions must match. position.py:49-53. -/
noncomputable def checkRemoved (p1 p2 : Position) : List ℕ → Out Unit
  | [] => .ok ()
  | d :: ds => do
    let i1 ← pyindex p1.dirs d
    let i2 ← pyindex p2.dirs d
    let m1 ← pyget p1.mean i1
    let m2 ← pyget p2.mean i2
    let r1 ← pyget p1.cov i1
    let c1 ← pyget r1 i1
    let r2 ← pyget p2.cov i2
    let c2 ← pyget r2 i2
    if ¬ m1 = m2 ∨ ¬ c1 = c2 then .throws else checkRemoved p1 p2 ds

/-- The mean, variance and type a position has in a direction. position.py:57-61 and 153-158. -/
noncomputable def readDir (p : Position) (d : ℕ) : Out (ℝ × ℝ × String) := do
  let index ← pyindex p.dirs d
  let m ← pyget p.mean index
  let r ← pyget p.cov index
  let c ← pyget r index
  let t ← pyget p.types index
  .ok (m, c, t)

/-- `_tensorize`. position.py:42-63. -/
noncomputable def tensorize2 (p1 p2 : Position) : Out Position := do
  let diff1 := p1.dirs.filter fun d => d ∉ p2.dirs
  let diff2 := p2.dirs.filter fun d => d ∉ p1.dirs
  let dirs_result := (diff1 ++ diff2).insertionSort (· ≤ ·)
  checkRemoved p1 p2 (p1.dirs.filter fun d => d ∈ p2.dirs)
  let rs ← dirs_result.mapM fun d => readDir (if d ∈ p1.dirs then p1 else p2) d
  mkPosition none (some (rs.map fun r => r.1)) (some (diagMat (rs.map fun r => r.2.1))) (some dirs_result)
    (some (rs.map fun r => r.2.2))

/-- `Position.tensorize`. position.py:30-69. -/
noncomputable def pos_tensorize (args : List Position) : Out Position := do
  checkDirs args []
  match args with
  | [] => .throws
  | a :: as => as.foldlM tensorize2 a

/-- `project`. position.py:147-159. A single integer stands for the list with this element. The arrays of zeros are filled in entirely,
on the diagonal. -/
noncomputable def pos_project (p : Position) (directions : List ℕ) : Out Position :=
  open scoped Classical in
  if ¬ p.is_diag ∨ ¬ directions.Pairwise (· ≤ ·) then .throws
  else do
    let rs ← directions.mapM fun d => readDir p d
    mkPosition (some directions.length) (some (rs.map fun r => r.1)) (some (diagMat (rs.map fun r => r.2.1))) (some directions)
      (some (rs.map fun r => r.2.2))

/-- The value of `weight()` at the point with coordinate `x d` in direction `d`. position.py:131-140. There are five symbols
(function.py:26). `la.inv` raises for singular matrices. -/
noncomputable def pos_weight (p : Position) (x : ℕ → ℝ) : Out ℝ := do
  let ind := (List.range p.types.length).filter fun i => p.types.getD i "" = "hermite"
  if ind.length = 0 then .ok 1
  else do
    let sub_mean ← ind.mapM fun i => pyget p.mean i
    let var ← ind.mapM fun i => do
      let d ← pyget p.dirs i
      if d < 5 then .ok (x d) else .throws
    let rows ← ind.mapM fun i => do
      let r ← pyget p.cov i
      ind.mapM fun j => pyget r j
    let sub_cov : Matrix (Fin ind.length) (Fin ind.length) ℝ := Matrix.of fun i j => entryOf rows i j
    let y : Fin ind.length → ℝ := fun i => var.getD i 0 - sub_mean.getD i 0
    if sub_cov.det = 0 then .throws
    else
      let potential := 1 / 2 * (sub_cov⁻¹.mulVec y ⬝ᵥ y)
      let normalization := 1 / √((2 * Real.pi) ^ p.dim * sub_cov.det)
      .ok (normalization * Real.exp (-potential))

/-- The values of `weights()`. position.py:142-145. -/
noncomputable def pos_weights (p : Position) (x : ℕ → ℝ) : Out (List ℝ) :=
  open scoped Classical in
  if ¬ p.is_diag then .throws
  else p.dirs.mapM fun d => do
    let q ← pos_project p [d]
    pos_weight q x

/-- `__eq__`. position.py:112-116. For equal directions the arrays have the same shapes. -/
noncomputable def pos_eq (p q : Position) : Prop :=
  p.dirs = q.dirs ∧ √(((List.zipWith (· - ·) p.mean q.mean).map (· ^ 2)).sum) < 1 / 10 ^ 10 ∧
    ‖Matrix.toEuclideanCLM (n := Fin p.dim) (𝕜 := ℝ) (Matrix.of fun i j => entryOf p.cov i j - entryOf q.cov i j)‖ < 1 / 10 ^ 10 ∧
    p.types = q.types

end Hermipy
