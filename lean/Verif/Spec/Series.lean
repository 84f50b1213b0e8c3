import Verif.Model.Series
import Verif.Spec.Position
import Verif.Spec.Coef
import Verif.Spec.Basis

/-! # Coefficients and entries by multi-index -/

namespace Hermipy.Spec
open Hermipy
variable {Φ : Type}

/-- The coefficient of the series at the multi-index `m` is `c`. -/
def Coef (f : HSeries Φ) (m : List ℕ) (c : ℝ) : Prop :=
  ∃ (L : List (List ℕ)) (k : ℕ), f.index_set.s_list f.position.dim f.degree = .ok L ∧ L[k]? = some m ∧ f.coeffs[k]? = some c

/-- The entry of the form at the multi-indices `I`, `J` is `c`. -/
def Entry (A : HVarf Φ) (I J : List ℕ) (c : ℝ) : Prop :=
  ∃ (L : List (List ℕ)) (i j : ℕ) (r : List ℝ), A.index_set.s_list A.position.dim A.degree = .ok L ∧ L[i]? = some I ∧ L[j]? = some J ∧
    A.matrix[i]? = some r ∧ r[j]? = some c

/-- A series that the constructor has accepted, with at least one direction, in a usable size. -/
structure SeriesOk (f : HSeries Φ) : Prop where
  pos : PosOk f.position
  dirs : f.position.dirs ≠ []
  usable : Usable f.index_set f.position.dim f.degree
  made : mkSeries f.coeffs f.position f.factor f.index_set = .ok f

/-- A form that the constructor has accepted, with at least one direction, in a usable size, and with as many columns as rows (the
constructor does not look at the columns). -/
structure VarfOk (A : HVarf Φ) : Prop where
  pos : PosOk A.position
  dirs : A.position.dirs ≠ []
  usable : Usable A.index_set A.position.dim A.degree
  made : mkVarf A.is_sparse A.matrix A.position A.factor A.index_set = .ok A
  square : ∀ r ∈ A.matrix, r.length = A.matrix.length

/-- The multi-indices of a series. -/
def Indices (f : HSeries Φ) (m : List ℕ) : Prop := InSet f.index_set f.position.dim f.degree m

/-- The value at the point with coordinates `x` of the function that a series of Hermite functions with diagonal covariance stands for:
the factor times the sum of coefficients and products of Hermite polynomials at the standardised coordinates. (Quad.eval, quad.py:308-328.) -/
noncomputable def seriesValue [DecidableEq Φ] [SymFn Φ] (f : HSeries Φ) (x : ℕ → ℝ) : Out ℝ := do
  let L ← f.index_set.s_list f.position.dim f.degree
  .ok (SymFn.value f.factor x * series f.position.dim (f.position.types.map fun t => if t = "fourier" then 1 else 0) L f.coeffs
    ((List.range f.position.dim).map fun i => (x (f.position.dirs.getD i 0) - f.position.mean.getD i 0) / √(entryOf f.position.cov i i)))

end Hermipy.Spec
