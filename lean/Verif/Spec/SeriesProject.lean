import Verif.Spec.Quad
import Verif.Spec.Gauss
import Verif.Spec.Function
import Mathlib.MeasureTheory.Integral.IntervalIntegral.Basic

/-! # Projections of series: what is integrated -/

namespace Hermipy.Spec
open Hermipy
variable {F : Type}

/-- The series can be projected on the directions `ds`: its factor is the product `p`, in which no factor depends on `ds` and on other
directions. -/
structure Projectable (f : HSeries (SFn F)) (p : Product F) (ds : List ℕ) : Prop where
  ok : SeriesOk f
  diag : Diagonal f.position
  fac : SFnOk f.factor
  facDirs : f.factor.dirs = f.position.dirs
  terms : f.factor.terms = {p}
  ne : ds ≠ []
  sorted : ds.Pairwise (· < ·)
  mem : ∀ d ∈ ds, d ∈ f.position.dirs
  couples : ¬ Couples p.toList ds

/-- The coefficient of `g` along the constant basis function of a direction: for Hermite directions the Gaussian mean, for Fourier directions
the integral over a period divided by `√(2π)`. -/
noncomputable def mean0 (fourier : ℕ) (g : ℝ → ℝ) : ℝ :=
  if fourier = 1 then (∫ t in (-Real.pi)..Real.pi, g t) / √(2 * Real.pi) else gaussMean g

/-- The same in the directions with the numbers `ks`, one after the other; the other coordinates are those of `p`. -/
noncomputable def means (fourier : List ℕ) : List ℕ → (List ℝ → ℝ) → List ℝ → ℝ
  | [], g, p => g p
  | k :: ks, g, p => mean0 (fourier.getD k 0) fun t => means fourier ks g (p.set k t)

/-- The numbers of the directions of a position which are not in `ds`. -/
def others (p : Position) (ds : List ℕ) : List ℕ := (List.range p.dim).filter fun i => p.dirs.getD i 0 ∉ ds

/-- The flags of the Fourier directions of a position. -/
def flags (p : Position) : List ℕ := p.types.map fun t => if t = "fourier" then 1 else 0

end Hermipy.Spec
