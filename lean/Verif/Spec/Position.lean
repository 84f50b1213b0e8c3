import Verif.Model.Position

/-! # What a position says about a direction -/

namespace Hermipy.Spec
open Hermipy

/-- The attributes of the position fit together, and no direction is repeated. -/
structure PosOk (p : Position) : Prop where
  dirs : p.dirs.length = p.dim
  mean : p.mean.length = p.dim
  cov : p.cov.length = p.dim
  rows : ∀ r ∈ p.cov, r.length = p.dim
  types : p.types.length = p.dim
  nodup : p.dirs.Nodup

/-- The position has mean `x.1`, variance `x.2.1` and type `x.2.2` in direction `d`. -/
def Has (p : Position) (d : ℕ) (x : ℝ × ℝ × String) : Prop :=
  ∃ (i : ℕ) (r : List ℝ), p.dirs[i]? = some d ∧ p.mean[i]? = some x.1 ∧ p.cov[i]? = some r ∧ r[i]? = some x.2.1 ∧ p.types[i]? = some x.2.2

/-- The covariance matrix has no nonzero entry outside the diagonal. -/
def Diagonal (p : Position) : Prop := ∀ (i j : ℕ) (r : List ℝ) (c : ℝ), i ≠ j → p.cov[i]? = some r → r[j]? = some c → c = 0

/-- The positions of the list which have the direction, in order. -/
def holders (args : List Position) (d : ℕ) : List Position := args.filter fun a => d ∈ a.dirs

/-- The two positions have the same mean and variance in the direction. -/
def Agree (p q : Position) (d : ℕ) : Prop := ∀ x y, Has p d x → Has q d y → x.1 = y.1 ∧ x.2.1 = y.2.1

/-- The positions which share a direction agree on it. -/
def Agrees (args : List Position) : Prop := ∀ d p q, holders args d = [p, q] → Agree p q d

/-- The density of the normal distribution with mean `m` and variance `v`. -/
noncomputable def normalDensity (m v t : ℝ) : ℝ := 1 / √(2 * Real.pi * v) * Real.exp (-((t - m) ^ 2 / (2 * v)))

/-- The one-dimensional weight in the `i`-th direction: the normal density for Hermite directions, one for Fourier directions. -/
noncomputable def weight1D (p : Position) (x : ℕ → ℝ) (i : ℕ) : ℝ :=
  if p.types.getD i "" = "hermite" then normalDensity (p.mean.getD i 0) (entryOf p.cov i i) (x (p.dirs.getD i 0)) else 1

/-- The number of directions which are not Hermite directions. -/
def otherDirs (p : Position) : ℕ := (p.types.filter fun t => t ≠ "hermite").length

/-- The number of Hermite directions. -/
def hermiteDirs (p : Position) : ℕ := (p.types.filter fun t => t = "hermite").length

/-- The variances of the Hermite directions are positive. -/
def PosVar (p : Position) : Prop := ∀ i, i < p.dim → p.types.getD i "" = "hermite" → 0 < entryOf p.cov i i

end Hermipy.Spec
