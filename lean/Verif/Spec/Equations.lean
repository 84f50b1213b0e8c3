import Verif.Spec.Smooth
import Mathlib.MeasureTheory.Integral.Bochner.Basic
import Mathlib.MeasureTheory.Constructions.Pi
import Mathlib.MeasureTheory.Measure.Haar.OfBasis
import Mathlib.Analysis.Calculus.LineDeriv.IntegrationByParts

/-! # Kernels, adjoints and invariant measures of differential operators -/

namespace Hermipy.Spec
open Hermipy MeasureTheory

/-- The integral of a smooth function over the whole space. -/
noncomputable def integral {n : ℕ} (f : Smooth n) : ℝ := ∫ x, (f : (Fin n → ℝ) → ℝ) x

/-- The function vanishes outside of a bounded set. -/
structure Compact {n : ℕ} (f : Smooth n) : Prop where
  support : HasCompactSupport (f : (Fin n → ℝ) → ℝ)

variable {dirs : List ℕ}

/-- The operator does not change the integral: `∫ L u = 0`. -/
def ConservesMass (dirs : List ℕ) (T : List (OpTerm (Smooth dirs.length))) : Prop :=
  ∀ u, Compact u → integral (acts (Smooth.D dirs) dirs T u) = 0

/-- The two operators are adjoint to each other: `∫ v L u = ∫ u M v`. -/
def Adjoint (dirs : List ℕ) (T S : List (OpTerm (Smooth dirs.length))) : Prop :=
  ∀ u v, Compact u ∨ Compact v → integral (v * acts (Smooth.D dirs) dirs T u) = integral (u * acts (Smooth.D dirs) dirs S v)

/-- The measure with density `ρ` is invariant under the process with generator `L`: `∫ ρ L u = 0`. -/
def Invariant (dirs : List ℕ) (ρ : Smooth dirs.length) (T : List (OpTerm (Smooth dirs.length))) : Prop :=
  ∀ u, Compact u → integral (ρ * acts (Smooth.D dirs) dirs T u) = 0

/-- `x² / 2` for the coordinate `d`. -/
noncomputable def kinetic (dirs : List ℕ) (d : ℕ) : Smooth dirs.length := Smooth.const (1 / 2) * (Smooth.X dirs d * Smooth.X dirs d)

/-- The density `e^(-β H)`. -/
noncomputable def gibbs (β : ℝ) (H : Smooth dirs.length) : Smooth dirs.length := Smooth.exp (-(Smooth.const β * H))

/-- The forward operator (Fokker-Planck) of the diffusion process with drift `b` and diffusion `a` (half the square of the noise):
`-Σ ∂ᵢ (bᵢ u) + Σ ∂ᵢ ∂ⱼ (aᵢⱼ u)`. -/
def forward {K : Type} [CommRing K] (D : ℕ → K → K) (dirs : List ℕ) (b : ℕ → K) (a : ℕ → ℕ → K) (u : K) : K :=
  -(dirs.map fun i => D i (b i * u)).sum + (dirs.map fun i => (dirs.map fun j => D i (D j (a i j * u))).sum).sum

/-- Its backward operator (the generator): `Σ bᵢ ∂ᵢ v + Σ aᵢⱼ ∂ᵢ ∂ⱼ v`. -/
def backward {K : Type} [CommRing K] (D : ℕ → K → K) (dirs : List ℕ) (b : ℕ → K) (a : ℕ → ℕ → K) (v : K) : K :=
  (dirs.map fun i => b i * D i v).sum + (dirs.map fun i => (dirs.map fun j => a i j * D i (D j v)).sum).sum

end Hermipy.Spec
