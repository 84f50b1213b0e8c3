import Verif.Spec.Spectrum

/-! # Generators of which the negligible terms are left out -/

namespace Hermipy.Spec
open Hermipy

/-- A term with the factor `c` is large enough to be kept: its coefficient with respect to the basis is at least `10⁻¹²`. The first basis function is
`√(2π)` to the power of minus the number of the periodic directions. -/
def Counts (fourier : List ℕ) (c : ℝ) : Prop := 1 / 10 ^ 12 ≤ |c| * √(2 * Real.pi) ^ fourier.count 1

open Classical in
/-- The terms of the generator which are large enough. -/
noncomputable def keptGenerator (dirs : List ℕ) (p : Position) (fourier : List ℕ) (a : ℕ → ℝ) : List (OpTerm (Smooth dirs.length)) :=
  (List.range dirs.length).flatMap fun i =>
    (if Counts fourier (a i * entryOf p.cov i i) then [⟨Smooth.const (a i * entryOf p.cov i i), orderAt dirs.length i 2⟩] else []) ++
    if fourier.getD i 0 ≠ 1 ∧ Counts fourier (a i * √(entryOf p.cov i i)) then
      [⟨-(Smooth.const (a i) * (Smooth.X dirs (dirs.getD i 0) - Smooth.const (p.mean.getD i 0))), orderAt dirs.length i 1⟩] else []

end Hermipy.Spec
