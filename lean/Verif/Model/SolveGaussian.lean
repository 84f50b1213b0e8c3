import Verif.Model.OperatorAlgebra
import Verif.Out
import Verif.Spec.Smooth
import Mathlib.Analysis.SpecialFunctions.Sqrt
import Mathlib.Analysis.SpecialFunctions.Trigonometric.Basic

/-! # Model of `solve_gaussian` (`hermipy/equations.py`)

The equation is the list of its terms, as in `Verif.Model.Equations`, with smooth functions of one, two or three variables as coefficients; the
parameters in it have values. sympy's `solve` is a parameter: it is given the residual as a function of the unknown coefficients of the ansatz,
of which the code takes the coefficients as a polynomial in the variables; if the residual is not a polynomial, the code raises, which is
modelled by an empty list of solutions. -/

namespace Hermipy
open Spec (OpTerm)
open Smooth

/-- What `solve_gaussian` returns, as real and imaginary part, and whether it prints that the solution is not correct. -/
structure GaussOut (n : ℕ) where
  re : Smooth n
  im : Smooth n
  warned : Bool

/-- `sympy.solve` for the unknowns of the three cases. equations.py:43-44, 61, 74. In one dimension, `none` stands for a result which is not
a dictionary with the unknown as key. -/
structure Solvers where
  three : (ℝ × ℝ × ℝ × ℝ × ℝ × ℝ → Smooth 3) → List (ℝ × ℝ × ℝ × ℝ × ℝ × ℝ)
  two : (ℝ × ℝ × ℝ → Smooth 2) → List (ℝ × ℝ × ℝ)
  one : (ℝ → Smooth 1) → Option ℝ

/-- `sympy.sqrt` of a real number, as real and imaginary part. equations.py:51, 64. -/
noncomputable def symSqrt (d : ℝ) : ℝ × ℝ := if 0 ≤ d then (√d, 0) else (0, √(-d))

/-- `operator.subs(f, u).doit()`. equations.py:40, 58, 71, 77. -/
noncomputable def insertIn (dirs : List ℕ) (T : List (OpTerm (Smooth dirs.length))) (u : Smooth dirs.length) : Smooth dirs.length :=
  substExpr (D dirs) ⟨dirs, T⟩ u

/-- `(operator.subs(f, ansatz)/ansatz).doit().cancel()`. equations.py:40, 58, 71. -/
noncomputable def residual (dirs : List ℕ) (T : List (OpTerm (Smooth dirs.length))) (u : Smooth dirs.length) : Smooth dirs.length :=
  insertIn dirs T u * inv u

/-- `factor * solution`, and the test. equations.py:52, 65, 77-79. -/
noncomputable def finish (dirs : List ℕ) (T : List (OpTerm (Smooth dirs.length))) (factor : ℝ × ℝ) (u : Smooth dirs.length) :
    GaussOut dirs.length :=
  let re := const factor.1 * u
  let im := const factor.2 * u
  ⟨re, im, !(decide (insertIn dirs T re = 0) && decide (insertIn dirs T im = 0))⟩

/-- The ansatz in three dimensions. equations.py:37-39. -/
noncomputable def ansatz_3 (c : ℝ × ℝ × ℝ × ℝ × ℝ × ℝ) : Smooth 3 :=
  let x := X [0, 1, 2] 0
  let y := X [0, 1, 2] 1
  let z := X [0, 1, 2] 2
  let (cx, cy, cz, cxy, cyz, cxz) := c
  exp (-const (1 / 2) * (const cx * x * x + const cz * z * z + const cy * y * y + const 2 * const cxy * x * y + const 2 * const cyz * y * z +
    const 2 * const cxz * x * z))

/-- The determinant. equations.py:48-50. -/
def det_3 (c : ℝ × ℝ × ℝ × ℝ × ℝ × ℝ) : ℝ :=
  let (cx, cy, cz, cxy, cyz, cxz) := c
  cx * (cy * cz - cyz ^ 2) + cxy * (cxz * cyz - cxy * cz) + cxz * (cxy * cyz - cy * cxz)

/-- Three variables. equations.py:32-52. -/
noncomputable def gaussian_3 (S : Solvers) (T : List (OpTerm (Smooth 3))) : Out (GaussOut 3) :=
  match S.three fun c => residual [0, 1, 2] T (ansatz_3 c) with
  | [] => .throws
  | c :: _ => .ok (finish [0, 1, 2] T (symSqrt (det_3 c / (2 * Real.pi) ^ 3)) (ansatz_3 c))

/-- The ansatz in two dimensions. equations.py:57. -/
noncomputable def ansatz_2 (c : ℝ × ℝ × ℝ) : Smooth 2 :=
  let x := X [0, 1] 0
  let y := X [0, 1] 1
  let (cx, cxy, cy) := c
  exp (-const (1 / 2) * (const cx * x * x + const 2 * const cxy * x * y + const cy * y * y))

/-- The determinant. equations.py:63. -/
def det_2 (c : ℝ × ℝ × ℝ) : ℝ :=
  let (cx, cxy, cy) := c
  cx * cy - cxy * cxy

/-- Two variables. equations.py:54-65. -/
noncomputable def gaussian_2 (S : Solvers) (T : List (OpTerm (Smooth 2))) : Out (GaussOut 2) :=
  match S.two fun c => residual [0, 1] T (ansatz_2 c) with
  | [] => .throws
  | c :: _ =>
    let root := symSqrt (det_2 c)
    .ok (finish [0, 1] T (root.1 / (2 * Real.pi), root.2 / (2 * Real.pi)) (ansatz_2 c))

/-- The ansatz in one dimension. equations.py:70. -/
noncomputable def ansatz_1 (s2 : ℝ) : Smooth 1 :=
  let x := X [0] 0
  const (1 / √(2 * Real.pi * s2)) * exp (-const (1 / 2) * (x * x * const (1 / s2)))

/-- One variable; there is no factor. equations.py:67-75. -/
noncomputable def gaussian_1 (S : Solvers) (T : List (OpTerm (Smooth 1))) : Out (GaussOut 1) :=
  match S.one fun s2 => residual [0] T (ansatz_1 s2) with
  | none => .throws
  | some s2 => .ok (finish [0] T (1, 0) (ansatz_1 s2))

/-- `solve_gaussian`. With another number of variables, `solution` is not defined in line 77. equations.py:30-79. -/
noncomputable def solve_gaussian (S : Solvers) : (n : ℕ) → List (OpTerm (Smooth n)) → Out (GaussOut n)
  | 3, T => gaussian_3 S T
  | 2, T => gaussian_2 S T
  | 1, T => gaussian_1 S T
  | _, _ => .throws

end Hermipy
