import Verif.Out
import Mathlib.Algebra.Polynomial.Derivative
import Mathlib.Algebra.Polynomial.AlgebraMap
import Mathlib.Data.Rat.Defs

/-! # Model of `Operator.split` (`hermipy/operator.py`)

The coefficients of an operator are elements of a commutative ring `K` containing the rational numbers, with decidable equality: functions
of the variables up to equality (sympy's `simplify`, operator.py:140-141, is taken to recognise zero). The expanded expression is the list
of its summands; all that `split` ever asks of a summand is its value when a monomial is substituted for the unknown function. An
expanded sum in sympy has no summand zero, and any sum of some of its summands is zero only if there are none. -/

namespace Hermipy
open Polynomial

variable {K : Type} [CommRing K] [Algebra ℚ K] [DecidableEq K]

/-- A summand: `m` is mapped to `arg.subs(unknown, test).doit()`, where `test` is the monomial `x^m / m!`. operator.py:135. -/
abbrev OpArg (K : Type) := List ℕ → K

/-- The `a`-th derivative of `x^m / m!` in one variable, at `x`: what `doit()` makes of a derivative of the test function.
operator.py:130, 135. -/
noncomputable def testDeriv (x : K) (m a : ℕ) : K := aeval x (derivative^[a] (C (1 / (m.factorial : ℚ)) * X ^ m))

/-- A summand of a linear operator: a coefficient times a derivative of the unknown function. The derivatives of a product of functions
of one variable each are taken factor by factor. -/
noncomputable def linearArg (vars : List K) (coeff : K) (index : List ℕ) : OpArg K := fun m =>
  coeff * (List.zipWith (fun x am => testDeriv x am.2 am.1) vars (List.zip index m)).prod

/-- `itertools.product(range(6), repeat=dim)`: the last component runs fastest. operator.py:123-124. -/
def product6 : ℕ → List (List ℕ)
  | 0 => [[]]
  | n + 1 => (List.range 6).flatMap fun i => (product6 n).map fun m => i :: m

/-- The orders of differentiation that are tried. operator.py:119, 123-124. -/
def mult (dim : ℕ) : List (List ℕ) := (product6 dim).filter fun m => m.sum ≤ 5

/-- One turn of the loop: the summands which do not vanish on the monomial are removed and their values added up. operator.py:125-143.
The state is the remainder and the dictionary, in the order of insertion; the keys of `mult` are distinct. -/
def opSplitStep (st : List (OpArg K) × List (List ℕ × K)) (m : List ℕ) : List (OpArg K) × List (List ℕ × K) :=
  if st.1.length = 0 then st
  else
    let rem := st.1.filter fun arg => arg m = 0
    let term := ((st.1.filter fun arg => ¬ arg m = 0).map fun arg => arg m).sum
    (rem, if term ≠ 0 then st.2 ++ [(m, term)] else st.2)

/-- `Operator.split`, for an expression with the given summands. operator.py:118-146. -/
def op_split (dim : ℕ) (args : List (OpArg K)) : Out (List (List ℕ × K)) :=
  let st := (mult dim).foldl opSplitStep (args, [])
  if st.1.length ≠ 0 then .throws else .ok st.2

end Hermipy
