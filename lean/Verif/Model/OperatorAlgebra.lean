import Verif.Model.Operator
import Verif.Spec.Operator
import Mathlib.Data.Finset.Basic
import Mathlib.Data.List.Dedup

/-! # Model of the arithmetic of `Operator` (`hermipy/operator.py`)

As in `Verif.Model.Operator`, coefficients are elements of a commutative ring `K` with decidable equality. sympy's derivative with respect to
`x_d` is `D d`, the variables that occur in an expression are `free`, and `1/g` is `inv g`; what they have to satisfy is stated with the
properties. An expression which is linear in the unknown function is the list of its coefficients, by orders of differentiation, with
those that are zero left out: `expand` collects what it can, and the coefficients of one derivative are taken together here. Expressions
which are not linear in the unknown function, which the code does not reject, are not modelled. -/

namespace Hermipy
open Spec (OpTerm)

variable {K : Type} [CommRing K] [DecidableEq K]

/-- An `Operator`. operator.py:26-53. -/
structure HOp (K : Type) where
  dirs : List ℕ
  terms : List (OpTerm K)

/-- A `Function`. function.py:23-74. -/
structure HFn (K : Type) where
  sym : K
  dirs : List ℕ

/-- The argument of an operation: an `Operator`, a `Function`, or an expression (a string, a number or a sympy expression) without unknown
function. -/
inductive HArg (K : Type)
  | op (A : HOp K)
  | fn (g : HFn K)
  | expr (c : K)

/-- The result of a call. operator.py:100-101. -/
inductive HRes (K : Type)
  | op (A : HOp K)
  | fn (g : HFn K)

/-- The coefficients of the terms with the orders `m`, added up. -/
def sumAt (T : List (OpTerm K)) (m : List ℕ) : K := ((T.filter fun t => t.index = m).map fun t => t.coeff).sum

/-- `expand()`: like terms are collected, and those that vanish are dropped. function.py:61. -/
def collect (T : List (OpTerm K)) : List (OpTerm K) :=
  (T.map OpTerm.index).dedup.filterMap fun m => if sumAt T m = 0 then none else some ⟨sumAt T m, m⟩

/-- `Operator(sym, dirs=dirs)`, for an expression in the derivatives of `f(x_d for d in fdirs)`: `dirs` is used only if the expression is
zero. operator.py:37-53. -/
def mkOp (T : List (OpTerm K)) (fdirs dirs : List ℕ) : HOp K :=
  if (collect T).isEmpty then ⟨dirs, []⟩ else ⟨fdirs, collect T⟩

/-- `Function(sym, dirs=dirs)`. function.py:61-66, 74. -/
def mkFn (free : K → Finset ℕ) (c : K) (dirs : List ℕ) : Out (HFn K) :=
  if ¬ dirs.Pairwise (· ≤ ·) then .throws
  else if ¬ free c ⊆ dirs.toFinset then .throws
  else .ok ⟨c, dirs⟩

/-- `Operator(expr, dirs=dirs)` for an expression without unknown function: it has to be zero. operator.py:37-47. -/
def opOfExpr (c : K) (dirs : List ℕ) : Out (HOp K) := if c = 0 then .ok ⟨dirs, []⟩ else .throws

/-- `other` as an `Operator`. operator.py:71-72, 78-79. -/
def toOp (dirs : List ℕ) : HArg K → Out (HOp K)
  | .op B => .ok B
  | .fn g => opOfExpr g.sym dirs
  | .expr c => opOfExpr c dirs

/-- `other` as a `Function`; sympy cannot convert an `Operator`. operator.py:64-65, 108-109. -/
def toFn (free : K → Finset ℕ) (dirs : List ℕ) : HArg K → Out (HFn K)
  | .op _ => .throws
  | .fn g => .ok g
  | .expr c => mkFn free c dirs

/-- The terms, each multiplied by `c`. -/
def scaleTerms (c : K) (T : List (OpTerm K)) : List (OpTerm K) := T.map fun t => ⟨c * t.coeff, t.index⟩

def addOps (A B : HOp K) : Out (HOp K) :=
  if ¬ A.dirs = B.dirs then .throws else .ok (mkOp (A.terms ++ B.terms) A.dirs A.dirs)

/-- `Operator.__add__` and `Operator.__radd__`. operator.py:70-75, 88. -/
def op_add (A : HOp K) (b : HArg K) : Out (HOp K) := toOp A.dirs b >>= addOps A

def subOps (A B : HOp K) : Out (HOp K) :=
  if ¬ A.dirs = B.dirs then .throws else .ok (mkOp (A.terms ++ scaleTerms (-1) B.terms) A.dirs A.dirs)

/-- `Operator.__sub__`. operator.py:77-82. -/
def op_sub (A : HOp K) (b : HArg K) : Out (HOp K) := toOp A.dirs b >>= subOps A

/-- `Operator.__neg__`. operator.py:84-85. -/
def op_neg (A : HOp K) : HOp K := mkOp (scaleTerms (-1) A.terms) A.dirs A.dirs

def mulFn (A : HOp K) (g : HFn K) : Out (HOp K) :=
  if ¬ A.dirs = g.dirs then .throws else .ok (mkOp (scaleTerms g.sym A.terms) A.dirs A.dirs)

/-- `Operator.__mul__` and `Operator.__rmul__`. operator.py:63-68, 89. -/
def op_mul (free : K → Finset ℕ) (A : HOp K) (b : HArg K) : Out (HOp K) := toFn free A.dirs b >>= mulFn A

/-- `doit()`: the derivative in the direction `d` of a term `c ∂^a f`, where `f` is a function of the variables `fdirs`. -/
def diffTerm (D : ℕ → K → K) (fdirs : List ℕ) (d : ℕ) (t : OpTerm K) : List (OpTerm K) :=
  ⟨D d t.coeff, t.index⟩ :: if d ∈ fdirs then [⟨t.coeff, t.index.modify (fdirs.idxOf d) (· + 1)⟩] else []

/-- The derivative of an expression in the direction `d`. -/
def diffTerms (D : ℕ → K → K) (fdirs : List ℕ) (d : ℕ) (T : List (OpTerm K)) : List (OpTerm K) := T.flatMap (diffTerm D fdirs d)

/-- The derivative of an expression with the given orders in the given directions. -/
def diffsTerms (D : ℕ → K → K) (fdirs : List ℕ) : List ℕ → List ℕ → List (OpTerm K) → List (OpTerm K)
  | d :: dirs, a :: index, T => (diffTerms D fdirs d)^[a] (diffsTerms D fdirs dirs index T)
  | _, _, T => T

/-- `self.sym.subs(self.f(*variables), T).doit()` for an expression with an unknown function of the variables `fdirs`.
operator.py:99, 114-115. -/
def substTerms (D : ℕ → K → K) (fdirs : List ℕ) (A : HOp K) (T : List (OpTerm K)) : List (OpTerm K) :=
  A.terms.flatMap fun t => scaleTerms t.coeff (diffsTerms D fdirs A.dirs t.index T)

/-- The derivative of an expression without unknown function. -/
def diffsExpr (D : ℕ → K → K) : List ℕ → List ℕ → K → K
  | d :: dirs, a :: index, c => (D d)^[a] (diffsExpr D dirs index c)
  | _, _, c => c

/-- `self.sym.subs(self.f(*variables), c).doit()` for an expression without unknown function. operator.py:99. -/
def substExpr (D : ℕ → K → K) (A : HOp K) (c : K) : K := (A.terms.map fun t => t.coeff * diffsExpr D A.dirs t.index c).sum

/-- `Operator.__call__` for an `Operator`; its directions are not compared. operator.py:98-100. -/
def callOp (D : ℕ → K → K) (A B : HOp K) : HOp K := mkOp (substTerms D B.dirs A B.terms) B.dirs A.dirs

/-- `Operator.__call__` for a `Function`; its directions are not compared. operator.py:98-101. -/
def callFn (D : ℕ → K → K) (free : K → Finset ℕ) (A : HOp K) (c : K) : Out (HFn K) := mkFn free (substExpr D A c) A.dirs

/-- `Operator.__call__`: an expression is made an `Operator`, which works for zero, or else a `Function`. operator.py:91-101. -/
def op_call (D : ℕ → K → K) (free : K → Finset ℕ) (A : HOp K) : HArg K → Out (HRes K)
  | .op B => .ok (.op (callOp D A B))
  | .fn g => callFn D free A g.sym >>= fun r => .ok (.fn r)
  | .expr c =>
    if c = 0 then .ok (.op (callOp D A ⟨A.dirs, []⟩))
    else mkFn free c A.dirs >>= fun g => callFn D free A g.sym >>= fun r => .ok (.fn r)

/-- `(unknown*factor).sym`. operator.py:113-114. -/
def unknownTimes (dirs : List ℕ) (g : K) : List (OpTerm K) := [⟨g, List.replicate dirs.length 0⟩]

def mapFn (D : ℕ → K → K) (inv : K → K) (A : HOp K) (g : HFn K) : Out (HOp K) :=
  if ¬ g.dirs = A.dirs then .throws
  else if g.sym = 0 then .throws
  else .ok (mkOp (scaleTerms (inv g.sym) (substTerms D A.dirs A (unknownTimes A.dirs g.sym))) A.dirs A.dirs)

/-- `Operator.map`. With the factor zero, the expression is `nan`, which has no functional argument. operator.py:107-116. -/
def op_map (D : ℕ → K → K) (inv : K → K) (free : K → Finset ℕ) (A : HOp K) (b : HArg K) : Out (HOp K) :=
  toFn free A.dirs b >>= mapFn D inv A

end Hermipy
