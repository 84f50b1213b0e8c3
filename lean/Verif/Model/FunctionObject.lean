import Verif.Out
import Mathlib.Data.Real.Basic
import Mathlib.Data.Finset.Basic
import Mathlib.Algebra.BigOperators.Group.List.Basic
import Mathlib.Logic.Function.Basic

/-! # Model of the class `Function`: constructor, arithmetic, names of the variables, C code

Expressions are elements of any type with the operations of sympy that the class uses (`SymOps`). `split`, `project` and `tensorize` are in
`Model/Function.lean`, for directions that are natural numbers. -/

namespace Hermipy

/-- A sympy symbol: its name, and a number for its assumptions, 0 for `real=True`. Symbols with the same name and other assumptions differ. -/
abbrev Symb := String × ℕ

/-- The operations of sympy which the class uses. `free a` are the free symbols, `value a e` is the value of an expression for the values `e` of
the symbols, `subs a s t` replaces the symbol `s` by the symbol `t`. Only these two functions are known of an expression. -/
class SymOps (E : Type) where
  free : E → Finset Symb
  value : E → (Symb → ℝ) → ℝ
  subs : E → Symb → Symb → E
  expand : E → E
  add : E → E → E
  mul : E → E → E
  div : E → E → E

/-- `x_sub[i]`. function.py:29-30. -/
def xSub (i : ℕ) : Symb := ("x" ++ toString i, 0)

/-- `xyz[i]`, for `i` up to 4. function.py:26. -/
def xyz (i : ℕ) : Symb := (["x", "y", "z", "w", "v"].getD i "", 0)

/-- The dictionary `conv`, from names of symbols to positions in `x_sub`. function.py:32-35. -/
def conv (name : String) : Option ℕ := (List.range 5).find? fun i => name = (xyz i).1 ∨ name = (xSub i).1

/-- `Function`. function.py:23, function.py:61-73. -/
structure PFn (E : Type) where
  sym : E
  dirs : List ℤ

variable {E : Type} [SymOps E]

/-- `for s in expr.free_symbols: if str(s) in self.conv: expr = expr.subs(s, self.conv[str(s)])`, where `order` is the order of iteration over the
set of the free symbols of the given expression. function.py:57-59. -/
def convert (order : List Symb) (expr : E) : E :=
  order.foldl (fun a s => match conv s.1 with
    | some i => SymOps.subs a s (xSub i)
    | none => a) expr

/-- `x_sub[d]`: negative indices count from the end. -/
def xSubAt (d : ℤ) : Out Symb :=
  if 0 ≤ d ∧ d < 5 then .ok (xSub d.toNat) else if -5 ≤ d ∧ d < 0 then .ok (xSub (d + 5).toNat) else .throws

/-- `Function.__init__` for an expression. function.py:47-74. `dirs == sorted(dirs)` allows repetitions. The variables are those of the
expression before it is expanded. A failing `assert` throws. Left out: the parser `sympify`. For `Function(f)` of a `Function` see `pfn_new`. -/
def pfn_init (order : List Symb) (expr : E) (dirs : Option (List ℤ)) (dim : Option ℕ) : Out (PFn E) := do
  let expr := convert order expr
  let sym := SymOps.expand expr
  let indices := (List.range 5).filter fun i => xSub i ∈ SymOps.free expr
  let self_dirs ← match dirs, dim with
    | some dirs, none => if dirs.Pairwise (· ≤ ·) then .ok dirs else .throws
    | some _, some _ => .throws
    | none, some dim => .ok ((List.range dim).map fun (i : ℕ) => (i : ℤ))
    | none, none => .ok ((List.range (indices.foldl (fun m i => max m (i + 1)) 0)).map fun (i : ℕ) => (i : ℤ))
  let symbols ← self_dirs.mapM xSubAt
  if ∀ i ∈ indices, xSub i ∈ symbols then .ok ⟨sym, self_dirs⟩ else .throws

/-- The first argument of `Function`: an object of the class, or an expression. -/
inductive PArg (E : Type) where
  | function (f : PFn E)
  | expr (e : E)

/-- `Function.__init__` for both kinds of arguments: of a `Function`, the expression and the directions are taken over and the constructor returns
before it looks at `dirs` and `dim`. function.py:47-52. -/
def pfn_new (order : List Symb) (arg : PArg E) (dirs : Option (List ℤ)) (dim : Option ℕ) : Out (PFn E) :=
  match arg with
  | .function f => .ok ⟨f.sym, f.dirs⟩
  | .expr e => pfn_init order e dirs dim

/-- `__mul__` and `__rmul__`, `__add__` and `__radd__`, `__truediv__`: with the given operation. function.py:84-107. -/
def pfn_op (op : E → E → E) (order : List Symb) (f g : PFn E) : Out (PFn E) :=
  if f.dirs ≠ g.dirs then .throws else pfn_init order (op f.sym g.sym) (some f.dirs) none

/-- The same, with an expression as other operand. -/
def pfn_op_expr (op : E → E → E) (order order' : List Symb) (f : PFn E) (other : E) : Out (PFn E) := do
  let g ← pfn_init order' other (some f.dirs) none
  pfn_op op order f g

/-- `as_xyz`. function.py:112-116. -/
def as_xyz (f : PFn E) : E := (List.range 5).foldl (fun a i => SymOps.subs a (xSub i) (xyz i)) f.sym

/-! ## C code -/

/-- `\w` of Python's `re`, on ASCII. -/
def isWord (c : Char) : Bool := c.isAlphanum || c == '_'

/-- `re.sub(r'\b' + pat, rep, s)` for a nonempty pattern of word characters; the first argument bounds the length, `prev` says whether the
character before is a word character. -/
def resub (pat rep : List Char) : ℕ → Bool → List Char → List Char
  | 0, _, s => s
  | _ + 1, _, [] => []
  | n + 1, prev, c :: s =>
    if !prev && pat.isPrefixOf (c :: s) then rep ++ resub pat rep n true ((c :: s).drop pat.length)
    else c :: resub pat rep n (isWord c) s

/-- `ccode` after sympy's `ccode`, whose result is `code`. function.py:118-123. The directions
are not negative: for a negative one the pattern is that of `x` followed by a minus sign. -/
def ccodeOf (dirs : List ℕ) (code : List Char) : List Char :=
  (dirs.zipIdx).foldl (fun code d => resub ('x' :: (toString d.1).toList) ('v' :: '[' :: (toString d.2).toList ++ [']']) code.length false code) code

/-! ## `sanitize` -/

/-- An argument of a product: a `Float`, or anything else, with its value. -/
inductive SArg where
  | float (c : ℝ)
  | other (v : ℝ)

/-- The value of an argument. -/
def SArg.val : SArg → ℝ
  | .float c => c
  | .other v => v

/-- `Function.sanitize` on the arguments of the products of an expanded sum; `limit c` is `Rational(c).limit_denominator(max_denom)`, and
`1e-14` is taken as the decimal number. function.py:196-212. -/
noncomputable def sanitize (limit : ℝ → ℝ) (terms : List (List SArg)) : List (List SArg) :=
  terms.map fun args => args.map fun a => match a with
    | .float c => .other (limit (if |c| < 1 / 10 ^ 14 then 0 else c))
    | .other v => .other v

end Hermipy
