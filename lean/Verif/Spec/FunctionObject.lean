import Verif.Model.FunctionObject
import Mathlib.Data.Finset.Lattice.Basic
import Mathlib.Algebra.Order.Group.Unbundled.Abs
import Mathlib.Data.Real.Basic
import Mathlib.Data.Rat.Cast.Order

/-! # Vocabulary for the class `Function` -/

namespace Hermipy.Spec

open Hermipy

/-- What is assumed of sympy. Operations may drop symbols (`x - x` is `0`), hence the inclusions. -/
class SymLaws (E : Type) extends SymOps E where
  value_local : ∀ (a : E) (e e' : Symb → ℝ), (∀ s ∈ free a, e s = e' s) → value a e = value a e'
  value_subs : ∀ (a : E) (s t : Symb) (e : Symb → ℝ), value (subs a s t) e = value a (Function.update e s (e t))
  free_subs : ∀ (a : E) (s t u : Symb), u ∈ free (subs a s t) → (u ∈ free a ∧ u ≠ s) ∨ (u = t ∧ s ∈ free a)
  value_expand : ∀ (a : E) (e : Symb → ℝ), value (expand a) e = value a e
  free_expand : ∀ (a : E), free (expand a) ⊆ free a
  value_add : ∀ (a b : E) (e : Symb → ℝ), value (add a b) e = value a e + value b e
  free_add : ∀ (a b : E), free (add a b) ⊆ free a ∪ free b
  value_mul : ∀ (a b : E) (e : Symb → ℝ), value (mul a b) e = value a e * value b e
  free_mul : ∀ (a b : E), free (mul a b) ⊆ free a ∪ free b
  value_div : ∀ (a b : E) (e : Symb → ℝ), value b e ≠ 0 → value (div a b) e = value a e / value b e
  free_div : ∀ (a b : E), free (div a b) ⊆ free a ∪ free b

/-- The direction a name stands for: `x`, `y`, `z`, `w`, `v` and `x0`, ..., `x4`. -/
def direction (name : String) : Option ℕ :=
  if name = "x" ∨ name = "x0" then some 0 else if name = "y" ∨ name = "x1" then some 1 else if name = "z" ∨ name = "x2" then some 2
  else if name = "w" ∨ name = "x3" then some 3 else if name = "v" ∨ name = "x4" then some 4 else none

/-- The real symbol `x0`, ..., `x4` of a direction. -/
def axisSymb (i : ℕ) : Symb := (["x0", "x1", "x2", "x3", "x4"].getD i "", 0)

/-- The values of all symbols from those of the coordinates, other symbols keep theirs. -/
def rename (e : Symb → ℝ) : Symb → ℝ := fun s => match direction s.1 with
  | some i => e (axisSymb i)
  | none => e s

/-- A well formed function: sorted directions below 5, and its symbols are parameters or coordinates of its directions. -/
structure PFnOk {E : Type} [SymOps E] (f : PFn E) : Prop where
  sorted : f.dirs.Pairwise (· ≤ ·)
  range : ∀ d ∈ f.dirs, 0 ≤ d ∧ d < 5
  vars : ∀ s ∈ SymOps.free f.sym, ∀ i, direction s.1 = some i → s = axisSymb i ∧ (i : ℤ) ∈ f.dirs

/-! ## C code -/

/-- A token: an identifier or number, or any other character. -/
inductive Tok where
  | word (cs : List Char)
  | sep (c : Char)

/-- The text of tokens. -/
def tokText : List Tok → List Char
  | [] => []
  | .word cs :: ts => cs ++ tokText ts
  | .sep c :: ts => c :: tokText ts

/-- Tokens as a lexer cuts them: words are not empty, consist of word characters and do not touch. -/
def Lexed : List Tok → Prop
  | [] => True
  | .word cs :: ts => cs ≠ [] ∧ (∀ c ∈ cs, isWord c = true) ∧ (∀ cs' ts', ts ≠ .word cs' :: ts') ∧ Lexed ts
  | .sep c :: ts => isWord c = false ∧ Lexed ts

/-- The variable of direction `d`, as text. -/
def varText (d : ℕ) : List Char := 'x' :: (toString d).toList

/-- The text of the tokens where the variable of each direction is replaced by the entry of the array at the place of the direction. -/
def cText (dirs : List ℕ) : List Tok → List Char
  | [] => []
  | .word cs :: ts => (match dirs.find? fun d => varText d = cs with
    | some d => ['v', '['] ++ (toString (dirs.idxOf d)).toList ++ [']']
    | none => cs) ++ cText dirs ts
  | .sep c :: ts => c :: cText dirs ts

/-! ## Rational approximation -/

/-- `r` is a closest number to `c` among the fractions of denominator at most `N`. -/
def ClosestFraction (N : ℕ) (c r : ℝ) : Prop :=
  (∃ q : ℚ, r = q ∧ q.den ≤ N) ∧ ∀ q : ℚ, q.den ≤ N → |r - c| ≤ |(q : ℝ) - c|

/-- The value of a sum of products. -/
def sumOfProducts (terms : List (List SArg)) : ℝ := (terms.map fun args => (args.map SArg.val).prod).sum

/-- The product of what is not a `Float`. -/
def restProduct (args : List SArg) : ℝ := (args.map fun a => match a with
  | .float _ => 1
  | .other v => v).prod

/-- The number of `Float`s in a product: sympy merges them, at most 1. -/
def floats (args : List SArg) : ℕ := (args.filter fun a => match a with
  | .float _ => true
  | .other _ => false).length

end Hermipy.Spec
