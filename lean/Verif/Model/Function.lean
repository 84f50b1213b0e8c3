import Verif.Out
import Mathlib.Data.Finset.Sort
import Mathlib.Data.Multiset.Basic
import Mathlib.Data.Multiset.AddSub
import Mathlib.Data.Multiset.Filter

/-! # Model of `hermipy/function.py`

A `Function` is an expanded sympy expression and a list of directions. An expanded expression is a sum (`sympy.Add`) of products
(`sympy.Mul`) of factors; of a factor only its free symbols matter here, and an identity. Products of expressions are multisets of
factors: sympy may rewrite a product (`x*x` to `x**2`), which changes neither its value nor, but for cancellations, its variables.

Python's dictionaries iterate in the order of insertion: they are lists of pairs here. `list` of a frozenset of directions is sorted:
the directions are at most 4 (function.py:26-30), and CPython iterates over small integers in increasing order. -/

namespace Hermipy

/-- A factor: the indices of its free symbols among `x_sub`, and what distinguishes it from others. -/
abbrev Factor (F : Type) := Finset ℕ × F

/-- A product of factors. -/
abbrev Product (F : Type) := Multiset (Factor F)

/-- The free symbols of a product. -/
def Product.vars {F : Type} (p : Product F) : Set ℕ := {x | ∃ f ∈ p, x ∈ f.1}

/-- `Function`: the directions, and `self.sym` as the list of the arguments of its products. function.py:23-70. `terms` has one element
if `self.sym` is not a sum; a product that is not a `Mul` has one factor. -/
structure Fn (F : Type) where
  dirs : List ℕ
  terms : List (List (Factor F))

/-- A Python dictionary with values in the products. -/
abbrev Groups (F : Type) := List (Finset ℕ × Product F)

variable {F : Type}

/-- `d[k] = v`. -/
def dictSet (k : Finset ℕ) (v : Product F) : Groups F → Groups F
  | [] => [(k, v)]
  | e :: es => if e.1 = k then (k, v) :: es else e :: dictSet k v es

/-- `d[k]`: `KeyError` if missing. -/
def dictGet (k : Finset ℕ) (g : Groups F) : Out (Product F) :=
  match g.find? fun e => e.1 = k with
  | some e => .ok e.2
  | none => .throws

/-- `{frozenset({d}): 1 for d in self.dirs}`, then `result[frozenset()] = 1`. function.py:155-158. -/
def initGroups (dirs : List ℕ) : Groups F :=
  dictSet ∅ 0 (dirs.foldl (fun g d => dictSet {d} 0 g) [])

/-- The loop over the existing keys. function.py:169-173. State: `key`, `value`, `keys_intersect`. -/
def mergeLoop (result : Groups F) (key : Finset ℕ) (value : Product F) : Finset ℕ × Product F × List (Finset ℕ) :=
  result.foldl (fun st e => if e.1 ∩ st.1 ≠ ∅ then (e.1 ∪ st.1, st.2.1 + e.2, st.2.2 ++ [e.1]) else st) (key, value, [])

/-- The body of the loop over the factors of a product. function.py:160-178. -/
def splitStep (result : Groups F) (arg : Factor F) : Groups F :=
  let key := arg.1
  if key ∈ result.map Prod.fst then
    result.map fun e => if e.1 = key then (e.1, e.2 + {arg}) else e
  else
    let m := mergeLoop result key {arg}
    dictSet m.1 m.2.1 (result.filter fun e => e.1 ∉ m.2.2)

/-- The dictionary of a product. function.py:152-178. -/
def splitTerm (dirs : List ℕ) (args : List (Factor F)) : Groups F := args.foldl splitStep (initGroups dirs)

/-- `dirs == sorted(dirs)` -/
def isSorted (dirs : List ℕ) : Prop := dirs.Pairwise (· ≤ ·)

/-- `Function(product, dirs=dirs)`: raises if the directions are not sorted or do not include the variables. function.py:57-70. -/
noncomputable def mkFunction (p : Product F) (dirs : List ℕ) : Out (List ℕ × Product F) :=
  open scoped Classical in
  if ¬ isSorted dirs then .throws
  else if ∀ x ∈ p.vars, x ∈ dirs then .ok (dirs, p) else .throws

/-- `split(legacy=False)`. function.py:146-193. -/
noncomputable def split (f : Fn F) : Out (List (List (Finset ℕ × (List ℕ × Product F)))) :=
  f.terms.mapM fun args => (splitTerm f.dirs args).mapM fun e => do
    let fn ← mkFunction e.2 (e.1.sort (· ≤ ·))
    .ok (e.1, fn)

/-- `split()` with `legacy=True`: for each term a list of functions and the constant. function.py:180-188. -/
noncomputable def split_legacy [DecidableEq F] (f : Fn F) : Out (List (List (List ℕ × Product F) × Product F)) :=
  f.terms.mapM fun args => do
    let result := splitTerm f.dirs args
    let multiplicator ← dictGet ∅ result
    let fns ← if result.length = f.dirs.length + 1 then
        f.dirs.mapM fun d => do
          let v ← dictGet {d} result
          mkFunction v [d]
      else do
        let fn ← mkFunction ((args : Product F) - multiplicator) f.dirs
        .ok [fn]
    .ok (fns, multiplicator)

/-- The loop over the groups in `project`. function.py:139-143. -/
def projectLoop (dirs : List ℕ) : Groups F → Product F → Out (Product F)
  | [], result => .ok result
  | (v, term) :: es, result =>
    if (∀ x ∈ v, x ∈ dirs) ∧ v ≠ ∅ then projectLoop dirs es (result + term)
    else if dirs ≠ [] ∧ ∀ x ∈ dirs, x ∈ v then .throws
    else projectLoop dirs es result

/-- `project`. function.py:125-144. `self.dirs[0]` raises for a function without directions. -/
noncomputable def fn_project (f : Fn F) (dirs : List ℕ) : Out (List ℕ × Product F) := do
  let split_fun ← split f
  match split_fun with
  | [g] => do
    match f.dirs with
    | [] => .throws
    | d0 :: _ => do
      let result ← if d0 ∈ dirs then dictGet ∅ (g.map fun e => (e.1, e.2.2)) else .ok 0
      let result ← projectLoop dirs (g.map fun e => (e.1, e.2.2)) result
      mkFunction result dirs
  | _ => .throws

end Hermipy
