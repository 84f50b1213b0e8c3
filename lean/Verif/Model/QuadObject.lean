import Verif.Model.Function
import Verif.Model.Series
import Verif.Model.Discretize
import Verif.Model.FinestCommon
import Verif.Model.Inner

/-! # Model of the class `Quad` (`hermipy/quad.py`), and of `Series.tensorize`

Functions are sums of products of factors, as in the model of `function.py`, now with values. Doubles are real numbers; the cached
functions of `core` are called directly; the settings `debug`, `trails` and the statistics are left out. -/

namespace Hermipy

/-- The values of factors. A factor with free symbols `s` depends on the coordinates in `s` only. -/
class Interp (F : Type) where
  val : Finset ℕ → F → (ℕ → ℝ) → ℝ
  val_local : ∀ s a x y, (∀ d ∈ s, x d = y d) → val s a x = val s a y

/-- A `Function` up to the order of the arguments of sums and products, in which sympy's equality (function.py:76-78) does not depend. -/
structure SFn (F : Type) where
  dirs : List ℕ
  terms : Multiset (Product F)

instance {F : Type} [DecidableEq F] : DecidableEq (SFn F) := fun f g =>
  decidable_of_iff (f.dirs = g.dirs ∧ f.terms = g.terms) (by cases f; cases g; simp)

variable {F : Type}

/-- The function with the arguments of its sum and products in some order. -/
noncomputable def SFn.toFn (f : SFn F) : Fn F := ⟨f.dirs, (f.terms.map fun p => p.toList).toList⟩

/-- The function whose expression is a product. -/
def SFn.ofProduct (f : List ℕ × Product F) : SFn F := ⟨f.1, {f.2}⟩

section values
variable [Interp F]

/-- The value of a product at the point with coordinate `x d` in direction `d`. -/
def productValue (p : Product F) (x : ℕ → ℝ) : ℝ := (p.map fun a => Interp.val a.1 a.2 x).prod

/-- The value of a function. -/
def SFn.value (f : SFn F) (x : ℕ → ℝ) : ℝ := (f.terms.map fun p => productValue p x).sum

instance [DecidableEq F] : SymFn (SFn F) where
  one dirs := ⟨dirs, {0}⟩
  value := SFn.value
  value_one := by intro dirs x; simp [SFn.value, productValue]

open scoped Classical in
/-- The function compiled from `ccode()`: the symbol of the `i`-th direction of the function is replaced by `v[i]`. function.py:118-123,
discretize.cpp:88-126. Reading past the end of `v` is undefined. -/
noncomputable def cfun (f : SFn F) (v : List ℝ) : Out ℝ :=
  if ∀ p ∈ f.terms, ∀ a ∈ p, ∀ d ∈ a.1, f.dirs.idxOf d < v.length then .ok (f.value fun d => v.getD (f.dirs.idxOf d) 0) else .ub

end values

/-! ## Positions -/

/-- `la.eig`: the eigenvalues and the matrix whose columns are the eigenvectors. -/
abbrev Eig := List (List ℝ) → List ℝ × List (List ℝ)

/-- `np.matmul` of square matrices. -/
noncomputable def matMul (n : ℕ) (A B : List (List ℝ)) : List (List ℝ) :=
  (List.range n).map fun i => (List.range n).map fun j => ∑ k ∈ Finset.range n, entryOf A i k * entryOf B k j

/-- The attribute `factor`. position.py:103-104. `np.sqrt` acts on each entry. -/
noncomputable def pos_factor (eig : Eig) (p : Position) : List (List ℝ) :=
  matMul p.dim (eig p.cov).2 ((diagMat (eig p.cov).1).map fun r => r.map fun x => √x)

/-! ## Quadratures -/

/-- The attributes of a `Quad`. quad.py:70-80. -/
structure HQuad (F : Type) where
  nodes : List (List ℝ)
  weights : List (List ℝ)
  position : Position
  factor : SFn F

/-- `do_fourier`. quad.py:80. -/
def HQuad.do_fourier (q : HQuad F) : List ℕ := q.position.types.map fun t => if t = "fourier" then 1 else 0

/-- `np.asarray(l, float)` raises if the rows have different lengths. quad.py:69-71. -/
def uniform (l : List (List ℝ)) : Prop := ∀ r ∈ l, r.length = (l.getD 0 []).length

instance (l : List (List ℝ)) : Decidable (uniform l) := by unfold uniform; infer_instance

/-- `Quad(nodes, weights, position=position, factor=factor)`. quad.py:52-80. -/
def mkQuad (nodes weights : List (List ℝ)) (position : Position) (factor : SFn F) : Out (HQuad F) :=
  if ¬ uniform nodes ∨ ¬ uniform weights then .throws else .ok ⟨nodes, weights, position, factor⟩

/-- `Quad.project` for a list of directions. quad.py:393-410. -/
noncomputable def quad_project (q : HQuad F) (directions : List ℕ) : Out (HQuad F) := do
  let factor ← fn_project q.factor.toFn directions
  let position ← pos_project q.position directions
  let nw ← position.dirs.mapM fun d => do
    let i ← pyindex q.position.dirs d
    let n ← pyget q.nodes i
    let w ← pyget q.weights i
    .ok (n, w)
  mkQuad (nw.map Prod.fst) (nw.map Prod.snd) position (SFn.ofProduct factor)

section numeric
variable [Interp F]

/-- `Quad.discretize` of a function. quad.py:249-254. -/
noncomputable def quad_discretize (eig : Eig) (q : HQuad F) (f : SFn F) : Out (List ℝ) :=
  discretize (cfun f) q.nodes q.position.mean (pos_factor eig q.position)

/-- The body of `Quad.integrate` for a function, with `flat=False`. quad.py:257-274. -/
noncomputable def quad_integrate (slack : ℕ) (eig : Eig) (q : HQuad F) (f : SFn F) : Out ℝ := do
  let grid ← quad_discretize eig q f
  integrate slack grid q.nodes q.weights q.do_fourier

/-- `function / (1e-300*(factor == 0) + factor)`. quad.py:297-298. -/
noncomputable def guardedDiv (a b : List ℝ) : Out (List ℝ) :=
  broadcast (fun x y => x / (1 / 10 ^ 300 * (if y = 0 then 1 else 0) + y)) a b

/-- The body of `Quad.transform` for values on the grid. quad.py:297-306. -/
noncomputable def quad_transform_grid (slack : ℕ) (eig : Eig) (q : HQuad F) (grid : List ℝ) (degree : ℕ) (index_set : IndexSet) :
    Out (HSeries (SFn F)) := do
  let factor ← quad_discretize eig q q.factor
  let mapped ← guardedDiv grid factor
  let coeffs ← transform slack index_set degree mapped q.nodes q.weights q.do_fourier true
  mkSeries coeffs q.position q.factor index_set

/-- The body of `Quad.transform` for a function. quad.py:290-306. -/
noncomputable def quad_transform (slack : ℕ) (eig : Eig) (degree : ℕ) (index_set : IndexSet) (q : HQuad F) (f : SFn F) :
    Out (HSeries (SFn F)) := do
  let grid ← quad_discretize eig q f
  quad_transform_grid slack eig q grid degree index_set

/-- `la.inv`: raises for singular matrices. -/
noncomputable def laInv (n : ℕ) (A : List (List ℝ)) : Out (List (List ℝ)) :=
  let M : Matrix (Fin n) (Fin n) ℝ := Matrix.of fun i j => entryOf A i j
  if M.det = 0 then .throws
  else .ok ((List.finRange n).map fun i => (List.finRange n).map fun j => M⁻¹ i j)

open scoped Classical in
/-- `Quad.eval` of a series. quad.py:308-328. `inv * self.position.factor` is the product entry by entry. -/
noncomputable def quad_eval (slack : ℕ) (eig : Eig) (q : HQuad F) (f : HSeries (SFn F)) : Out (List ℝ) := do
  let inv ← laInv f.position.dim (pos_factor eig f.position)
  let diff ← broadcast (· - ·) q.position.mean f.position.mean
  let translation ← matDot inv diff
  let factor ← broadcast2 (· * ·) inv (pos_factor eig q.position)
  if offDiagNorm factor.length factor > 1 / 10 ^ 8 then .throws
  else do
    let mapped_nodes ← (List.range q.nodes.length).mapM fun i => do
      let n ← pyget q.nodes i
      let r ← pyget factor i
      let c ← pyget r i
      let t ← pyget translation i
      .ok (n.map fun x => x * c + t)
    let result ← transform slack f.index_set f.degree f.coeffs mapped_nodes q.weights q.do_fourier false
    let fac ← quad_discretize eig q f.factor
    broadcast (· * ·) result fac

/-! ## Tensorization of the arguments -/

/-- One turn of the loop over the groups of the function. quad.py:213-218. -/
noncomputable def newAddStep (new_add : List (Finset ℕ × (List ℕ × Product F))) (e : Finset ℕ × (List ℕ × Product F)) :
    Out (List (Finset ℕ × (List ℕ × Product F))) :=
  new_add.mapM fun s => if e.1 ⊆ s.1 then do
      let f ← mkFunction (s.2.2 + e.2.2) (s.1.sort (· ≤ ·))
      .ok (s.1, f)
    else .ok s

/-- The wrapper `tensorize_at` for a function argument, with `tensorize=True`. quad.py:177-240. `order` gives the orders in which Python
iterates over sets (see `finest_common`), `k` the number of the one used for `finest_division`. `func` is the decorated method; `tens` makes
one result of the results for the groups (`core.tensorize` of numbers, `Series.tensorize`, `Varf.tensorize`); `scale` and `plus` are the
multiplication by a number and the addition of results. `float` of the constant is its value. -/
noncomputable def tensorize_at {R : Type} (order : ℕ → Finset (Finset ℕ) → List (Finset ℕ)) (k : ℕ) (func : HQuad F → SFn F → Out R)
    (tens : List (Finset ℕ × R) → Out R) (scale : R → ℝ → Out R) (plus : R → R → Out R) (q : HQuad F) (f : SFn F) : Out R :=
  open scoped Classical in
  if ¬ q.position.is_diag then func q f
  else do
    let adds ← split f.toFn
    let results ← adds.mapM fun add => do
      let multiplicator ← dictGet ∅ (add.map fun e => (e.1, e.2.2))
      let add := add.filter fun e => e.1 ≠ ∅
      let factor_split ← split q.factor.toFn
      match factor_split with
      | [g] => do
        let finest ← finest_common order 0 (add.map Prod.fst).toFinset (g.map Prod.fst).toFinset
        let new_add ← add.foldlM newAddStep ((order k finest).map fun s => (s, ([], 0)))
        let func_dirs ← new_add.mapM fun e => do
          let qp ← quad_project q (e.1.sort (· ≤ ·))
          let r ← func qp (SFn.ofProduct e.2)
          .ok (e.1, r)
        let t ← tens func_dirs
        scale t (productValue multiplicator fun _ => 0)
      | _ => .throws
    match results with
    | [] => .throws
    | r :: rs => rs.foldlM plus r

/-- `Quad.integrate` with `tensorize=True`. quad.py:256; numbers are multiplied (core.py:208-209). -/
noncomputable def quad_integrate_tensorize (order : ℕ → Finset (Finset ℕ) → List (Finset ℕ)) (k slack : ℕ) (eig : Eig) (q : HQuad F)
    (f : SFn F) : Out ℝ :=
  tensorize_at order k (quad_integrate slack eig) (fun rs => .ok (rs.map Prod.snd).prod) (fun r c => .ok (r * c)) (fun r s => .ok (r + s)) q f

end numeric

/-! ## Products of series -/

section product
variable [DecidableEq F]

/-- `f.sym / p` for a product `p`. series.py:65. (Only factors of `f.sym` are divided by here; what is left of a product is what `p` does
not contain.) -/
def divTerms (f : SFn F) (p : Product F) : Multiset (Product F) := f.terms.map fun t => t - p

open scoped Classical in
/-- `_tensorize` of two series. series.py:38-72. The list of a set of directions is sorted (they are small integers). -/
noncomputable def series_tensorize2 (s1 s2 : HSeries (SFn F)) : Out (HSeries (SFn F)) :=
  if s1.position.dim = 0 then do
    let c ← pyget s1.coeffs 0
    mkSeries (s2.coeffs.map (c * ·)) s2.position s2.factor s2.index_set
  else if s2.position.dim = 0 then do
    let c ← pyget s2.coeffs 0
    mkSeries (s1.coeffs.map (c * ·)) s1.position s1.factor s1.index_set
  else do
    let common := (s1.position.dirs.filter fun d => d ∈ s2.position.dirs).insertionSort (· ≤ ·)
    let f1 ← fn_project s1.factor.toFn common
    let f2 ← fn_project s2.factor.toFn common
    if ¬ f1 = f2 then .throws
    else if ¬ s1.degree = s2.degree then .throws
    else if ¬ s1.index_set = s2.index_set then .throws
    else do
      let result ← inner s1.index_set s1.coeffs s2.coeffs s1.position.dirs s2.position.dirs
      let position ← pos_tensorize [s1.position, s2.position]
      let terms := (divTerms s1.factor f1.2).bind fun p => (divTerms s2.factor f2.2).map fun p' => p + p'
      if ¬ isSorted position.dirs ∨ ∃ p ∈ terms, ∃ x ∈ p.vars, x ∉ position.dirs then .throws
      else mkSeries result position ⟨position.dirs, terms⟩ s1.index_set

/-- `Series.tensorize`. series.py:35-78. -/
noncomputable def series_tensorize : List (HSeries (SFn F)) → Out (HSeries (SFn F))
  | [] => .throws
  | a :: as => as.foldlM series_tensorize2 a

/-- `Quad.transform` with `tensorize=True`. quad.py:287-306. -/
noncomputable def quad_transform_tensorize [Interp F] (order : ℕ → Finset (Finset ℕ) → List (Finset ℕ)) (k slack : ℕ) (eig : Eig) (degree : ℕ)
    (index_set : IndexSet) (q : HQuad F) (f : SFn F) : Out (HSeries (SFn F)) :=
  tensorize_at order k (quad_transform slack eig degree index_set) (fun rs => series_tensorize (rs.map Prod.snd)) series_mul_scalar
    series_add q f

end product

end Hermipy
