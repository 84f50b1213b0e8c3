import Verif.Model.QuadObject
import Verif.Model.Varf
import Verif.Model.Operator
import Verif.Model.Project

/-! # Model of `Varf.tensorize`, `Varf.project` and of the variational forms of `Quad`

Matrices which Python holds as arrays or as `csr_matrix` are lists of rows in a `Varf`. The converters between the two sides
(core.py:49-118) keep the entries (properties C44, C45); they are left out, and the matrices are ublas matrices, dense or compressed, between
the calls of the library. -/

namespace Hermipy

variable {F : Type}

/-- The rows of a matrix: what `to_numpy`, `to_csr` and `todense` make of it. core.py:83-89, 107-118. -/
def rowsOf {M : Type} [MatOps M ℝ] (A : M) : Out (List (List ℝ)) := do
  let n2 ← MatOps.size2 A
  (List.range (MatOps.size1 A)).mapM fun i => (List.range n2).mapM fun j => MatOps.get A i j

/-! ## Products -/

/-- `mats[key] = matrix`. varf.py:58. -/
def matsSet (k : List ℕ) (v : List (List ℝ)) : List (List ℕ × List (List ℝ)) → List (List ℕ × List (List ℝ))
  | [] => [(k, v)]
  | e :: es => if e.1 = k then (k, v) :: es else e :: matsSet k v es

/-- `core.tensorize` of a dictionary of matrices. core.py:204-227, 246-253. `tensorize` and `tensorize_sp` both take nested vectors. -/
noncomputable def core_tensorize (sparse : Bool) (s : IndexSet) (mats : List (List ℕ × List (List ℝ))) : Out (List (List ℝ)) :=
  open scoped Classical in
  if sparse then do
    let r : SpMat ℝ ← tensorize_mats_dirs (α := ℝ) (S := DMat ℝ) s (mats.map Prod.snd) (mats.map Prod.fst)
    rowsOf r
  else do
    let r : DMat ℝ ← tensorize_mats_dirs (α := ℝ) (S := DMat ℝ) s (mats.map Prod.snd) (mats.map Prod.fst)
    rowsOf r

/-- The product of sums of products. varf.py:51, 59. -/
def mulTerms (s t : Multiset (Product F)) : Multiset (Product F) := s.bind fun p => t.map fun p' => p + p'

/-- `Varf.tensorize`. varf.py:39-64. The key of a matrix is the set of its directions, which the list of them in increasing order stands
for. -/
noncomputable def varf_tensorize (sparse : Bool) : List (HVarf (SFn F)) → Out (HVarf (SFn F))
  | [] => .throws
  | [a] => .ok a
  | a :: as =>
    open scoped Classical in
    if ∃ b ∈ a :: as, ¬ b.index_set = a.index_set ∨ ¬ b.degree = a.degree then .throws
    else do
      let mats := (a :: as).foldl (fun m b => matsSet (b.position.dirs.toFinset.sort (· ≤ ·)) b.matrix m) []
      let terms := (a :: as).foldl (fun t b => mulTerms t b.factor.terms) {0}
      let matrix ← core_tensorize sparse a.index_set mats
      let position ← pos_tensorize ((a :: as).map HVarf.position)
      if ¬ isSorted position.dirs ∨ ∃ p ∈ terms, ∃ x ∈ p.vars, x ∉ position.dirs then .throws
      else mkVarf sparse matrix position ⟨position.dirs, terms⟩ a.index_set

/-- `Varf.project`. varf.py:136-145. A `Varf` has no attribute `dirs`: `self.dirs.index(d)` raises `AttributeError`. The attribute is looked up
for each direction; without directions, the C++ code gets none (for which the storage of the matrix makes no difference). -/
noncomputable def varf_project [DecidableEq F] (A : HVarf (SFn F)) (directions : List ℕ) : Out (HVarf (SFn F)) :=
  match directions with
  | _ :: _ => .throws
  | [] => do
    let m : DMat ℝ ← project_mat (α := ℝ) A.index_set A.matrix A.position.dim []
    let p_pos ← pos_project A.position []
    let factor ← fn_project A.factor.toFn []
    mkVarf A.is_sparse m p_pos (SFn.ofProduct factor) A.index_set

/-! ## Forms -/

section forms
variable [Interp F]

/-- The matrix of `Quad.varf` of a function. quad.py:336-340, core.py:172-181: `varf<boost_mat>` or `varf<spmat>`. -/
noncomputable def quad_varf_mat (T : Type) [MatOps T ℝ] [MatArith T ℝ] [Convert (SpMat ℝ) T] (slack : ℕ) (eig : Eig) (degree : ℕ)
    (index_set : IndexSet) (q : HQuad F) (f : SFn F) : Out T := do
  let grid ← quad_discretize eig q f
  varf slack index_set degree grid q.nodes q.weights q.do_fourier

/-- The body of `Quad.varf` for a function and one type of matrices. quad.py:333-345. -/
noncomputable def quad_varf_as (T : Type) [MatOps T ℝ] [MatArith T ℝ] [Convert (SpMat ℝ) T] (sparse : Bool) (slack : ℕ) (eig : Eig)
    (degree : ℕ) (index_set : IndexSet) (q : HQuad F) (f : SFn F) : Out (HVarf (SFn F)) := do
  let var ← quad_varf_mat T slack eig degree index_set q f
  let rows ← rowsOf var
  mkVarf sparse rows q.position q.factor index_set

/-- The body of `Quad.varf` for a function. quad.py:333-345. -/
noncomputable def quad_varf (sparse : Bool) (slack : ℕ) (eig : Eig) (degree : ℕ) (index_set : IndexSet) (q : HQuad F) (f : SFn F) :
    Out (HVarf (SFn F)) :=
  if sparse then quad_varf_as (SpMat ℝ) sparse slack eig degree index_set q f
  else quad_varf_as (BMat ℝ) sparse slack eig degree index_set q f

/-- One turn of the loop over the directions in `Quad.varfd`. quad.py:356-361. `np.sqrt` and the division act entry by entry (with real
numbers, for a positive eigenvalue). -/
noncomputable def varfdDir {T : Type} [MatOps T ℝ] [MatArith T ℝ] [Stored T ℝ] (eigval : List ℝ) (degree : ℕ) (index_set : IndexSet)
    (q : HQuad F) (mat : T) (d : ℕ) : Out T := do
  let rel_dir ← pyindex q.position.dirs d
  let do_fourier ← pyget q.do_fourier rel_dir
  let mat ← varfd index_set q.position.dim degree rel_dir mat do_fourier
  let e ← pyget eigval rel_dir
  .ok (MatArith.scale mat (1 / √e))

/-- The body of `Quad.varfd` for one type of matrices. quad.py:347-364. -/
noncomputable def quad_varfd_as (T : Type) [MatOps T ℝ] [MatArith T ℝ] [Convert (SpMat ℝ) T] [Stored T ℝ] (sparse : Bool) (slack : ℕ)
    (eig : Eig) (degree : ℕ) (index_set : IndexSet) (directions : List ℕ) (q : HQuad F) (f : SFn F) : Out (HVarf (SFn F)) := do
  let directions := directions.filter fun d => d ∈ q.position.dirs
  let mat ← quad_varf_mat T slack eig degree index_set q f
  let rows ← rowsOf mat
  let _ ← mkVarf sparse rows q.position q.factor index_set
  let mat ← directions.foldlM (varfdDir (eig q.position.cov).1 degree index_set q) mat
  let rows ← rowsOf mat
  mkVarf sparse rows q.position q.factor index_set

/-- The body of `Quad.varfd`. quad.py:347-364. -/
noncomputable def quad_varfd (sparse : Bool) (slack : ℕ) (eig : Eig) (degree : ℕ) (index_set : IndexSet) (directions : List ℕ) (q : HQuad F)
    (f : SFn F) : Out (HVarf (SFn F)) :=
  if sparse then quad_varfd_as (SpMat ℝ) sparse slack eig degree index_set directions q f
  else quad_varfd_as (BMat ℝ) sparse slack eig degree index_set directions q f

variable [DecidableEq F]

/-- `Quad.varf` with `tensorize=True`. quad.py:330-345, 224-239. -/
noncomputable def quad_varf_tensorize (order : ℕ → Finset (Finset ℕ) → List (Finset ℕ)) (k : ℕ) (sparse : Bool) (slack : ℕ) (eig : Eig)
    (degree : ℕ) (index_set : IndexSet) (q : HQuad F) (f : SFn F) : Out (HVarf (SFn F)) :=
  tensorize_at order k (quad_varf sparse slack eig degree index_set) (fun rs => varf_tensorize sparse (rs.map Prod.snd)) varf_mul_scalar
    varf_add q f

/-- `Quad.varfd` with `tensorize=True`. quad.py:347-364, 224-239. -/
noncomputable def quad_varfd_tensorize (order : ℕ → Finset (Finset ℕ) → List (Finset ℕ)) (k : ℕ) (sparse : Bool) (slack : ℕ) (eig : Eig)
    (degree : ℕ) (index_set : IndexSet) (directions : List ℕ) (q : HQuad F) (f : SFn F) : Out (HVarf (SFn F)) :=
  tensorize_at order k (quad_varfd sparse slack eig degree index_set directions) (fun rs => varf_tensorize sparse (rs.map Prod.snd))
    varf_mul_scalar varf_add q f

/-! ## Operators -/

/-- `sum([[d]*m[i] for i, d in enumerate(dirs)], [])`. quad.py:385-386. -/
def dVector : List ℕ → List ℕ → List ℕ
  | [], _ => []
  | _ :: _, [] => []
  | d :: ds, m :: ms => List.replicate m d ++ dVector ds ms

/-- `Quad.discretize_op`. quad.py:366-390. `args` are the summands of the operator, after `op.map(self.factor)` if the factor of the quadrature
is not 1 (quad.py:372-373, see `quad_discretize_op`), with directions `dirs`. `fn` makes a `Function` with these directions of a coefficient
(operator.py:143). `varf` and `varfd` are the methods with `tensorize` as in the settings. -/
noncomputable def discretize_op {K : Type} [CommRing K] [Algebra ℚ K] [DecidableEq K] (varf : SFn F → Out (HVarf (SFn F)))
    (varfd : SFn F → List ℕ → Out (HVarf (SFn F))) (fn : K → SFn F) (q : HQuad F) (dirs : List ℕ) (args : List (OpArg K)) :
    Out (HVarf (SFn F)) :=
  if ¬ dirs = q.position.dirs then .throws
  else do
    let splitop ← op_split dirs.length args
    match splitop with
    | [] => varf (fn 0)
    | e :: es => do
      let part ← varfd (fn e.2) (dVector q.position.dirs e.1)
      let first ← varf_add_scalar part 0
      es.foldlM (fun acc e => do
        let part ← varfd (fn e.2) (dVector q.position.dirs e.1)
        varf_add acc part) first

end forms

end Hermipy
