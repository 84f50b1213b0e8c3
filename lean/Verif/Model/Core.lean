import Verif.Model.Converters
import Verif.Model.Inner
import Verif.Model.Position
import Verif.Model.Project
import Verif.Model.Sparse
import Verif.Model.Tensorize
import Verif.Model.Varf
import Mathlib.Algebra.BigOperators.Group.List.Basic

/-!
# Model of the functions of `hermipy/core.py` and of the overloads in `cpp/src/hermite/python/module.cpp`

Numbers are reals. The decorators `cache`, `debug` and `log_stats` are modelled in `Cache.lean` and `Stats.lean` and left out here.
Overloads are chosen by the types of the arguments; when there is none for them, the call raises `TypeError`.
-/

namespace Hermipy.Core

/-- What `to_cpp_array` gets: a number, a list or array of such things, or something else (a `csr_matrix` in a list). Lists and arrays
are not told apart (core.py:54-58). Arrays hold floats: those of another type of number raise in the conversions, which is not modelled. -/
inductive Nest where
  | num (x : ℝ)
  | seq (l : List Nest)
  | other

/-- What it returns: a number as it is, `double_vec`, `double_mat`, `double_cube`. -/
inductive CppArr where
  | num (x : ℝ)
  | vec (v : List ℝ)
  | mat (m : List (List ℝ))
  | cube (c : List (List (List ℝ)))
  | other

/-- One element of `cpp_vec.extend(vec)`: it must be a number. core.py:31. -/
def toNum : Nest → Out ℝ
  | .num x => .ok x
  | _ => .throws

/-- `convert_to_cpp_vec`. core.py:29-32. -/
def convert_to_cpp_vec : Nest → Out (List ℝ)
  | .seq l => l.mapM toNum
  | _ => .throws

/-- `convert_to_cpp_mat`. core.py:35-39. -/
def convert_to_cpp_mat : Nest → Out (List (List ℝ))
  | .seq l => l.mapM convert_to_cpp_vec
  | _ => .throws

/-- `convert_to_cpp_cube`. core.py:42-46. -/
def convert_to_cpp_cube : Nest → Out (List (List (List ℝ)))
  | .seq l => l.mapM convert_to_cpp_mat
  | _ => .throws

/-- `to_cpp_array` of one argument. core.py:53-66. `array[0]` and `array[0][0]` raise `IndexError` when empty. -/
def to_cpp_array : Nest → Out CppArr
  | .num x => .ok (.num x)
  | .other => .ok .other
  | .seq l => do
    let a0 ← pyget l 0
    match a0 with
    | .seq l0 => do
      let a00 ← pyget l0 0
      match a00 with
      | .seq _ => do
        let c ← convert_to_cpp_cube (.seq l)
        .ok (.cube c)
      | _ => do
        let m ← convert_to_cpp_mat (.seq l)
        .ok (.mat m)
    | _ => do
      let v ← convert_to_cpp_vec (.seq l)
      .ok (.vec v)

/-- The choice of the template by the name of the index set. inner.cpp:225-231, project.cpp:62-68 and 114-120, tensorize.cpp:126-132,
350-356 and 363-369, transform.cpp:160-166, varf.cpp:280-286, 304-333. Other names terminate the process. -/
def dispatch {β : Type} (index_set : String) (function : IndexSet → Out β) : Out β :=
  if index_set = "triangle" then function .triangle
  else if index_set = "cross" then function .cross
  else if index_set = "cross_nc" then function .cross_nc
  else if index_set = "cube" then function .cube
  else if index_set = "rectangle" then function .rectangle
  else .stop (.exit 1)

/-- The arguments and results of the Python functions: numbers, arrays with one and with two axes, sparse matrices. -/
inductive PyVal where
  | num (x : ℝ)
  | vec (v : List ℝ)
  | mat (m : List (List ℝ))
  | csr (A : Csr ℝ)

/-- `np.array(m.todense())`: scipy adds up what is stored at one position (assumed). -/
def todense (A : Csr ℝ) : List (List ℝ) :=
  (List.range A.size1).map fun i => (List.range A.size2).map fun j =>
    (((List.range A.data.length).filter fun k =>
      decide (A.indptr.getD i 0 ≤ k ∧ k < A.indptr.getD (i + 1) 0 ∧ A.indices.getD k 0 = j)).map fun k => A.data.getD k 0).sum

/-- `if isinstance(arg, ss.csr_matrix): arg = np.array(arg.todense())`. core.py:223-224, 241-242. -/
def dense : PyVal → PyVal
  | .csr A => .mat (todense A)
  | v => v

/-- A vector as a list or array. -/
def nestVec (v : List ℝ) : Nest := .seq (v.map .num)

/-- A matrix as a list of lists or an array. -/
def nestMat (m : List (List ℝ)) : Nest := .seq (m.map nestVec)

/-- The value as an argument of `to_cpp_array`. -/
def PyVal.nest : PyVal → Nest
  | .num x => .num x
  | .vec v => nestVec v
  | .mat m => nestMat m
  | .csr _ => .other

/-- The elements of `np.prod(list)`. Arrays among numbers are not of one shape, which raises `ValueError`. -/
def asNum : PyVal → Out ℝ
  | .num x => .ok x
  | _ => .throws

/-- `cpp_arrays.append(arg)` on a `double_mat`. core.py:226. -/
def appendVec : CppArr → Out (List ℝ)
  | .vec v => .ok v
  | _ => .throws

/-- `cpp_arrays.append(arg)` on a `double_cube`. core.py:226. -/
def appendMat : CppArr → Out (List (List ℝ))
  | .mat m => .ok m
  | _ => .throws

/-- What `tensorize` gets: a dictionary, in the order of its items, with the directions of a key in the order in which it is iterated
over; a list; something else. -/
inductive TensorInput where
  | dict (items : List (List ℕ × PyVal))
  | list (l : List PyVal)
  | single (v : PyVal)

/-- `convert_fun(tensorize_fun(arrays, dirs, index_set))` for matrices. core.py:246-253; module.cpp:120, 127. -/
noncomputable def tensorizeMatsDirs (sparse : Bool) (index_set : String) (arrays : List (List (List ℝ))) (dirs : List (List ℕ)) : Out PyVal :=
  open scoped Classical in
  if sparse then do
    let R : SpMat ℝ ← dispatch index_set fun s => tensorize_mats_dirs (α := ℝ) (S := DMat ℝ) s arrays dirs
    let A ← to_csr R
    .ok (.csr A)
  else do
    let R : DMat ℝ ← dispatch index_set fun s => tensorize_mats_dirs (α := ℝ) (S := DMat ℝ) s arrays dirs
    .ok (.mat R)

/-- The same for `args = [inp, index_set]`. core.py:237; module.cpp:118, 125. -/
noncomputable def tensorizeMatsAxes (sparse : Bool) (index_set : String) (arrays : List (List (List ℝ))) : Out PyVal :=
  open scoped Classical in
  if sparse then do
    let R : SpMat ℝ ← dispatch index_set fun s => tensorize_mats_axes (α := ℝ) (S := DMat ℝ) s arrays
    let A ← to_csr R
    .ok (.csr A)
  else do
    let R : DMat ℝ ← dispatch index_set fun s => tensorize_mats_axes (α := ℝ) (S := DMat ℝ) s arrays
    .ok (.mat R)

/-- The same for `args = [inp, dim, direction, index_set]`. core.py:244; module.cpp:116, 123. The choice by the name comes last in
the C++ function (tensorize.cpp:373-381). -/
noncomputable def tensorizeMatId (sparse : Bool) (index_set : String) (array : List (List ℝ)) (dim direction : ℕ) : Out PyVal :=
  open scoped Classical in
  if sparse then do
    let I : SpMat ℝ ← eye (MatOps.size1 array)
    let A : SpMat ℝ ← Convert.convert array
    let mats ← wr (List.replicate dim I) direction A
    let R : SpMat ℝ ← dispatch index_set fun s => tensorize_mats_axes (α := ℝ) s mats
    let A ← to_csr R
    .ok (.csr A)
  else do
    let I : DMat ℝ ← eye (MatOps.size1 array)
    let A : DMat ℝ ← Convert.convert array
    let mats ← wr (List.replicate dim I) direction A
    let R : DMat ℝ ← dispatch index_set fun s => tensorize_mats_axes (α := ℝ) s mats
    .ok (.mat R)

/-- `tensorize_vec_id` with the name of the index set. tensorize.cpp:145-152. -/
noncomputable def tensorizeVecId (index_set : String) (array : List ℝ) (dim direction : ℕ) : Out PyVal := do
  let cst ← wr (List.replicate array.length (0 : ℝ)) 0 1
  let vecs ← wr (List.replicate dim cst) direction array
  let r ← dispatch index_set fun s => tensorize_vecs_axes s vecs
  .ok (.vec r)

/-- The elements of a list of sparse matrices. core.py:235: arrays and numbers have no `todense`. -/
def todenseAll (l : List PyVal) : Out (List PyVal) :=
  l.mapM fun
    | .csr A => .ok (.mat (todense A))
    | _ => .throws

/-- `cpp_arrays` for vectors. core.py:215-226. -/
def dictVecs (items : List (List ℕ × PyVal)) : Out (List (List ℝ)) :=
  items.mapM fun e => do
    let a ← to_cpp_array (dense e.2).nest
    appendVec a

/-- `cpp_arrays` for matrices. core.py:215-226. -/
def dictMats (items : List (List ℕ × PyVal)) : Out (List (List (List ℝ))) :=
  items.mapM fun e => do
    let a ← to_cpp_array (dense e.2).nest
    appendMat a

/-- `tensorize` of a dictionary. core.py:204-227, 246-253. There are no overloads of `tensorize_sp` for vectors. -/
noncomputable def tensorizeDict (sparse : Bool) (index_set : String) (items : List (List ℕ × PyVal)) : Out PyVal :=
  match items.map Prod.snd with
  | [] => .throws
  | .num _ :: _ => do
    let xs ← items.mapM fun e => asNum e.2
    .ok (.num xs.prod)
  | .vec _ :: _ => do
    let arrays ← dictVecs items
    if sparse then .throws
    else do
      let r ← dispatch index_set fun s => tensorize_vecs_dirs s arrays (items.map Prod.fst)
      .ok (.vec r)
  | _ :: _ => do
    let arrays ← dictMats items
    tensorizeMatsDirs sparse index_set arrays (items.map Prod.fst)

/-- The call with `args = [inp, index_set]`. core.py:236-237, 246-253. -/
noncomputable def tensorizeArrays (sparse : Bool) (index_set : String) (l : List PyVal) : Out PyVal := do
  let a ← to_cpp_array (.seq (l.map PyVal.nest))
  match a with
  | .mat m =>
    if sparse then .throws
    else do
      let r ← dispatch index_set fun s => tensorize_vecs_axes s m
      .ok (.vec r)
  | .cube c => tensorizeMatsAxes sparse index_set c
  | _ => .throws

/-- `tensorize` of a list. core.py:229-237, 246-253. -/
noncomputable def tensorizeList (sparse : Bool) (index_set : String) (l : List PyVal) : Out PyVal :=
  match l with
  | [] => .throws
  | .num _ :: _ => do
    let xs ← l.mapM asNum
    .ok (.num xs.prod)
  | .csr _ :: _ => do
    let l ← todenseAll l
    tensorizeArrays sparse index_set l
  | _ :: _ => tensorizeArrays sparse index_set l

/-- `tensorize` of one vector or matrix. core.py:239-244, 246-253. -/
noncomputable def tensorizeSingle (sparse : Bool) (index_set : String) (v : PyVal) (dim direction : ℕ) : Out PyVal := do
  let a ← to_cpp_array (dense v).nest
  match a with
  | .vec w => if sparse then .throws else tensorizeVecId index_set w dim direction
  | .mat m => tensorizeMatId sparse index_set m dim direction
  | _ => .throws

/-- `tensorize`. core.py:201-253; module.cpp:112-128. -/
noncomputable def tensorize (inp : TensorInput) (dim direction : Option ℕ) (sparse : Bool) (index_set : String) : Out PyVal :=
  match inp with
  | .dict items => tensorizeDict sparse index_set items
  | .list l => if dim ≠ none ∨ direction ≠ none then .throws else tensorizeList sparse index_set l
  | .single v =>
    match dim, direction with
    | some dim, some direction => tensorizeSingle sparse index_set v dim direction
    | _, _ => .throws

/-- What an array of `float64` with two axes means to numpy: the element at `(i, j)` is at the offset `i * strides[0] + j * strides[1]`. -/
noncomputable def ndRows (A : NdArray ℝ) : List (List ℝ) :=
  (List.range (A.shape.getD 0 0)).map fun (i : ℕ) => (List.range (A.shape.getD 1 0)).map fun (j : ℕ) =>
    A.base.getD (A.offset + (((i : ℤ) * A.strides.getD 0 0 + (j : ℤ) * A.strides.getD 1 0) / 8).toNat) 0

/-- `project`. core.py:259-265; module.cpp:105, 108, 109. A single direction is made a list of directions before the call, so that the
overloads for one direction (module.cpp:104, 106, 107) are not used. `to_cpp` (core.py:93-104) turns lists into arrays first. -/
noncomputable def project (inp : PyVal) (dim : ℕ) (directions : ℕ ⊕ List ℕ) (index_set : String) : Out PyVal :=
  let dirs := match directions with
    | .inl d => [d]
    | .inr ds => ds
  match inp with
  | .csr A => do
    let M ← convert_to_cpp_sparse A
    let R ← dispatch index_set fun s => project_mat s M dim dirs
    let B ← to_csr R
    .ok (.csr B)
  | v => do
    let a ← to_cpp_array v.nest
    match a with
    | .vec w => do
      let r ← dispatch index_set fun s => project_vec s w dim dirs
      .ok (.vec r)
    | .mat m => do
      let R : DMat ℝ ← dispatch index_set fun s => project_mat (M := DMat ℝ) s m dim dirs
      let N ← to_numpy_mat R
      .ok (.mat (ndRows N))
    | _ => .throws

/-- `inner`. core.py:271-276; module.cpp:92. -/
noncomputable def inner (s1 s2 : Nest) (d1 d2 : List ℕ) (index_set : String) : Out (List ℝ) := do
  let a1 ← to_cpp_array s1
  let a2 ← to_cpp_array s2
  match a1, a2 with
  | .vec v1, .vec v2 => dispatch index_set fun s => Hermipy.inner s v1 v2 d1 d2
  | _, _ => .throws

/-- `if do_fourier is None: do_fourier = [0]*len(nodes)`. core.py:137-138, 151-152, 174-175. -/
def doFourier (nodes : Nest) (do_fourier : Option (List ℕ)) : Out (List ℕ) :=
  match do_fourier with
  | some l => .ok l
  | none =>
    match nodes with
    | .seq l => .ok (List.replicate l.length 0)
    | _ => .throws

/-- The arrays `fgrid, nodes, weights = to_cpp_array(fgrid, nodes, weights)` as arguments of a function of one vector and two matrices.
core.py:141, 156, 178. -/
def gridArgs (fgrid nodes weights : Nest) : Out (List ℝ × List (List ℝ) × List (List ℝ)) := do
  let a ← to_cpp_array fgrid
  let b ← to_cpp_array nodes
  let c ← to_cpp_array weights
  match a, b, c with
  | .vec v, .mat n, .mat w => .ok (v, n, w)
  | _, _, _ => .throws

/-- `integrate`. core.py:136-143; module.cpp:88. -/
noncomputable def integrate (slack : ℕ) (fgrid nodes weights : Nest) (do_fourier : Option (List ℕ)) : Out ℝ := do
  let df ← doFourier nodes do_fourier
  let args ← gridArgs fgrid nodes weights
  Hermipy.integrate slack args.1 args.2.1 args.2.2 df

/-- `transform`. core.py:149-158; module.cpp:89. -/
noncomputable def transform (slack degree : ℕ) (fgrid nodes weights : Nest) (forward : Bool) (do_fourier : Option (List ℕ))
    (index_set : String) : Out (List ℝ) := do
  let df ← doFourier nodes do_fourier
  let args ← gridArgs fgrid nodes weights
  dispatch index_set fun s => Hermipy.transform slack s degree args.1 args.2.1 args.2.2 df forward

/-- `varf`. core.py:172-181; module.cpp:98, 99. -/
noncomputable def varf (slack degree : ℕ) (fgrid nodes weights : Nest) (sparse : Bool) (do_fourier : Option (List ℕ))
    (index_set : String) : Out PyVal :=
  open scoped Classical in do
  let df ← doFourier nodes do_fourier
  let args ← gridArgs fgrid nodes weights
  if sparse then do
    let R : SpMat ℝ ← dispatch index_set fun s => Hermipy.varf slack s degree args.1 args.2.1 args.2.2 df
    let A ← to_csr R
    .ok (.csr A)
  else do
    let R : BMat ℝ ← dispatch index_set fun s => Hermipy.varf slack s degree args.1 args.2.1 args.2.2 df
    let N ← to_numpy_boost R
    .ok (.mat (ndRows N))

/-- `varfd`. core.py:187-195; module.cpp:100, 101. Arrays are taken to be contiguous in row-major order; the others are in `Converters.lean`. -/
noncomputable def varfd (dim degree direction : ℕ) (var : PyVal) (do_fourier : ℕ) (index_set : String) : Out PyVal :=
  match var with
  | .mat m => do
    let M ← to_boost_mat (freshArray m.length (m.getD 0 []).length m.flatten)
    let R : BMat ℝ ← dispatch index_set fun s => Hermipy.varfd s dim degree direction M do_fourier
    let N ← to_numpy_boost R
    .ok (.mat (ndRows N))
  | .csr A => do
    let M ← convert_to_cpp_sparse A
    let R : SpMat ℝ ← dispatch index_set fun s => Hermipy.varfd s dim degree direction M do_fourier
    let B ← to_csr R
    .ok (.csr B)
  | _ => .throws

/-- The dictionaries of the iterator functions: other names raise `ValueError`. core.py:284-292, 320-328, 336-344. -/
def lookup {β : Type} (index_set : String) (function : IndexSet → Out β) : Out β :=
  if index_set = "triangle" then function .triangle
  else if index_set = "cross" then function .cross
  else if index_set = "cross_nc" then function .cross_nc
  else if index_set = "cube" then function .cube
  else if index_set = "rectangle" then function .rectangle
  else .throws

/-- `iterator_get_degree`. core.py:283-293; module.cpp:157-161. -/
def iterator_get_degree (dim n_polys : ℕ) (index_set : String) : Out ℕ := lookup index_set fun s => s.s_get_degree dim n_polys

/-- `iterator_size`. core.py:319-329; module.cpp:163-167. -/
def iterator_size (dim degree : ℕ) (index_set : String) : Out ℕ := lookup index_set fun s => s.s_size dim degree

/-- `iterator_list_indices`. core.py:335-346; module.cpp:151-155. -/
def iterator_list_indices (dim degree : ℕ) (index_set : String) : Out (List (List ℕ)) := lookup index_set fun s => s.s_list dim degree

/-- `iterator_index`. core.py:299-313; module.cpp:148-149. -/
def iterator_index (mult_ind : List ℕ) (index_set : String) : Out ℕ :=
  if index_set = "triangle" then Triangle.s_index mult_ind
  else if index_set = "cube" then Cube.s_index mult_ind
  else .throws

end Hermipy.Core
