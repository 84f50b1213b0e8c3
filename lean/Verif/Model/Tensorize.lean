import Verif.Model.Matrix
import Mathlib.Algebra.GroupWithZero.Defs

/-! # Model of `cpp/src/hermite/tensorize.cpp` -/

namespace Hermipy

variable {α : Type}

/-- `dims[i] = dirs[i].size(); dim += dims[i]`. tensorize.cpp:89-95, 293-299. -/
def totalDim (dirs : List IVec) : Nat := (dirs.map List.length).foldl (· + ·) 0

/-- `it_mul.push_back(Iterator(dims[i], degree))`. tensorize.cpp:98-100. -/
def mkIters (s : IndexSet) (degree : Nat) : List IVec → Out (List Iter)
  | [] => .ok []
  | d :: ds => do
    let it ← s.iter d.length degree
    let its ← mkIters s degree ds
    .ok (it :: its)

/-- `tensorize<Iterator>(inputs, dirs)` for vectors. tensorize.cpp:86-122 (the checks under `DEBUG` are off); dispatch 124-134.
The running product `results[i]` is kept in a local and written at the end of the inner loop. -/
def tensorize_vecs_dirs [MulOneClass α] [Zero α] (s : IndexSet) (inputs : List (List α)) (dirs : List IVec) :
    Out (List α) := do
  let dim := totalDim dirs
  let d0 ← rd dirs 0
  let in0 ← rd inputs 0
  let degree ← s.s_get_degree d0.length in0.length
  let it_mul ← mkIters s degree dirs
  let n_polys ← s.s_size dim degree
  let results := List.replicate n_polys (0 : α)
  let m ← s.iter dim degree
  iterLoop m 0 results fun i m results => do
    let x ← forRange dirs.length (1 : α) fun j x => do
      let d ← rd dirs j
      let sub ← extract m d
      let it ← rd it_mul j
      let ind ← it.index sub
      let input ← rd inputs j
      let y ← rd input ind
      .ok (x * y)
    wr results i x

/-- `dirs[i][0] = i` for `i < dim`. tensorize.cpp:139-141, 341-343. -/
def axesDirs (dim : Nat) : List IVec := (List.range dim).map fun i => [i]

/-- `tensorize_vecs_axes`. tensorize.cpp:136-143. -/
def tensorize_vecs_axes [MulOneClass α] [Zero α] (s : IndexSet) (inputs : List (List α)) : Out (List α) :=
  tensorize_vecs_dirs s inputs (axesDirs inputs.length)

/-- `tensorize_vec_id`. tensorize.cpp:145-152. For an empty input, `degree` wraps and `cst[0] = 1` is out of range. -/
def tensorize_vec_id [MulOneClass α] [Zero α] (s : IndexSet) (input : List α) (dim dir : Nat) : Out (List α) := do
  let cst ← wr (List.replicate input.length (0 : α)) 0 1
  let vecs ← wr (List.replicate dim cst) dir input
  tensorize_vecs_axes s vecs

/-- Loop of `tensorize_dirs`. tensorize.cpp:180-194, as a recursion on the two remaining lists: compounded directions,
positions of the first list, positions of the second list. -/
def tensorize_dirs (i : Nat) : IVec → IVec → IVec × IVec × IVec
  | [], [] => ([], [], [])
  | a :: as, [] =>
    let r := tensorize_dirs (i + 1) as []
    (a :: r.1, i :: r.2.1, r.2.2)
  | [], b :: bs =>
    let r := tensorize_dirs (i + 1) [] bs
    (b :: r.1, r.2.1, i :: r.2.2)
  | a :: as, b :: bs =>
    if a < b then
      let r := tensorize_dirs (i + 1) as (b :: bs)
      (a :: r.1, i :: r.2.1, r.2.2)
    else
      let r := tensorize_dirs (i + 1) (a :: as) bs
      (b :: r.1, r.2.1, i :: r.2.2)
termination_by as bs => as.length + bs.length

/-- `base[to_ind[i]] = m[i]` for `i < n`. tensorize.cpp:245-249, 262-266. -/
def scatter (n : Nat) (to_ind m base : IVec) : Out IVec :=
  forRange n base fun i base => do
    let p ← rd to_ind i
    let x ← rd m i
    wr base p x

/-- `tensorize<Iterator>(A, B, dA, dB)` for sparse matrices. tensorize.cpp:197-283. The nested iteration over rows and over the
stored elements of a row is the iteration over `elems`. -/
def tensorize_pair [Mul α] [Zero α] (s : IndexSet) (A B : SpMat α) (dA dB : IVec) : Out (SpMat α) := do
  let sA := dA.length
  let sB := dB.length
  let dim := sA + sB
  let r := tensorize_dirs 0 dA dB
  let dA_to_ind := r.2.1
  let dB_to_ind := r.2.2
  let degree ← s.s_get_degree sA A.size1
  let n_polys ← s.s_size dim degree
  let product := MatOps.construct (M := SpMat α) n_polys n_polys
  let it_product ← s.iter dim degree
  let multi_indices_A ← s.s_list sA degree
  let multi_indices_B ← s.s_list sB degree
  A.elems.foldlM (fun product eA => do
    let m_row_A ← rd multi_indices_A eA.1.1
    let m_col_A ← rd multi_indices_A eA.1.2
    let row_base ← scatter sA dA_to_ind m_row_A (List.replicate dim 0)
    let col_base ← scatter sA dA_to_ind m_col_A (List.replicate dim 0)
    B.elems.foldlM (fun product eB => do
      let m_row_B ← rd multi_indices_B eB.1.1
      let m_col_B ← rd multi_indices_B eB.1.2
      let row ← scatter sB dB_to_ind m_row_B row_base
      let col ← scatter sB dB_to_ind m_col_B col_base
      if !(it_product.has row) || !(it_product.has col) then .ok product
      else do
        let ind_row ← it_product.index row
        let ind_col ← it_product.index col
        MatOps.set product ind_row ind_col (eA.2 * eB.2)) product) product

/-- Loop over the remaining inputs in `_tensorize_mats_dirs`. tensorize.cpp:319-332. -/
def tensorizeLoop [Mul α] [Zero α] (s : IndexSet) : SpMat α → IVec → List (SpMat α) → List IVec → Out (SpMat α)
  | result, _, [], _ => .ok result
  | _, _, _ :: _, [] => .ub
  | result, d, B :: Bs, dB :: dBs => do
    let result ← tensorize_pair s result B d dB
    tensorizeLoop s result (tensorize_dirs 0 d dB).1 Bs dBs

/-- `sp_inputs[i] = convert<spmat>(inputs[i])`. tensorize.cpp:305-307. -/
def convertAll {S T : Type} [Convert S T] : List S → Out (List T)
  | [] => .ok []
  | x :: xs => do
    let y ← Convert.convert x
    let ys ← convertAll xs
    .ok (y :: ys)

/-- `_tensorize_mats_dirs<Iterator, T, S>`. tensorize.cpp:285-335; dispatch 347-358. -/
def tensorize_mats_dirs {S T : Type} [Mul α] [Zero α] [Convert S (SpMat α)] [Convert (SpMat α) T] (s : IndexSet)
    (inputs : List S) (dirs : List IVec) : Out T := do
  let sp_inputs : List (SpMat α) ← convertAll inputs
  match sp_inputs, dirs with
  | A :: As, d :: ds => do
    let result ← tensorizeLoop s A d As ds
    Convert.convert result
  | _, _ => .ub

/-- `_tensorize_mats_axes`. tensorize.cpp:337-345; dispatch 360-371. -/
def tensorize_mats_axes {S T : Type} [Mul α] [Zero α] [Convert S (SpMat α)] [Convert (SpMat α) T] (s : IndexSet)
    (inputs : List S) : Out T :=
  tensorize_mats_dirs (α := α) s inputs (axesDirs inputs.length)

/-- `tensorize_mat_id`. tensorize.cpp:373-381. -/
def tensorize_mat_id {S T : Type} [Mul α] [Zero α] [One α] [MatOps S α] [MatOps T α] [Convert S T]
    [Convert T (SpMat α)] [Convert (SpMat α) T] (s : IndexSet) (input : S) (dim dir : Nat) : Out T := do
  let I : T ← eye (MatOps.size1 input)
  let A : T ← Convert.convert input
  let mats ← wr (List.replicate dim I) dir A
  tensorize_mats_axes (α := α) s mats

end Hermipy
