import Verif.Model.Hermite
import Verif.Model.Matrix

/-!
# Model of the sparse conversions

`cpp/src/hermite/sparse.cpp` (the conversions from and to nested vectors are in `Matrix.lean`) and `hermipy/core.py`.
-/

namespace Hermipy

variable {α : Type}

/-- A `scipy.sparse.csr_matrix`: attributes `data`, `indices`, `indptr` and `shape`. -/
structure Csr (α : Type) where
  data : List α
  indices : List Nat
  indptr : List Nat
  size1 : Nat
  size2 : Nat

/-- `row_col_val`. sparse.cpp:29-43. The row and column numbers are stored as doubles, exactly (they are below 2^32); here they
are naturals. `input.nnz()` is the number of stored elements. -/
def row_col_val [Zero α] (input : SpMat α) : Out (List Nat × List Nat × List α) := do
  let nnz := input.elems.length
  let r ← input.elems.foldlM (init := (0, List.replicate nnz 0, List.replicate nnz 0, List.replicate nnz (0 : α)))
    fun st e => do
      let rows ← wr st.2.1 st.1 e.1.1
      let cols ← wr st.2.2.1 st.1 e.1.2
      let vals ← wr st.2.2.2 st.1 e.2
      .ok (st.1 + 1, rows, cols, vals)
  .ok r.2

/-- `to_spmat(data, indices, indptr, size1, size2)`. sparse.cpp:75-86. -/
def to_spmat_csr [Zero α] (A : Csr α) : Out (SpMat α) :=
  forRange A.size1 (MatOps.construct (M := SpMat α) A.size1 A.size2) fun i result => do
    let a ← rd A.indptr i
    let b ← rd A.indptr (i + 1)
    forFrom a b result fun j result => do
      let c ← rd A.indices j
      let x ← rd A.data j
      MatOps.set result i c x

/-- `ss.csr_matrix((vals, (rows, cols)), shape=(n1, n2))`: the entries row by row, in the order given. (scipy, assumed. Afterwards
scipy sums repeated entries, which leaves matrices without repetitions as they are and changes no matrix.) -/
def coo_tocsr (rows cols : List Nat) (vals : List α) (n1 n2 : Nat) : Csr α :=
  let triples := rows.zip (cols.zip vals)
  let seg := fun i => triples.filter fun t => t.1 == i
  { data := (List.range n1).flatMap fun i => (seg i).map fun t => t.2.2
    indices := (List.range n1).flatMap fun i => (seg i).map fun t => t.2.1
    indptr := (List.range (n1 + 1)).map fun i => ((List.range i).map fun r => (seg r).length).sum
    size1 := n1
    size2 := n2 }

/-- `to_csr`. core.py:83-89. -/
def to_csr [Zero α] (sp_matrix : SpMat α) : Out (Csr α) := do
  let rcv ← row_col_val sp_matrix
  .ok (coo_tocsr rcv.1 rcv.2.1 rcv.2.2 sp_matrix.size1 sp_matrix.size2)

/-- `convert_to_cpp_sparse`. core.py:69-80. -/
def convert_to_cpp_sparse [Zero α] (A : Csr α) : Out (SpMat α) := to_spmat_csr A

end Hermipy
