import Verif.Model.BoostMat

/-! # Model of `cpp/src/hermite/python/converters.cpp` -/

namespace Hermipy

variable {α : Type}

/-- A numpy array of `float64`: the memory it points into, the position of its first element in it, its shape and its strides in
bytes. The type of the elements is not checked by the code; arrays of other types are not considered. -/
structure NdArray (α : Type) where
  base : List α
  offset : Nat
  shape : List Nat
  strides : List Int

/-- `data[k]`: memory outside of the array's memory is out of range. -/
def NdArray.data (A : NdArray α) (k : Nat) : Out α := rd A.base (A.offset + k)

/-- `(u_int) strides[k] / sizeof(double)`. The conversion to `u_int` is modulo 2^32. -/
def strideOf (s : Int) : Nat := (s.emod u32).toNat / 8

/-- The checks at the start of the three converters: dimension and stride of the columns. converters.cpp:83-102, 111-130, 142-162.
Returns the sizes and the stride of the rows. -/
def checkArray (input : NdArray α) : Out (Nat × Nat × Nat) :=
  match input.shape, input.strides with
  | [s0, s1], [t0, t1] => if strideOf t1 ≠ 1 then .throws else .ok (wrap32 s0, wrap32 s1, strideOf t0)
  | _, _ => .throws

/-- `to_bmat`. converters.cpp:81-107. The contiguous matrix type `cmat` is row-major like `boost_mat`. -/
def to_bmat (input : NdArray α) : Out (BMat α) := do
  let r ← checkArray input
  let data ← (List.range (r.1 * r.2.1)).mapM input.data
  .ok ⟨r.1, r.2.1, data⟩

/-- `to_boost_mat`. converters.cpp:109-138. -/
def to_boost_mat [Zero α] (input : NdArray α) : Out (BMat α) := do
  let r ← checkArray input
  forRange r.1 (MatOps.construct (M := BMat α) r.1 r.2.1) fun i result =>
    forRange r.2.1 result fun j result => do
      let x ← input.data (wrap32 (i * r.1 + j))
      MatOps.set result i j x

/-- `vec(data + first, data + last)`. -/
def NdArray.slice (A : NdArray α) (first last : Nat) : Out (List α) :=
  if last < first then .ub else (List.range' first (last - first)).mapM A.data

/-- `to_mat`. converters.cpp:140-170. -/
def to_mat (input : NdArray α) : Out (DMat α) := do
  let r ← checkArray input
  forRange r.1 (List.replicate r.1 []) fun i result => do
    let row ← input.slice (wrap32 (i * r.2.2)) (wrap32 (wrap32 (i + 1) * r.2.2))
    wr result i row

/-- A freshly allocated contiguous array. -/
def freshArray (n m : Nat) (data : List α) : NdArray α := ⟨data, 0, [n, m], [8 * m, 8]⟩

/-- `to_numpy<mat>`. converters.cpp:37-54. -/
def to_numpy_mat [Zero α] (input : DMat α) : Out (NdArray α) := do
  let r0 ← rd input 0
  let rows ← (List.range input.length).mapM fun i => do
    let r ← rd input i
    (List.range r0.length).mapM fun j => rd r j
  .ok (freshArray input.length r0.length rows.flatten)

/-- `to_numpy<boost_mat>`. converters.cpp:69-79. -/
def to_numpy_boost (input : BMat α) : Out (NdArray α) := do
  let data ← (List.range (input.size1 * input.size2)).mapM fun k => rd input.data k
  .ok (freshArray input.size1 input.size2 data)

end Hermipy
