import Verif.Model.Rounded
import Verif.Model.Varf

/-!
# Variational forms over a type of floating-point numbers

`Model/Varf.lean` takes `double` for the real numbers. Here the same loops of varf.cpp run over a type whose operations may round, as in
`Model/Rounded.lean`; what is said there about `-Ofast` holds here as well. -/

namespace Hermipy

/-- The operations on `double` in varf.cpp and in the arithmetic of matrices. Signs are exact. `threshold` is the constant `1e-12`. Adding zero and
products with zero are exact, as they are for finite numbers; the two zeros are not distinguished. -/
class Doubles (α : Type) extends Floats α, Neg α where
  abs : α → α
  lt : α → α → Bool
  threshold : α
  add_zero : ∀ x : α, x + 0 = x
  zero_mul : ∀ x : α, 0 * x = 0
  mul_zero : ∀ x : α, x * 0 = 0

section
variable {α : Type} [Doubles α]

instance : MulZeroOneClass α where
  zero_mul := Doubles.zero_mul
  mul_zero := Doubles.mul_zero

/-- `triple_products_1d`. varf.cpp:49-94. The loop bounds are explained at `triple_products_1d`. -/
def triple_products_1dF (degree : Nat) : Out (List (List (List α))) := do
  let products ← forFrom 0 (degree + 1) (zeroCube degree) fun i products => wr3 products i 0 i 1
  let a := (List.range (2 * degree + 1)).map (recA (α := α))
  let b := (List.range (2 * degree + 1)).map (recB (α := α))
  let products ← forFrom 1 (degree + 1) products fun i products => do
    let ai ← rd a (i - 1)
    let bi ← rd b (i - 1)
    forFrom i (degree + 1) products fun j products => do
      let products ← forFrom (max (j - i) 0) (j + i - 2 + 1) products fun k products => do
        let ak ← rd a k
        let x ← rd3 products (k + 1) (i - 1) j
        add3 products k i j (ai / ak * x)
      let products ← forFrom (max (j + 2 - i) 0) (j + i - 2 + 1) products fun k products => do
        let x ← if 2 ≤ i then rd3 products k (i - 2) j else .ub
        add3 products k i j (-bi * x)
      forFrom (max (j + 2 - i) 1) (i + j + 1) products fun k products => do
        let ak ← rd a k
        let bk ← rd b k
        let x ← rd3 products (k - 1) (i - 1) j
        add3 products k i j (ai / ak * bk * x)
  forFrom 0 (degree + 1) products fun i products =>
    forFrom i (degree + 1) products fun j products =>
      forFrom (j - i) (j + i + 1) products fun k products => do
        let x ← rd3 products k i j
        wr3 products k j i x

/-- `(p > q) - (q > p)` in `int`, then converted to `double`. varf.cpp:155-156. -/
def cmpSignF (p q : Nat) : α := if p > q then 1 else if q > p then -1 else 0

/-- `triple_products_fourier`. varf.cpp:99-162. -/
def triple_products_fourierF (degree : Nat) : Out (List (List (List α))) := do
  let products := zeroCube degree
  let pi : α := Floats.pi
  let two : α := Floats.ofNat 2
  if degree % 2 = 1 then .exit 1
  else do
    let max_freq := degree / 2
    let normalization := Floats.sqrt (two * pi) * (two * pi)
    let products ← wr3 products (COS 0) (COS 0) (COS 0) (two * pi / normalization)
    forFrom 1 (max_freq + 1) products fun k2 products => do
      let normalization := Floats.sqrt (two * pi) * pi
      let products ← wr3 products (COS k2) (COS 0) (COS k2) (pi / normalization)
      let products ← wr3 products (SIN k2) (COS 0) (SIN k2) (pi / normalization)
      let products ← wr3 products (COS k2) (COS k2) (COS 0) (pi / normalization)
      let products ← wr3 products (SIN k2) (SIN k2) (COS 0) (pi / normalization)
      let products ← wr3 products (COS 0) (COS k2) (COS k2) (pi / normalization)
      let products ← wr3 products (COS 0) (SIN k2) (SIN k2) (pi / normalization)
      let normalization := Floats.sqrt pi * pi
      let products ← wr3 products (COS (2 * k2)) (COS k2) (COS k2) (pi / two / normalization)
      let products ← wr3 products (COS (2 * k2)) (SIN k2) (SIN k2) (-pi / two / normalization)
      let products ← wr3 products (SIN (2 * k2)) (COS k2) (SIN k2) (pi / two / normalization)
      let products ← wr3 products (SIN (2 * k2)) (SIN k2) (COS k2) (pi / two / normalization)
      forFrom 1 (max_freq + 1) products fun k3 products =>
        if k2 = k3 then .ok products
        else do
          let ks := k2 + k3
          let kd := max k2 k3 - min k2 k3
          let products ← wr3 products (COS ks) (COS k2) (COS k3) (pi / two / normalization)
          let products ← wr3 products (COS kd) (COS k2) (COS k3) (pi / two / normalization)
          let products ← wr3 products (COS ks) (SIN k2) (SIN k3) (-pi / two / normalization)
          let products ← wr3 products (COS kd) (SIN k2) (SIN k3) (pi / two / normalization)
          let products ← wr3 products (SIN ks) (COS k2) (SIN k3) (pi / two / normalization)
          let products ← wr3 products (SIN ks) (SIN k2) (COS k3) (pi / two / normalization)
          let products ← wr3 products (SIN kd) (COS k2) (SIN k3) (pi / two * cmpSignF k3 k2 / normalization)
          wr3 products (SIN kd) (SIN k2) (COS k3) (pi / two * cmpSignF k2 k3 / normalization)

/-- `norm` after the `MAX`. varf.cpp:191-196. -/
def varfNormF (Hf : List α) : α :=
  let norm := Floats.sqrt (Hf.foldl (fun t x => t + Doubles.abs x * Doubles.abs x) 0)
  if Doubles.lt norm 1 then 1 else norm

open Classical in
/-- `varf<Iterator, T>`. varf.cpp:164-269 (the code under `DEBUG` is off); dispatch 271-288. `slack` is explained at `wrPad`. -/
noncomputable def varfF {T : Type} [MatOps T α] [MatArith T α] [Convert (SpMat α) T] (slack : Nat) (s : IndexSet) (degree : Nat)
    (input : List α) (nodes weights : List (List α)) (do_fourier : List Nat) : Out T := do
  let dim := nodes.length
  let n_polys ← s.s_size dim degree
  let Hf ← transformF slack s (wrap32 (2 * degree)) input nodes weights do_fourier true
  let m ← s.iter dim (wrap32 (2 * degree))
  let norm := varfNormF Hf
  let products_hermite ← triple_products_1dF degree
  let products_fourier ← if 1 ∈ do_fourier then triple_products_fourierF degree else .ok []
  let r ← countLoop Hf.length m.reset (MatOps.construct (M := T) n_polys n_polys) fun i m result => do
    let h ← rd Hf i
    if Doubles.lt (Doubles.abs h) (Doubles.threshold * norm) then .ok result
    else do
      let factors ← varfFactors products_hermite products_fourier do_fourier m
      let it ← tensorize_mats_axes (α := α) (S := DMat α) (T := T) s factors
      MatArith.add result (MatArith.scale it h)
  .ok r.2

end

end Hermipy
