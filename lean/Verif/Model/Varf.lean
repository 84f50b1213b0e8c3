import Verif.Model.BoostMat
import Verif.Model.Tensorize
import Verif.Model.Transform

/-!
# Model of `cpp/src/hermite/varf.cpp`

The tables of triple products have an `int` parameter; degrees whose tables do not fit into memory (2^30 and more) are not
considered, so that `int` arithmetic is exact.
-/

namespace Hermipy

/-- `c[k][i][j]`. -/
def rd3 {α : Type} (c : List (List (List α))) (k i j : Nat) : Out α := do
  let M ← rd c k
  let r ← rd M i
  rd r j

/-- `c[k][i][j] = v`. -/
def wr3 {α : Type} (c : List (List (List α))) (k i j : Nat) (v : α) : Out (List (List (List α))) := do
  let M ← rd c k
  let r ← rd M i
  let r ← wr r j v
  let M ← wr M i r
  wr c k M

/-- `c[k][i][j] += v`. -/
def add3 {α : Type} [Add α] (c : List (List (List α))) (k i j : Nat) (v : α) : Out (List (List (List α))) := do
  let x ← rd3 c k i j
  wr3 c k i j (x + v)

/-- `cube products(2*degree + 1, mat(degree + 1, vec(degree + 1, 0.)))`. varf.cpp:51, 101. -/
def zeroCube {α : Type} [Zero α] (degree : Nat) : List (List (List α)) :=
  List.replicate (2 * degree + 1) (List.replicate (degree + 1) (List.replicate (degree + 1) 0))

/-- `triple_products_1d`. varf.cpp:49-94. The differences in the loop bounds are those of naturals: within the loops
`1 ≤ i ≤ j`, so they agree with those of `int` followed by `MAX(., 0)`, `MAX(., 1)`. The index `i - 2` is out of range for
`i = 1`. -/
noncomputable def triple_products_1d (degree : Nat) : Out (List (List (List ℝ))) := do
  let products ← forFrom 0 (degree + 1) (zeroCube degree) fun i products => wr3 products i 0 i 1
  let a := (List.range (2 * degree + 1)).map REC_A
  let b := (List.range (2 * degree + 1)).map REC_B
  let products ← forFrom 1 (degree + 1) products fun i products => do
    let ai ← rd a (i - 1)
    let bi ← rd b (i - 1)
    forFrom i (degree + 1) products fun j products => do
      let products ← forFrom (max (j - i) 0) (j + i - 2 + 1) products fun k products => do
        let ak ← rd a k
        let x ← rd3 products (k + 1) (i - 1) j
        add3 products k i j (ai / ak * x)
      let products ← forFrom (max (j + 2 - i) 0) (j + i - 2 + 1) products fun k products => do
        let x ← if 2 ≤ i then rd3 products k (i - 2) j else .ub
        add3 products k i j (-bi * x)
      forFrom (max (j + 2 - i) 1) (i + j + 1) products fun k products => do
        let ak ← rd a k
        let bk ← rd b k
        let x ← rd3 products (k - 1) (i - 1) j
        add3 products k i j (ai / ak * bk * x)
  forFrom 0 (degree + 1) products fun i products =>
    forFrom i (degree + 1) products fun j products =>
      forFrom (j - i) (j + i + 1) products fun k products => do
        let x ← rd3 products k i j
        wr3 products k j i x

/-- `(p > q) - (q > p)` in `int`, then converted to `double`. varf.cpp:155-156. -/
noncomputable def cmpSign (p q : Nat) : ℝ := (if p > q then 1 else 0) - (if q > p then 1 else 0)

/-- `triple_products_fourier`. varf.cpp:99-162. -/
noncomputable def triple_products_fourier (degree : Nat) : Out (List (List (List ℝ))) := do
  let products := zeroCube degree
  if degree % 2 = 1 then .exit 1
  else do
    let max_freq := degree / 2
    let normalization := √(2 * Real.pi) * (2 * Real.pi)
    let products ← wr3 products (COS 0) (COS 0) (COS 0) (2 * Real.pi / normalization)
    forFrom 1 (max_freq + 1) products fun k2 products => do
      let normalization := √(2 * Real.pi) * Real.pi
      let products ← wr3 products (COS k2) (COS 0) (COS k2) (Real.pi / normalization)
      let products ← wr3 products (SIN k2) (COS 0) (SIN k2) (Real.pi / normalization)
      let products ← wr3 products (COS k2) (COS k2) (COS 0) (Real.pi / normalization)
      let products ← wr3 products (SIN k2) (SIN k2) (COS 0) (Real.pi / normalization)
      let products ← wr3 products (COS 0) (COS k2) (COS k2) (Real.pi / normalization)
      let products ← wr3 products (COS 0) (SIN k2) (SIN k2) (Real.pi / normalization)
      let normalization := √Real.pi * Real.pi
      let products ← wr3 products (COS (2 * k2)) (COS k2) (COS k2) (Real.pi / 2 / normalization)
      let products ← wr3 products (COS (2 * k2)) (SIN k2) (SIN k2) (-Real.pi / 2 / normalization)
      let products ← wr3 products (SIN (2 * k2)) (COS k2) (SIN k2) (Real.pi / 2 / normalization)
      let products ← wr3 products (SIN (2 * k2)) (SIN k2) (COS k2) (Real.pi / 2 / normalization)
      forFrom 1 (max_freq + 1) products fun k3 products =>
        if k2 = k3 then .ok products
        else do
          let ks := k2 + k3
          let kd := max k2 k3 - min k2 k3
          let products ← wr3 products (COS ks) (COS k2) (COS k3) (Real.pi / 2 / normalization)
          let products ← wr3 products (COS kd) (COS k2) (COS k3) (Real.pi / 2 / normalization)
          let products ← wr3 products (COS ks) (SIN k2) (SIN k3) (-Real.pi / 2 / normalization)
          let products ← wr3 products (COS kd) (SIN k2) (SIN k3) (Real.pi / 2 / normalization)
          let products ← wr3 products (SIN ks) (COS k2) (SIN k3) (Real.pi / 2 / normalization)
          let products ← wr3 products (SIN ks) (SIN k2) (COS k3) (Real.pi / 2 / normalization)
          let products ← wr3 products (SIN kd) (COS k2) (SIN k3) (Real.pi / 2 * cmpSign k3 k2 / normalization)
          wr3 products (SIN kd) (SIN k2) (COS k3) (Real.pi / 2 * cmpSign k2 k3 / normalization)

/-- `THRESHOLD`. varf.cpp:39. -/
noncomputable def THRESHOLD : ℝ := 1 / 10 ^ 12

/-- `norm` after the `MAX`. varf.cpp:191-196. -/
noncomputable def varfNorm (Hf : List ℝ) : ℝ :=
  let norm := √(Hf.foldl (fun t x => t + |x| * |x|) 0)
  if norm < 1 then 1 else norm

/-- `factors[d] = do_fourier[d] == 1 ? products_fourier[m[d]] : products_hermite[m[d]]` for `d < dim`. varf.cpp:248-252. -/
def varfFactors {α : Type} (products_hermite products_fourier : List (List (List α))) : List Nat → IVec → Out (List (DMat α))
  | _, [] => .ok []
  | [], _ :: _ => .ub
  | f :: fs, m :: ms => do
    let F ← if f = 1 then rd products_fourier m else rd products_hermite m
    let Fs ← varfFactors products_hermite products_fourier fs ms
    .ok (F :: Fs)

/-- `varf<Iterator, T>`. varf.cpp:164-269 (the code under `DEBUG` is off); dispatch 271-288. Numbers are reals; `slack` is
explained at `wrPad`. -/
noncomputable def varf {T : Type} [MatOps T ℝ] [MatArith T ℝ] [Convert (SpMat ℝ) T] (slack : Nat) (s : IndexSet) (degree : Nat)
    (input : List ℝ) (nodes weights : List (List ℝ)) (do_fourier : List Nat) : Out T := do
  let dim := nodes.length
  let n_polys ← s.s_size dim degree
  let Hf ← transform slack s (wrap32 (2 * degree)) input nodes weights do_fourier true
  let m ← s.iter dim (wrap32 (2 * degree))
  let norm := varfNorm Hf
  let products_hermite ← triple_products_1d degree
  let products_fourier ← if 1 ∈ do_fourier then triple_products_fourier degree else .ok []
  let r ← countLoop Hf.length m.reset (MatOps.construct (M := T) n_polys n_polys) fun i m result => do
    let h ← rd Hf i
    if |h| < THRESHOLD * norm then .ok result
    else do
      let factors ← varfFactors products_hermite products_fourier do_fourier m
      let it ← tensorize_mats_axes (α := ℝ) (S := DMat ℝ) (T := T) s factors
      MatArith.add result (MatArith.scale it h)
  .ok r.2

/-- `var.size1()` multi-indices, one per increment. varf.cpp:334-340. -/
def collectIndices (n : Nat) (m : Iter) : Out (Iter × List IVec) :=
  countLoop n m [] fun _ m acc => .ok (acc ++ [m])

/-- The body of the loop over the stored elements in `varfd<T>`. varf.cpp:345-372. The unsigned entry is increased or decreased by
one modulo 2^32. -/
noncomputable def varfdStep {T : Type} [MatOps T ℝ] (m : Iter) (multi_indices : List IVec) (direction do_fourier : Nat)
    (results : T) (e : (Nat × Nat) × ℝ) : Out T := do
  let m_col ← rd multi_indices e.1.2
  let md ← rd m_col direction
  if do_fourier = 0 then do
    let int_m2 ← wr m_col direction (wrap32 (md + 1))
    if !(m.has int_m2) then .ok results
    else do
      let id ← m.index int_m2
      MatOps.set results e.1.1 id (e.2 * √((wrap32 (md + 1) : Nat) : ℝ))
  else
    if md = 0 then .ok results
    else do
      let is_cos := md % 2 = 0
      let int_m2 ← wr m_col direction (if is_cos then md - 1 else wrap32 (md + 1))
      let wave_number := wrap32 (md + (if is_cos then 0 else 1)) / 2
      let id ← m.index int_m2
      MatOps.set results e.1.1 id (e.2 * (if is_cos then 1 else -1) * (wave_number : ℝ))

/-- `varfd<T>` for the ublas types. varf.cpp:290-376. The parameter `direction` indexes the multi-indices. -/
noncomputable def varfd {T : Type} [MatOps T ℝ] [Stored T ℝ] (s : IndexSet) (dim degree direction : Nat) (var : T)
    (do_fourier : Nat) : Out T := do
  let m ← s.iter dim degree
  let r ← collectIndices (MatOps.size1 var) m.reset
  let n2 ← MatOps.size2 var
  (Stored.stored var).foldlM (varfdStep r.1 r.2 direction do_fourier) (MatOps.construct (M := T) (MatOps.size1 var) n2)

/-- The body of the loop over the columns in `varfd<mat>`. varf.cpp:425-452. The factor `(!is_cos - is_cos) * wave_number` is an
`int` times an `unsigned`: it is computed modulo 2^32 before it is converted to `double`. -/
noncomputable def varfdColumn (m2 : Iter) (direction : Nat) (var : DMat ℝ) (do_fourier j : Nat) (results : DMat ℝ) :
    Out (DMat ℝ) := do
  let md ← rd m2.multi_index direction
  if md = 0 then .ok results
  else do
    let diff_m2 ← wr m2.multi_index direction
      (if do_fourier = 0 then md - 1 else if md % 2 = 0 then md - 1 else wrap32 (md + 1))
    let id ← m2.index diff_m2
    forRange var.length results fun i results => do
      let wave_number := wrap32 (md + (if md % 2 = 0 then 0 else 1)) / 2
      let factor : ℝ := if do_fourier = 1 then
          (((if md % 2 = 0 then wrap32 (u32 - wave_number) else wave_number : Nat) : ℝ))
        else √(md : ℝ)
      let row ← rd var i
      let x ← rd row id
      MatOps.set results i j (factor * x)

/-- `varfd` specialised to nested vectors. varf.cpp:378-456. -/
noncomputable def varfd_mat (s : IndexSet) (dim degree direction : Nat) (var : DMat ℝ) (do_fourier : Nat) :
    Out (DMat ℝ) := do
  let m2 ← s.iter dim degree
  let n := var.length
  let results := List.replicate n (List.replicate n (0 : ℝ))
  let r ← forRange n (m2.reset, results) fun j st => do
    let results ← varfdColumn st.1 direction var do_fourier j st.2
    let m2 ← st.1.increment
    .ok (m2, results)
  .ok r.2

end Hermipy
