import Verif.Model.RoundedVarf

/-!
# Derivative forms over a type of floating-point numbers

The loops of `varfd` in `Model/Varf.lean`, over a type whose operations may round. The conventions are those of `Model/RoundedVarf.lean`. -/

namespace Hermipy

variable {α : Type} [Doubles α]

/-- The body of the loop over the stored elements in `varfd<T>`. varf.cpp:345-372. The factor `(is_cos - !is_cos)` is an `int`, and the products
are computed from left to right, in `double`. -/
def varfdStepF {T : Type} [MatOps T α] (m : Iter) (multi_indices : List IVec) (direction do_fourier : Nat)
    (results : T) (e : (Nat × Nat) × α) : Out T := do
  let m_col ← rd multi_indices e.1.2
  let md ← rd m_col direction
  if do_fourier = 0 then do
    let int_m2 ← wr m_col direction (wrap32 (md + 1))
    if !(m.has int_m2) then .ok results
    else do
      let id ← m.index int_m2
      MatOps.set results e.1.1 id (e.2 * Floats.sqrt (Floats.ofNat (wrap32 (md + 1))))
  else
    if md = 0 then .ok results
    else do
      let is_cos := md % 2 = 0
      let int_m2 ← wr m_col direction (if is_cos then md - 1 else wrap32 (md + 1))
      let wave_number := wrap32 (md + (if is_cos then 0 else 1)) / 2
      let id ← m.index int_m2
      MatOps.set results e.1.1 id (e.2 * (if is_cos then 1 else -1) * Floats.ofNat wave_number)

/-- `varfd<T>` for the ublas types. varf.cpp:290-376. -/
def varfdF {T : Type} [MatOps T α] [Stored T α] (s : IndexSet) (dim degree direction : Nat) (var : T) (do_fourier : Nat) : Out T := do
  let m ← s.iter dim degree
  let r ← collectIndices (MatOps.size1 var) m.reset
  let n2 ← MatOps.size2 var
  (Stored.stored var).foldlM (varfdStepF r.1 r.2 direction do_fourier) (MatOps.construct (M := T) (MatOps.size1 var) n2)

/-- The body of the loop over the columns in `varfd<mat>`. varf.cpp:425-452. -/
def varfdColumnF (m2 : Iter) (direction : Nat) (var : DMat α) (do_fourier j : Nat) (results : DMat α) : Out (DMat α) := do
  let md ← rd m2.multi_index direction
  if md = 0 then .ok results
  else do
    let diff_m2 ← wr m2.multi_index direction
      (if do_fourier = 0 then md - 1 else if md % 2 = 0 then md - 1 else wrap32 (md + 1))
    let id ← m2.index diff_m2
    forRange var.length results fun i results => do
      let wave_number := wrap32 (md + (if md % 2 = 0 then 0 else 1)) / 2
      let factor : α := if do_fourier = 1 then
          Floats.ofNat (if md % 2 = 0 then wrap32 (u32 - wave_number) else wave_number)
        else Floats.sqrt (Floats.ofNat md)
      let row ← rd var i
      let x ← rd row id
      MatOps.set results i j (factor * x)

/-- `varfd` specialised to nested vectors. varf.cpp:378-456. -/
def varfd_matF (s : IndexSet) (dim degree direction : Nat) (var : DMat α) (do_fourier : Nat) : Out (DMat α) := do
  let m2 ← s.iter dim degree
  let n := var.length
  let results := List.replicate n (List.replicate n (0 : α))
  let r ← forRange n (m2.reset, results) fun j st => do
    let results ← varfdColumnF st.1 direction var do_fourier j st.2
    let m2 ← st.1.increment
    .ok (m2, results)
  .ok r.2

end Hermipy
