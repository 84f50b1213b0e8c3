import Verif.Model.Matrix
import Mathlib.Algebra.Ring.Defs

/-! # Model of `cpp/src/hermite/inner.cpp` -/

namespace Hermipy

/-- What the `while` loop of `inner` accumulates. inner.cpp:52-59. -/
structure InnerPlan where
  in_dirs1 : List Bool := []
  free_ind : IVec := []
  dirs_result : IVec := []
  dirs_inner : IVec := []
  inner_ind1 : IVec := []
  inner_ind2 : IVec := []

/-- The `while` loop of `inner`, inner.cpp:65-88, as a recursion on the two remaining lists, with counters `i`, `j`. -/
def innerPlan (i j : Nat) : IVec → IVec → InnerPlan
  | [], [] => {}
  | [], b :: bs =>
    let r := innerPlan i (j + 1) [] bs
    { r with in_dirs1 := false :: r.in_dirs1, free_ind := j :: r.free_ind, dirs_result := b :: r.dirs_result }
  | a :: as, [] =>
    let r := innerPlan (i + 1) j as []
    { r with in_dirs1 := true :: r.in_dirs1, free_ind := i :: r.free_ind, dirs_result := a :: r.dirs_result }
  | a :: as, b :: bs =>
    if a > b then
      let r := innerPlan i (j + 1) (a :: as) bs
      { r with in_dirs1 := false :: r.in_dirs1, free_ind := j :: r.free_ind, dirs_result := b :: r.dirs_result }
    else if a < b then
      let r := innerPlan (i + 1) j as (b :: bs)
      { r with in_dirs1 := true :: r.in_dirs1, free_ind := i :: r.free_ind, dirs_result := a :: r.dirs_result }
    else
      let r := innerPlan (i + 1) (j + 1) as bs
      { r with dirs_inner := a :: r.dirs_inner, inner_ind1 := i :: r.inner_ind1, inner_ind2 := j :: r.inner_ind2 }
termination_by as bs => as.length + bs.length

/-- Filling the free entries. inner.cpp:118-124, 179-185. -/
def fillFree (p : InnerPlan) (m : IVec) (ms : IVec × IVec) : Out (IVec × IVec) :=
  forRange p.dirs_result.length ms fun k ms => do
    let b ← rd p.in_dirs1 k
    let f ← rd p.free_ind k
    let x ← rd m k
    if b then do
      let m1 ← wr ms.1 f x
      .ok (m1, ms.2)
    else do
      let m2 ← wr ms.2 f x
      .ok (ms.1, m2)

/-- Filling the contracted entries. inner.cpp:144-148, 196-200. -/
def fillInner (p : InnerPlan) (m : IVec) (ms : IVec × IVec) : Out (IVec × IVec) :=
  forRange p.dirs_inner.length ms fun k ms => do
    let i1 ← rd p.inner_ind1 k
    let i2 ← rd p.inner_ind2 k
    let x ← rd m k
    let m1 ← wr ms.1 i1 x
    let m2 ← wr ms.2 i2 x
    .ok (m1, m2)

/-- `inner<Iterator>(s1, s2, dirs1, dirs2)`. inner.cpp:35-217; dispatch 219-233. The `assert`s (83, 100) are compiled out.
The conversion of the positions to `int` (126-127, 150-151, 205-206) is exact below 2^31 and is not modelled. -/
def inner {α : Type} [Mul α] [Add α] [Zero α] (s : IndexSet) (s1 s2 : List α) (dirs1 dirs2 : IVec) : Out (List α) := do
  let dim1 := dirs1.length
  let dim2 := dirs2.length
  let p := innerPlan 0 0 dirs1 dirs2
  let dim_result := p.dirs_result.length
  let dim_inner := p.dirs_inner.length
  let degree ← s.s_get_degree dim1 s1.length
  let it_m1 ← s.iter dim1 degree
  let it_m2 ← s.iter dim2 degree
  if dim_inner = 0 then do
    let m_result ← s.iter dim_result degree
    let n ← s.s_size dim_result degree
    iterLoop m_result 0 (List.replicate n (0 : α)) fun i m result => do
      let ms ← fillFree p m (List.replicate dim1 0, List.replicate dim2 0)
      let ind1 ← it_m1.index ms.1
      let ind2 ← it_m2.index ms.2
      let x ← rd s1 ind1
      let y ← rd s2 ind2
      wr result i (x * y)
  else if dim_result = 0 then do
    let m_inner ← s.iter dim_inner degree
    let r ← iterLoop m_inner.reset 0 ((List.replicate dim1 0, List.replicate dim2 0), (0 : α)) fun _ m st => do
      let ms ← fillInner p m st.1
      let ind1 ← it_m1.index ms.1
      let ind2 ← it_m2.index ms.2
      let x ← rd s1 ind1
      let y ← rd s2 ind2
      .ok (ms, st.2 + x * y)
    .ok [r.2]
  else do
    let n ← s.s_size dim_result degree
    let m_result ← s.iter dim_result degree
    let m_inner ← s.iter dim_inner degree
    let r ← iterLoop m_result 0 (m_inner, List.replicate n (0 : α)) fun i m st => do
      let ms ← fillFree p m (List.replicate dim1 0, List.replicate dim2 0)
      let r ← iterLoopS st.1.reset 0 (ms, st.2) fun _ k st => do
        let ms ← fillInner p k st.1
        if !(it_m1.has ms.1) || !(it_m2.has ms.2) then .ok (ms, st.2)
        else do
          let ind1 ← it_m1.index ms.1
          let ind2 ← it_m2.index ms.2
          let x ← rd s1 ind1
          let y ← rd s2 ind2
          let old ← rd st.2 i
          let result ← wr st.2 i (old + x * y)
          .ok (ms, result)
      .ok (r.1, r.2.2)
    .ok r.2

end Hermipy
