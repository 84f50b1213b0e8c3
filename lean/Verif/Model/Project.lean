import Verif.Model.Matrix

/-! # Model of `cpp/src/hermite/project.cpp` -/

namespace Hermipy

/-- `project<Iterator>(vec, dim, dirs)`. project.cpp:35-58. The dispatch on the name of the index set (60-70) and the
one-direction variant (72-76) pass their arguments on to it. -/
def project_vec {α : Type} [Zero α] (s : IndexSet) (input : List α) (dim : Nat) (dirs : IVec) : Out (List α) := do
  let n_polys := input.length
  let dim_sub := dirs.length
  let degree ← s.s_get_degree dim n_polys
  let polys_sub ← s.s_size dim_sub degree
  let results := List.replicate polys_sub (0 : α)
  let m ← s.iter dim degree
  let m_sub ← s.iter dim_sub degree
  iterLoop m.reset 0 results fun i m results =>
    if isAligned m dirs then do
      let sub ← extract m dirs
      let ind ← m_sub.index sub
      let x ← rd input i
      wr results ind x
    else .ok results

/-- `project<Iterator, M>(mat, dim, dirs)`. project.cpp:78-109; dispatch 111-129;
the iterator `m2` is shared by all rounds of the outer loop and is part of its state. -/
def project_mat {M α : Type} [MatOps M α] (s : IndexSet) (input : M) (dim : Nat) (dirs : IVec) : Out M := do
  let n_polys := MatOps.size1 input
  let dim_sub := dirs.length
  let degree ← s.s_get_degree dim n_polys
  let polys_sub ← s.s_size dim_sub degree
  let results := MatOps.construct (M := M) polys_sub polys_sub
  let m1 ← s.iter dim degree
  let m2 ← s.iter dim degree
  let m_sub ← s.iter dim_sub degree
  let r ← iterLoop m1.reset 0 (m2, results) fun i m1 st =>
    if isAligned m1 dirs then do
      let sub1 ← extract m1 dirs
      let ind1 ← m_sub.index sub1
      iterLoopS st.1.reset 0 st.2 fun j m2 results =>
        if isAligned m2 dirs then do
          let sub2 ← extract m2 dirs
          let ind2 ← m_sub.index sub2
          let x ← MatOps.get input i j
          MatOps.set results ind1 ind2 x
        else .ok results
    else .ok st
  .ok r.2

end Hermipy
