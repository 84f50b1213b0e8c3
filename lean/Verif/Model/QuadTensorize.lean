import Verif.Model.VarfObject

/-! # Model of `Quad.tensorize` -/

namespace Hermipy

variable {F : Type}

/-- `nodes[position.dirs.index(d)] = a.nodes[i]` and the same for the weights, where `e` is `(d, i)`. quad.py:45-47. -/
def fillSlot (dirs : List ℕ) (a : HQuad F) (slots : List (Option (List ℝ × List ℝ))) (e : ℕ × ℕ) : Out (List (Option (List ℝ × List ℝ))) := do
  let n ← pyget a.nodes e.2
  let k ← pyindex dirs e.1
  let w ← pyget a.weights e.2
  .ok (slots.set k (some (n, w)))

/-- `Quad.tensorize` of quadratures. quad.py:34-50. `none` stands for the `0` the lists are filled with at first. (If one of them were left,
`np.asarray` would raise; but each direction of the product is a direction of an argument.) The constructor expands the factor. -/
noncomputable def quad_tensorize : List (HQuad F) → Out (HQuad F)
  | [] => .throws
  | a :: as => open scoped Classical in do
    let position ← pos_tensorize ((a :: as).map HQuad.position)
    let slots ← (a :: as).foldlM (fun slots b => b.position.dirs.zipIdx.foldlM (fillSlot position.dirs b) slots)
      (List.replicate position.dirs.length none)
    let nw ← slots.mapM fun s => match s with
      | some e => .ok e
      | none => .throws
    let terms := (a :: as).foldl (fun t b => mulTerms t b.factor.terms) {0}
    if ¬ isSorted position.dirs ∨ ∃ p ∈ terms, ∃ x ∈ p.vars, x ∉ position.dirs then .throws
    else mkQuad (nw.map Prod.fst) (nw.map Prod.snd) position ⟨position.dirs, terms⟩

end Hermipy
