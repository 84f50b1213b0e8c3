import Verif.Model.QuadObject

/-! # Model of the comparisons `==` of series, forms and quadratures

Doubles are real numbers. `a and b` evaluates `b` only if `a` holds. The functions `factor` are compared by their directions and
expressions (function.py:76-78). A comparison with an object of another class raises and is left out. -/

namespace Hermipy
variable {Φ : Type}

/-- `la.norm` of a vector; `la.norm` and `spla.norm` of a matrix, of which the entries are given. -/
noncomputable def npNorm (v : List ℝ) : ℝ := √((v.map (· ^ 2)).sum)

open scoped Classical in
/-- `la.norm(...) < very_small`. series.py:30, varf.py:33, quad.py:29. -/
noncomputable def verySmall (v : List ℝ) : Bool := decide (npNorm v < 1 / 10 ^ 10)

open scoped Classical in
/-- `Series.__eq__`. series.py:108-113. -/
noncomputable def series_eq [DecidableEq Φ] (f g : HSeries Φ) : Out Bool :=
  if ¬ pos_eq f.position g.position then .ok false
  else if ¬ f.factor = g.factor then .ok false
  else broadcast (· - ·) f.coeffs g.coeffs >>= fun d => .ok (verySmall d)

/-- `self.matrix - other.matrix`. varf.py:83. With a sparse operand the shapes must be equal, as for sums. -/
def matSub (A B : HVarf Φ) : Out (List (List ℝ)) :=
  if A.is_sparse || B.is_sparse then
    if A.matrix.map List.length = B.matrix.map List.length then .ok (List.zipWith (List.zipWith (· - ·)) A.matrix B.matrix) else .throws
  else broadcast2 (· - ·) A.matrix B.matrix

open scoped Classical in
/-- `Varf.__eq__`. varf.py:78-83. -/
noncomputable def varf_eq (A B : HVarf Φ) : Out Bool :=
  if ¬ pos_eq A.position B.position then .ok false
  else matSub A B >>= fun D => .ok (verySmall D.flatten)

open scoped Classical in
/-- `Quad.__eq__`. quad.py:160-167. -/
noncomputable def quad_eq {F : Type} [DecidableEq F] (q r : HQuad F) : Out Bool :=
  if ¬ pos_eq q.position r.position then .ok false
  else if ¬ q.factor = r.factor then .ok false
  else broadcast2 (· - ·) q.nodes r.nodes >>= fun N =>
    if ¬ verySmall N.flatten then .ok false
    else broadcast2 (· - ·) q.weights r.weights >>= fun W => .ok (verySmall W.flatten)

end Hermipy
