import Verif.Spec.RoundedVarf
import Verif.Spec.Derivative
import Verif.Spec.Discretize

/-! # Floating-point arithmetic of derivative forms and of discretisation -/

namespace Hermipy.Spec

/-- The bound for the error of the entry `(I, J)` of the form of the values `f`; `L2` lists the set for the doubled degree. -/
noncomputable def formErr (u : ℝ) (degree : ℕ) (nodes weights : List (List ℝ)) (fourier : List ℕ) (f : List ℝ) (L2 : List (List ℕ))
    (I J : List ℕ) : ℝ :=
  err u (coefOps nodes.length degree f.length + nodes.length * (19 * degree + 17) + 1 + L2.length) *
      (∑ t ∈ Finset.range L2.length, fcoefAbs nodes weights fourier f (L2.getD t []) *
        tripleProdAbs nodes.length fourier (L2.getD t []) I J) +
    dropTolAbs u (coefOps nodes.length degree f.length) L2 (fcoef nodes weights fourier f) (fcoefAbs nodes weights fourier f) *
      ∑ t ∈ Finset.range L2.length, |tripleProd nodes.length fourier (L2.getD t []) I J|

/-- The sum of the absolute values of the terms of the entry `i` of `t + D p`. -/
noncomputable def affineAbs (t : List ℝ) (D : List (List ℝ)) (p : List ℝ) (i : ℕ) : ℝ :=
  |t.getD i 0| + ∑ j ∈ Finset.range p.length, |(D.getD i []).getD j 0| * |p.getD j 0|

/-- The point `x` is `t + D p` up to the rounding errors of its computation. -/
def NearAffine (u : ℝ) (t : List ℝ) (D : List (List ℝ)) (p x : List ℝ) : Prop :=
  x.length = p.length ∧ ∀ k < p.length, |x.getD k 0 - (affine t D p).getD k 0| ≤ err u (p.length + 1) * affineAbs t D p k

end Hermipy.Spec
