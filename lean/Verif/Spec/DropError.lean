import Verif.Spec.Form

/-! # What dropping small coefficients may change -/

namespace Hermipy.Spec
variable {F : Type}

/-- The tolerance for the coefficients of the function `v` times the sum of the means of `φ_m φ_I φ_J` in absolute value, for the `m` of `L2`. -/
noncomputable def dropBound (q : HQuad F) (L2 : List (List ℕ)) (v : (ℕ → ℝ) → ℝ) (I J : List ℕ) : ℝ :=
  dropTol L2 (fcoef q.nodes q.weights q.do_fourier (gridValues q v)) *
    ∑ t ∈ Finset.range L2.length, |tripleProd q.nodes.length q.do_fourier (L2.getD t []) I J|

/-- The derivative of the basis function of `J` with respect to the coordinates `ds` is `c` times the basis function of `J'`. -/
def Derives (q : HQuad F) (ds J : List ℕ) (c : ℝ) (J' : List ℕ) : Prop :=
  pds ds (coordBasis q.position q.do_fourier J) = fun x => c * coordBasis q.position q.do_fourier J' x

/-- The orders of derivatives whose coefficients in the operator do not cancel. -/
def ordersOf {K : Type} [CommRing K] [DecidableEq K] (T : List (OpTerm K)) : Finset (List ℕ) := (T.map fun t => t.index).toFinset.filter fun m => coeffAt T m ≠ 0

end Hermipy.Spec
