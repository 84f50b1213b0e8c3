import Verif.Spec.Basis
import Verif.Spec.Coef
import Mathlib.Analysis.Calculus.Deriv.Basic

/-! # Derivatives of basis functions -/

namespace Hermipy.Spec

/-- The multi-index with the entry of direction `d` lowered by one. -/
def lower (d : Nat) (J : List Nat) : List Nat := J.set d (J.getD d 0 - 1)

/-- The multi-index with sine and cosine of direction `d` exchanged (odd entries are sines, positive even entries cosines). -/
def partner (d : Nat) (J : List Nat) : List Nat := J.set d (if J.getD d 0 % 2 = 0 then J.getD d 0 - 1 else J.getD d 0 + 1)

/-- Wave number of the entry of direction `d`, with the sign of the derivative: positive for a sine, negative for a cosine. -/
def signedWave (d : Nat) (J : List Nat) : ℤ :=
  if J.getD d 0 % 2 = 1 then ((J.getD d 0 + 1) / 2 : Nat) else -((J.getD d 0 / 2 : Nat) : ℤ)

/-- With a sine, the set contains the cosine of the same wave number. -/
def PairClosed (s : IndexSet) (dim degree d : Nat) : Prop :=
  ∀ J, InSet s dim degree J → J.getD d 0 % 2 = 1 → InSet s dim degree (partner d J)

/-- Partial derivative of the basis function of `m` with respect to the coordinate `d`, at the point `p`. -/
noncomputable def dbasis (dim : Nat) (fourier : List Nat) (d : Nat) (m : List Nat) (p : List ℝ) : ℝ :=
  deriv (fun t => basis dim fourier m (p.set d t)) (p.getD d 0)

end Hermipy.Spec
