import Verif.Model.OperatorAlgebra

/-! # Model of the equations (`hermipy/equations.py`)

An equation is a sympy expression which is linear in the unknown function `f` and its derivatives: a list of terms as in
`Verif.Model.OperatorAlgebra`. The variables `x, y, z, w` are the coordinates `X 0, ..., X 3`, parameters are elements of `K`, `1/a` is
`inv a`, and square roots of parameters are parameters of their own. -/

namespace Hermipy
open Spec (OpTerm)

variable {K : Type} [CommRing K]

/-- The unknown function. equations.py:90, 115, 171, 260, 323, 349, 386-388. -/
def unknown (dirs : List ℕ) : List (OpTerm K) := [⟨1, List.replicate dirs.length 0⟩]

/-- `map_operator`. equations.py:26-27. -/
def map_operator [DecidableEq K] (D : ℕ → K → K) (inv : K → K) (dirs : List ℕ) (T : List (OpTerm K)) (g : K) : List (OpTerm K) :=
  collect (scaleTerms (inv g) (substTerms D dirs ⟨dirs, T⟩ (scaleTerms g (unknown dirs))))

/-- `Fokker_Planck_1d.equation`. equations.py:98-106. -/
def fokker_planck_1d (D : ℕ → K → K) (inv : K → K) (β Vp : K) : List (OpTerm K) :=
  diffTerms D [0] 0 (scaleTerms (D 0 Vp) (unknown [0]) ++ scaleTerms (inv β) (diffTerms D [0] 0 (unknown [0])))

/-- `McKean_Vlasov_white.fluxes`. equations.py:138-150. -/
def mv_white_flux (D : ℕ → K → K) (X : ℕ → K) (inv : K → K) (β θ m Vp : K) : List (OpTerm K) :=
  scaleTerms (-1) (scaleTerms (D 0 Vp) (unknown [0]) ++ scaleTerms (θ * (X 0 - m)) (unknown [0]) ++
    scaleTerms (inv β) (diffTerms D [0] 0 (unknown [0])))

/-- `McKean_Vlasov_white.equation`. equations.py:153-159. -/
def mv_white (D : ℕ → K → K) (X : ℕ → K) (inv : K → K) (β θ m Vp : K) : List (OpTerm K) :=
  scaleTerms (-1) (diffTerms D [0] 0 (mv_white_flux D X inv β θ m Vp))

/-- `McKean_Vlasov.fluxes`, the first component. equations.py:195-204, 232-234. `noise` is `coeff_noise`: the square root of `1/β`, or a number
found numerically from `Vy` (equations.py:206-230), which is not modelled. -/
def mv_flux_x (D : ℕ → K → K) (X : ℕ → K) (inv : K → K) (β γ ε θ m Vp noise : K) : List (OpTerm K) :=
  scaleTerms (-1) (scaleTerms (D 0 Vp) (unknown [0, 1]) ++ scaleTerms (θ * (X 0 - m)) (unknown [0, 1]) ++
    scaleTerms (-((1 - γ) * noise * X 1 * inv ε)) (unknown [0, 1]) ++ scaleTerms (γ ^ 2 * inv β) (diffTerms D [0, 1] 0 (unknown [0, 1])))

/-- `McKean_Vlasov.fluxes`, the second component. equations.py:235. -/
def mv_flux_y (D : ℕ → K → K) (inv : K → K) (ε Vy : K) : List (OpTerm K) :=
  scaleTerms (-(inv ε ^ 2)) (scaleTerms (D 1 Vy) (unknown [0, 1]) ++ diffTerms D [0, 1] 1 (unknown [0, 1]))

/-- `McKean_Vlasov.equation`. equations.py:239-248. -/
def mv (D : ℕ → K → K) (X : ℕ → K) (inv : K → K) (β γ ε θ m Vp Vy noise : K) : List (OpTerm K) :=
  scaleTerms (-1) (diffTerms D [0, 1] 0 (mv_flux_x D X inv β γ ε θ m Vp noise)) ++
    scaleTerms (-1) (diffTerms D [0, 1] 1 (mv_flux_y D inv ε Vy))

/-- `McKean_Vlasov_harmonic_noise.fluxes`, the first component. equations.py:283-299. `root` is the square root of `1/β`. -/
def harmonic_flux_x (D : ℕ → K → K) (X : ℕ → K) (inv : K → K) (β γ ε θ m Vp root : K) : List (OpTerm K) :=
  scaleTerms (-1) (scaleTerms (D 0 Vp) (unknown [0, 1, 2]) ++ scaleTerms (θ * (X 0 - m)) (unknown [0, 1, 2]) ++
    scaleTerms (-((1 - γ) * root * X 2 * inv ε)) (unknown [0, 1, 2]) ++
    scaleTerms (γ ^ 2 * inv β) (diffTerms D [0, 1, 2] 0 (unknown [0, 1, 2])))

/-- The second component, with `λ = 1`. equations.py:295, 300. -/
def harmonic_flux_y (D : ℕ → K → K) (X : ℕ → K) (inv : K → K) (ε : K) : List (OpTerm K) :=
  scaleTerms (-(inv ε ^ 2)) (scaleTerms (X 2) (unknown [0, 1, 2]) ++
    scaleTerms 1 (scaleTerms (X 1) (unknown [0, 1, 2]) ++ diffTerms D [0, 1, 2] 1 (unknown [0, 1, 2])))

/-- The third component. equations.py:301. -/
def harmonic_flux_z (X : ℕ → K) (inv : K → K) (ε : K) : List (OpTerm K) :=
  scaleTerms (-(inv ε ^ 2)) (scaleTerms (-X 1) (unknown [0, 1, 2]))

/-- `McKean_Vlasov_harmonic_noise.equation`. equations.py:305-314. -/
def harmonic (D : ℕ → K → K) (X : ℕ → K) (inv : K → K) (β γ ε θ m Vp root : K) : List (OpTerm K) :=
  scaleTerms (-1) (diffTerms D [0, 1, 2] 0 (harmonic_flux_x D X inv β γ ε θ m Vp root)) ++
    scaleTerms (-1) (diffTerms D [0, 1, 2] 1 (harmonic_flux_y D X inv ε)) ++
    scaleTerms (-1) (diffTerms D [0, 1, 2] 2 (harmonic_flux_z X inv ε))

/-- `Overdamped.backward`. equations.py:326-337. -/
def overdamped_backward (D : ℕ → K → K) (inv : K → K) (β V : K) : List (OpTerm K) :=
  scaleTerms (-D 0 V) (diffTerms D [0] 0 (unknown [0])) ++ scaleTerms (inv β) (diffTerms D [0] 0 (diffTerms D [0] 0 (unknown [0])))

/-- `Langevin.forward`. equations.py:352-360. -/
def langevin_forward (D : ℕ → K → K) (X : ℕ → K) (lam : K) : List (OpTerm K) :=
  scaleTerms (-X 0) (diffTerms D [0, 1] 1 (unknown [0, 1])) ++ scaleTerms (X 1) (diffTerms D [0, 1] 0 (unknown [0, 1])) ++
    scaleTerms lam (diffTerms D [0, 1] 0 (scaleTerms (X 0) (unknown [0, 1]) ++ diffTerms D [0, 1] 0 (unknown [0, 1])))

/-- `Langevin.backward`. equations.py:363-375. -/
def langevin_backward (D : ℕ → K → K) (X : ℕ → K) (inv : K → K) (γ β Vy : K) : List (OpTerm K) :=
  scaleTerms (X 0) (diffTerms D [0, 1] 1 (unknown [0, 1])) ++ scaleTerms (-D 1 Vy) (diffTerms D [0, 1] 0 (unknown [0, 1])) ++
    scaleTerms γ (scaleTerms (-X 0) (diffTerms D [0, 1] 0 (unknown [0, 1])) ++
      scaleTerms (inv β) (diffTerms D [0, 1] 0 (diffTerms D [0, 1] 0 (unknown [0, 1]))))

/-- The parameters of `Generalized_Langevin.backward` besides `β` and `Vx`: one auxiliary process if `α` is among them, two if `A11` is, and
none otherwise, when `γ` is needed. equations.py:391-412, 422-441. -/
inductive GleParams (K : Type)
  | one (lam α : K)
  | two (lam1 lam2 A11 A12 A21 A22 : K)
  | none (γ : Option K)

/-- `Σ a_i b_i`, as expressions: `Matrix.dot` of a vector of coefficients and a vector of expressions. -/
def dotTerms (a : List K) (T : List (List (OpTerm K))) : List (OpTerm K) := (List.zipWith scaleTerms a T).flatten

/-- The operator with auxiliary processes. `zs` are the coordinates of the auxiliary variables, and the unknown function has the arguments
`dirs`. equations.py:452-461. -/
def gle_aux (D : ℕ → K → K) (X : ℕ → K) (inv : K → K) (β Vx : K) (dirs zs : List ℕ) (lamb : List K) (A : List (List K)) : List (OpTerm K) :=
  let f := unknown dirs
  let dfdz := zs.map fun v => diffTerms D dirs v f
  let Az := A.map fun row => (List.zipWith (fun a v => a * X v) row zs).sum
  scaleTerms (X 1) (diffTerms D dirs 0 f) ++ scaleTerms (-D 0 Vx) (diffTerms D dirs 1 f) ++
    scaleTerms (List.zipWith (fun l v => l * X v) lamb zs).sum (diffTerms D dirs 1 f) ++
    scaleTerms (-X 1) (dotTerms lamb dfdz) ++ scaleTerms (-1) (dotTerms Az dfdz) ++
    scaleTerms (inv β) (List.zipWith (fun row dfdv => dotTerms row (zs.map fun v => diffTerms D dirs v dfdv)) A dfdz).flatten

/-- `Generalized_Langevin.backward`. equations.py:415-466. The matrix `A` is inverted (for the effective friction, which is printed), which
raises if it is singular. -/
def gle_backward [DecidableEq K] (D : ℕ → K → K) (X : ℕ → K) (inv : K → K) (β Vx : K) : GleParams K → Out (List (OpTerm K))
  | .one lam α => if α = 0 then .throws else .ok (gle_aux D X inv β Vx [0, 1, 2] [2] [lam] [[α]])
  | .two lam1 lam2 A11 A12 A21 A22 =>
    if A11 * A22 - A12 * A21 = 0 then .throws
    else .ok (gle_aux D X inv β Vx [0, 1, 2, 3] [2, 3] [lam1, lam2] [[A11, A12], [A21, A22]])
  | .none Option.none => .throws
  | .none (some γ) =>
    .ok (scaleTerms (X 1) (diffTerms D [0, 1] 0 (unknown [0, 1])) ++ scaleTerms (-D 0 Vx) (diffTerms D [0, 1] 1 (unknown [0, 1])) ++
      scaleTerms γ (scaleTerms (-X 1) (diffTerms D [0, 1] 1 (unknown [0, 1])) ++
        scaleTerms (inv β) (diffTerms D [0, 1] 1 (diffTerms D [0, 1] 1 (unknown [0, 1])))))

end Hermipy
