import Verif.Spec.Form
import Verif.Spec.Smooth

/-! # Operators with the basis functions as eigenfunctions -/

namespace Hermipy.Spec
open Hermipy

/-- The rule integrates products of two basis functions exactly if their numbers add up to at most `N`. -/
def ExactTo (N fourier : ℕ) (nodes weights : List ℝ) : Prop :=
  ∀ i j, i + j ≤ N → ∑ t ∈ Finset.range nodes.length, weights.getD t 0 * (phi fourier i (nodes.getD t 0) * phi fourier j (nodes.getD t 0)) =
    if i = j then 1 else 0

/-- The multi-index of `d` directions with `k` in direction number `i` and 0 in the others. -/
def orderAt (d i k : ℕ) : List ℕ := (List.replicate d 0).set i k

/-- The number by which the generator of one direction multiplies the basis function with number `n`: the degree for Hermite polynomials (the
Ornstein-Uhlenbeck generator), the square of the wave number for trigonometric functions (the Laplacian). -/
def level (fourier n : ℕ) : ℕ := if fourier = 1 then ((n + 1) / 2) ^ 2 else n

/-- The generator with the rates `a`: in direction `i`, the Ornstein-Uhlenbeck generator `a_i (v_i ∂² - (x - m_i) ∂)` with the mean and the
variance of the position, or the multiple `a_i v_i ∂²` of the Laplacian when the direction is periodic. -/
noncomputable def generator (dirs : List ℕ) (p : Position) (fourier : List ℕ) (a : ℕ → ℝ) : List (OpTerm (Smooth dirs.length)) :=
  (List.range dirs.length).flatMap fun i => ⟨Smooth.const (a i * entryOf p.cov i i), orderAt dirs.length i 2⟩ ::
    if fourier.getD i 0 = 1 then [] else [⟨-(Smooth.const (a i) * (Smooth.X dirs (dirs.getD i 0) - Smooth.const (p.mean.getD i 0))), orderAt dirs.length i 1⟩]

/-- The Laplacian with a constant for each direction. -/
noncomputable def laplacian (dirs : List ℕ) (κ : ℕ → ℝ) : List (OpTerm (Smooth dirs.length)) :=
  (List.range dirs.length).map fun i => ⟨Smooth.const (κ i), orderAt dirs.length i 2⟩

/-- The eigenvalue of the basis function of `J`, with the rates `a`. -/
noncomputable def eigenvalue (fourier : List ℕ) (a : ℕ → ℝ) (J : List ℕ) (d : ℕ) : ℝ :=
  -∑ i ∈ Finset.range d, a i * level (fourier.getD i 0) (J.getD i 0)

/-- What is asked of the quadrature: the bounds of the code, a set which contains what products and derivatives need, and a rule which is exact
for the products of basis functions that occur. -/
structure Resolves (slack : ℕ) (s : IndexSet) (degree : ℕ) {F : Type} (q : HQuad F) : Prop where
  usable : UsableTo s q.position.dim degree
  variances : VarPos q.position
  sized : Sized s q.position.dim (2 * degree)
  parity : DegreeOk slack s degree q.do_fourier
  products : Closed s q.nodes.length degree q.do_fourier
  derivatives : ∀ i < q.position.dim, q.do_fourier.getD i 0 = 1 → PairClosed s q.position.dim degree i
  rule : ∀ k < q.nodes.length, ExactTo (2 * degree + 1) (q.do_fourier.getD k 0) (q.nodes.getD k []) (q.weights.getD k [])

/-- The rates are such that no coefficient of the generator is dropped as negligible. -/
structure Rates (p : Position) (fourier : List ℕ) (a : ℕ → ℝ) : Prop where
  second : ∀ i < p.dim, 1 / 10 ^ 12 ≤ |a i| * entryOf p.cov i i
  first : ∀ i < p.dim, fourier.getD i 0 ≠ 1 → 1 / 10 ^ 12 ≤ |a i| * √(entryOf p.cov i i)

end Hermipy.Spec
