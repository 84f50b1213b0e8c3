import Verif.Spec.Quad
import Verif.Spec.Triple
import Verif.Spec.Derivative
import Verif.Spec.Operator

/-! # Forms of a quadrature -/

namespace Hermipy.Spec
open Hermipy
variable {F : Type}

/-- The quadrature of `v φ_I φ_J`, where `v` is a function of the coordinates. -/
noncomputable def formEntry (q : HQuad F) (v : (ℕ → ℝ) → ℝ) (I J : List ℕ) : ℝ :=
  quadrature q.nodes q.weights fun _ x => v (gridPoint q.position x) *
    (basis q.nodes.length q.do_fourier I x * basis q.nodes.length q.do_fourier J x)

/-- The values of a function at the points of a quadrature. -/
noncomputable def gridValues (q : HQuad F) (v : (ℕ → ℝ) → ℝ) : List ℝ := (gridPoints q.nodes).map fun x => v (gridPoint q.position x)

/-- The set for `2 * degree` contains what products of two basis functions need, and no coefficient of the function is dropped as
negligible. -/
structure Exact (s : IndexSet) (degree : ℕ) (q : HQuad F) (v : (ℕ → ℝ) → ℝ) : Prop where
  closed : Closed s q.nodes.length degree q.do_fourier
  drop : ∀ L2, s.s_list q.nodes.length (2 * degree) = .ok L2 → NoDrop L2 (fcoef q.nodes q.weights q.do_fourier (gridValues q v))

/-- The basis function of `J` as a function of the coordinates: of `(x_d - mean) / standard deviation` in each direction `d`. -/
noncomputable def coordBasis (p : Position) (fourier J : List ℕ) (x : ℕ → ℝ) : ℝ :=
  ∏ i ∈ Finset.range p.dim, phi (fourier.getD i 0) (J.getD i 0) ((x (p.dirs.getD i 0) - p.mean.getD i 0) / √(entryOf p.cov i i))

/-- The partial derivative with respect to the coordinate `d`. -/
noncomputable def pd (d : ℕ) (g : (ℕ → ℝ) → ℝ) (x : ℕ → ℝ) : ℝ := deriv (fun t => g (Function.update x d t)) (x d)

/-- The partial derivative with respect to the coordinates `ds`, one after the other, the last one first. -/
noncomputable def pds (ds : List ℕ) (g : (ℕ → ℝ) → ℝ) : (ℕ → ℝ) → ℝ := ds.foldr pd g

/-- The quadrature of `v φ_I` times the derivative of `φ_J` with respect to the coordinates `ds`. -/
noncomputable def dformEntry (q : HQuad F) (v : (ℕ → ℝ) → ℝ) (ds I J : List ℕ) : ℝ :=
  quadrature q.nodes q.weights fun _ x => v (gridPoint q.position x) *
    (basis q.nodes.length q.do_fourier I x * pds ds (coordBasis q.position q.do_fourier J) (gridPoint q.position x))

/-- The variances in all directions are positive. -/
def VarPos (p : Position) : Prop := ∀ i, i < p.dim → 0 < entryOf p.cov i i

/-- In the Fourier directions among `ds`, the set contains with a sine the cosine of the same wave number. -/
def DiffClosed (s : IndexSet) (degree : ℕ) (q : HQuad F) (ds : List ℕ) : Prop :=
  ∀ d ∈ ds, d ∈ q.position.dirs → q.do_fourier.getD (q.position.dirs.idxOf d) 0 = 1 →
    PairClosed s q.position.dim degree (q.position.dirs.idxOf d)

/-- Each direction as often as its order says. -/
def orderDirs (dirs orders : List ℕ) : List ℕ := (List.zip dirs orders).flatMap fun e => List.replicate e.2 e.1

/-- The differential operator with the given terms, whose coefficients stand for the functions `ev`. -/
noncomputable def opApply {K : Type} (ev : K → (ℕ → ℝ) → ℝ) (dirs : List ℕ) (terms : List (OpTerm K)) (g : (ℕ → ℝ) → ℝ) (x : ℕ → ℝ) : ℝ :=
  (terms.map fun t => ev t.coeff x * pds (orderDirs dirs t.index) g x).sum

/-- The quadrature of `φ_I` times the operator applied to `φ_J`. -/
noncomputable def opEntry {K : Type} (q : HQuad F) (ev : K → (ℕ → ℝ) → ℝ) (terms : List (OpTerm K)) (I J : List ℕ) : ℝ :=
  quadrature q.nodes q.weights fun _ x => basis q.nodes.length q.do_fourier I x *
    opApply ev q.position.dirs terms (coordBasis q.position q.do_fourier J) (gridPoint q.position x)

/-- The quadrature of `φ_I` times `L (w φ_J) / w`, where `L` is the operator. -/
noncomputable def mappedEntry {K : Type} (q : HQuad F) (w : (ℕ → ℝ) → ℝ) (ev : K → (ℕ → ℝ) → ℝ) (terms : List (OpTerm K)) (I J : List ℕ) : ℝ :=
  quadrature q.nodes q.weights fun _ x => basis q.nodes.length q.do_fourier I x *
    (opApply ev q.position.dirs terms (fun y => w y * coordBasis q.position q.do_fourier J y) (gridPoint q.position x) /
      w (gridPoint q.position x))

end Hermipy.Spec
