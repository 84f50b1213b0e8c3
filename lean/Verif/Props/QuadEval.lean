import Verif.Lemmas.QuadEval
import Verif.Props.ToFunction
import Verif.Props.QuadIntegrate
import Verif.Props.Transform
import Mathlib.LinearAlgebra.Matrix.Notation
import Mathlib.LinearAlgebra.Matrix.Determinant.Basic

/-! # C65, C66: evaluation of series, and the round trip through the values on the grid -/

namespace Hermipy.Props
open Hermipy Spec
variable {F : Type} [Interp F] [DecidableEq F]

/-- C65. `Quad.eval` of a series with diagonal covariance and positive variances, in the directions and of the types of the quadrature, is
the list of the values of the series at the points that the nodes stand for. Mean and variances of series and quadrature may differ. Missing:
correlated covariances (`C65_correlated_false`), other types (`C65_types_false`). -/
theorem C65_eval_partial {slack : ℕ} {eig : Eig} (he : EigDiag eig) {q : HQuad F} (hq : QuadOk q) {f : HSeries (SFn F)} (hf : SeriesOk f)
    (hd : Diagonal f.position) (hdirs : f.position.dirs = q.position.dirs) (htypes : f.position.types = q.position.types)
    (hvar : ∀ i < f.position.dim, 0 < entryOf f.position.cov i i) (hfac : SFnOk f.factor) (hfd : f.factor.dirs = q.position.dirs)
    (hdeg : DegreeOk slack f.index_set f.degree q.do_fourier) :
    ∃ vals, quad_eval slack eig q f = .ok vals ∧ vals.length = (gridPoints q.nodes).length ∧
      ∀ (i : ℕ) (p : List ℝ), (gridPoints q.nodes)[i]? = some p → ∃ v, vals[i]? = some v ∧ seriesValue f (gridPoint q.position p) = .ok v := by
  obtain ⟨L, hL, hlen⟩ := hf.list
  refine ⟨_, quad_eval_ok he hq hf hd hdirs hvar hfd hfac.vars hdeg hL hlen, by simp, ?_⟩
  intro i p hi
  rw [List.getElem?_map, hi]
  refine ⟨_, rfl, ?_⟩
  rw [seriesValue, hL.list, Out.ok_bind, htypes]
  rw [mul_comm]
  rfl

omit [DecidableEq F] in
/-- C65. The types of the directions of the series play no role. -/
theorem C65_types_ignored (slack : ℕ) (eig : Eig) (q : HQuad F) (f : HSeries (SFn F)) (types : List String) :
    quad_eval slack eig q { f with position := { f.position with types := types } } = quad_eval slack eig q f := rfl

omit [Interp F] [DecidableEq F] in
theorem seriesNodes_self {q : HQuad F} (hq : QuadOk q) (hvar : ∀ i < q.position.dim, 0 < entryOf q.position.cov i i) {p : List ℝ}
    (hp : p ∈ gridPoints q.nodes) : ((List.range q.position.dim).map fun i =>
        (gridPoint q.position p (q.position.dirs.getD i 0) - q.position.mean.getD i 0) / √(entryOf q.position.cov i i)) = p := by
  have hpl := gridPoints_length hp
  apply List.ext_getElem
  · simp [hpl, hq.dim]
  · intro i h1 h2
    simp at h1
    have hi' : i < q.position.dirs.length := by rw [hq.pos.dirs]; exact h1
    have hs := (Real.sqrt_pos.2 (hvar i h1)).ne'
    have hx : q.position.dirs.idxOf (q.position.dirs.getD i 0) = i := by
      rw [show q.position.dirs.getD i 0 = q.position.dirs[i] by simp [hi'], hq.pos.nodup.idxOf_getElem]
    simp only [List.getElem_map, List.getElem_range]
    rw [gridPoint, hx]
    simp only [List.getD_eq_getElem?_getD, List.getElem?_eq_getElem h2, Option.getD_some]
    field_simp
    ring

/-- C66. If the quadrature is discretely orthonormal up to the degree in every direction and the factor vanishes at no point of the grid,
then `transform` of a function that has the values of a series on the grid gives back the series, with all its attributes. -/
theorem C66_transform {slack : ℕ} {eig : Eig} (he : EigDiag eig) {q : HQuad F} (hq : QuadOk q) {S : HSeries (SFn F)} (hS : SeriesOk S)
    (hpos : S.position = q.position) (hfac : S.factor = q.factor) (hvar : ∀ i < q.position.dim, 0 < entryOf q.position.cov i i)
    (hdeg : DegreeOk slack S.index_set S.degree q.do_fourier)
    (ho : ∀ k < q.nodes.length, Orthonormal S.degree (q.do_fourier.getD k 0) (q.nodes.getD k []) (q.weights.getD k []))
    (hnz : ∀ p ∈ gridPoints q.nodes, q.factor.value (gridPoint q.position p) ≠ 0)
    {f : SFn F} (hf : SFnOk f) (hfd : f.dirs = q.position.dirs)
    (hval : ∀ p ∈ gridPoints q.nodes, seriesValue S (gridPoint q.position p) = .ok (f.value (gridPoint q.position p))) :
    quad_transform slack eig S.degree S.index_set q f = .ok S := by
  obtain ⟨L, hL, hlen⟩ := hS.list
  have hz : Sized S.index_set q.nodes.length S.degree := by rw [hq.dim, ← hpos]; exact hS.usable.toSized
  have hn : q.nodes.length = q.position.dim := hq.dim
  have hsz := hL.size (by rw [hpos, ← hn]; exact hz.dim_pos) (by rw [hL.length, hpos, ← hn]; exact hz.card_lt)
  rw [quad_transform, quad_discretize_ok he hq hfd hf.vars, Out.ok_bind, quad_transform_grid,
    quad_discretize_ok he hq hq.factorDirs hq.factor.vars, Out.ok_bind, guardedDiv, broadcast, if_pos (by simp), Out.ok_bind]
  obtain ⟨g, hg1, hg2⟩ := C28_round_trip slack S.index_set S.degree q.nodes q.weights q.do_fourier hz hq.grid hdeg hq.weights ho L.length
    (by rw [hn, ← hpos]; exact hsz) S.coeffs hlen
  have hLn : IterOk S.index_set q.nodes.length S.degree L := by rw [hn, ← hpos]; exact hL
  rw [transform_backward_ok _ hz hq.grid hdeg hLn hlen] at hg1
  have hg : List.zipWith (fun x y : ℝ => x / (1 / 10 ^ 300 * (if y = 0 then 1 else 0) + y))
      ((gridPoints q.nodes).map fun p => f.value (gridPoint q.position p))
      ((gridPoints q.nodes).map fun p => q.factor.value (gridPoint q.position p)) = g := by
    rw [← Out.ok.inj hg1, List.zipWith_map, List.zipWith_self]
    apply List.map_congr_left
    intro p hp
    have h1 := hval p hp
    rw [seriesValue, hL.list, Out.ok_bind, hfac, hpos, seriesNodes_self hq hvar hp] at h1
    have h2 := Out.ok.inj h1
    rw [← h2, if_neg (hnz p hp), mul_zero, zero_add, hn]
    exact mul_div_cancel_left₀ _ (hnz p hp)
  rw [hg, hg2, Out.ok_bind, ← hpos, ← hfac]
  exact hS.made

omit [DecidableEq F] in
/-- C66. `transform` of the values that `eval` returns gives back the series. -/
theorem C66_round_trip {slack : ℕ} {eig : Eig} (he : EigDiag eig) {q : HQuad F} (hq : QuadOk q) {S : HSeries (SFn F)} (hS : SeriesOk S)
    (hpos : S.position = q.position) (hfac : S.factor = q.factor) (hvar : ∀ i < q.position.dim, 0 < entryOf q.position.cov i i)
    (hdeg : DegreeOk slack S.index_set S.degree q.do_fourier)
    (ho : ∀ k < q.nodes.length, Orthonormal S.degree (q.do_fourier.getD k 0) (q.nodes.getD k []) (q.weights.getD k []))
    (hnz : ∀ p ∈ gridPoints q.nodes, q.factor.value (gridPoint q.position p) ≠ 0) :
    (do let vals ← quad_eval slack eig q S; quad_transform_grid slack eig q vals S.degree S.index_set) = .ok S := by
  obtain ⟨L, hL, hlen⟩ := hS.list
  have hz : Sized S.index_set q.nodes.length S.degree := by rw [hq.dim, ← hpos]; exact hS.usable.toSized
  have hn : q.nodes.length = q.position.dim := hq.dim
  have hsz := hL.size (by rw [hpos, ← hn]; exact hz.dim_pos) (by rw [hL.length, hpos, ← hn]; exact hz.card_lt)
  rw [quad_eval_ok he hq hS (by rw [hpos]; exact hq.diag) (by rw [hpos]) (by rw [hpos]; exact hvar) (by rw [hfac]; exact hq.factorDirs)
    (by rw [hfac]; exact hq.factor.vars) hdeg hL hlen, Out.ok_bind, quad_transform_grid,
    quad_discretize_ok he hq hq.factorDirs hq.factor.vars, Out.ok_bind, guardedDiv, broadcast, if_pos (by simp), Out.ok_bind]
  obtain ⟨g, hg1, hg2⟩ := C28_round_trip slack S.index_set S.degree q.nodes q.weights q.do_fourier hz hq.grid hdeg hq.weights ho L.length
    (by rw [hn, ← hpos]; exact hsz) S.coeffs hlen
  have hLn : IterOk S.index_set q.nodes.length S.degree L := by rw [hn, ← hpos]; exact hL
  rw [transform_backward_ok _ hz hq.grid hdeg hLn hlen] at hg1
  rw [List.zipWith_map, List.zipWith_self]
  have hg : ((gridPoints q.nodes).map fun p => series S.position.dim q.do_fourier L S.coeffs ((List.range S.position.dim).map fun i =>
        (gridPoint q.position p (S.position.dirs.getD i 0) - S.position.mean.getD i 0) / √(entryOf S.position.cov i i)) *
      S.factor.value (gridPoint q.position p) / (1 / 10 ^ 300 * (if q.factor.value (gridPoint q.position p) = 0 then 1 else 0) +
        q.factor.value (gridPoint q.position p))) = g := by
    rw [← Out.ok.inj hg1]
    apply List.map_congr_left
    intro p hp
    rw [hpos, seriesNodes_self hq hvar hp, hfac, if_neg (hnz p hp), mul_zero, zero_add, hn]
    exact mul_div_cancel_right₀ _ (hnz p hp)
  rw [hg, hg2, Out.ok_bind, ← hpos, ← hfac]
  exact hS.made

/-! ## Where evaluation fails -/

/-- Factors for the examples: `(s, c)` is the sum of `c` and the coordinates in `s`. -/
noncomputable local instance : Interp ℝ where
  val s c x := c + ∑ d ∈ s, x d
  val_local s c x y h := by rw [Finset.sum_congr rfl h]

noncomputable local instance : DecidableEq ℝ := Classical.decEq ℝ

/-- One Hermite direction with the two-point Gauss rule; the mean is `μ`, the variance `v`, the factor `3 + x - μ`. -/
noncomputable def quadG (μ v : ℝ) : HQuad ℝ := ⟨[[-1, 1]], [[1 / 2, 1 / 2]], ⟨1, [0], [μ], diagMat [v], ["hermite"]⟩, ⟨[0], {{({0}, 3 - μ)}}⟩⟩

theorem quadG_ok (μ v : ℝ) : QuadOk (quadG μ v) where
  pos := ⟨rfl, rfl, rfl, by simp [quadG, diagMat], rfl, by simp [quadG]⟩
  diag := by
    have := single_diagonal 0 μ v "hermite"
    simpa [quadG, diagMat] using this
  dim := rfl
  grid := ⟨by simp [quadG], by simp [quadG], ⟨rfl, by simp [quadG, HQuad.do_fourier]⟩, by simp [quadG, gridPoints, cartesian]⟩
  weights := rfl
  uniform := by intro r hr; simp [quadG] at hr ⊢; simp [hr]
  factor := ⟨by simp [quadG], by simp [quadG]⟩
  factorDirs := rfl

/-- C65 is false for series of other types: the constant trigonometric function is evaluated to one. -/
theorem C65_types_false {eig : Eig} (he : EigDiag eig) : ∃ f : HSeries (SFn ℝ), SeriesOk f ∧ f.position.dirs = (quadG 0 1).position.dirs ∧
    f.position.mean = (quadG 0 1).position.mean ∧ f.position.cov = (quadG 0 1).position.cov ∧
    quad_eval 1 eig (quadG 0 1) f = .ok [1, 1] ∧ ∀ x, seriesValue f x = .ok (1 / √(2 * Real.pi)) ∧ 1 / √(2 * Real.pi) ≠ 1 := by
  obtain ⟨f, ok, h1, h2, h3, h4, h5⟩ := linear_series posF posF_ok rfl (⟨[0], {0}⟩ : SFn ℝ) 1 0
  have hq := quadG_ok 0 1
  obtain ⟨L, hL, hlen⟩ := ok.list
  have eL : L = [[0], [1]] := by
    have := hL.list
    rw [h4, h2] at this
    exact Out.ok.inj (this.symm.trans h5)
  have hev := quad_eval_ok (slack := 1) he hq ok (by rw [h2]; exact single_diagonal 0 0 1 "fourier") (by rw [h2]; rfl)
    (by rw [h2]; intro i hi; simp [posF] at hi; subst hi; simp [posF, entryOf]) (by rw [h3]; rfl) (by rw [h3]; simp)
    ⟨by simp [quadG, HQuad.do_fourier], fun _ => Or.inr (le_refl 1), by rw [h4]; simp⟩ hL hlen
  refine ⟨f, ok, by rw [h2]; rfl, by rw [h2]; rfl, by rw [h2]; simp [posF, quadG, diagMat], ?_, fun x => ⟨?_, ?_⟩⟩
  · rw [hev, eL, h1, h2, h3]
    simp [quadG, gridPoints, cartesian, series, Finset.sum_range_succ, basis, posF, phi, HQuad.do_fourier, herm_zero, SFn.value, productValue]
  · rw [seriesValue, h4, h2]
    simp only [posF] at *
    rw [h5, Out.ok_bind, h1, h3]
    simp [series, Finset.sum_range_succ, basis, phi, trig, SymFn.value, SFn.value, productValue]
  · intro h
    have h3 := Real.pi_gt_three
    have h1 : √(2 * Real.pi) = 1 := by
      have : √(2 * Real.pi) ≠ 0 := (Real.sqrt_pos.2 (by linarith)).ne'
      field_simp at h
      exact h.symm
    rw [Real.sqrt_eq_one] at h1
    linarith

omit [Interp F] [DecidableEq F] in
theorem entry_le_norm {n : ℕ} (A : Matrix (Fin n) (Fin n) ℝ) (i j : Fin n) : |A i j| ≤ ‖Matrix.toEuclideanCLM (n := Fin n) (𝕜 := ℝ) A‖ := by
  have h1 := (Matrix.toEuclideanCLM (n := Fin n) (𝕜 := ℝ) A).le_opNorm (EuclideanSpace.single j 1)
  have h2 := PiLp.norm_apply_le (Matrix.toEuclideanCLM (n := Fin n) (𝕜 := ℝ) A (EuclideanSpace.single j 1)) i
  have h3 : Matrix.toEuclideanCLM (n := Fin n) (𝕜 := ℝ) A (EuclideanSpace.single j 1) i = A i j := by
    rw [Matrix.ofLp_toEuclideanCLM]
    simp
  rw [h3] at h2
  simp at h1
  exact h2.trans h1

/-- Two Hermite directions with variance 2 and correlation 1/2. -/
def posC : Position := ⟨2, [0, 1], [0, 0], [[2, 1], [1, 2]], ["hermite", "hermite"]⟩

/-- C65 is false for correlated directions: `eval` raises for every series, although series and quadrature have the same position. (`eig`
returns the eigenvalues 3, 1 and the normalised eigenvectors.) -/
theorem C65_correlated_false {eig : Eig} (he : eig [[2, 1], [1, 2]] = ([3, 1], [[1 / √2, 1 / √2], [1 / √2, -(1 / √2)]])) (slack : ℕ)
    {q : HQuad F} (hq : q.position = posC) {f : HSeries (SFn F)} (hf : f.position = posC) : quad_eval slack eig q f = .throws := by
  have h2 : (√2 : ℝ) * √2 = 2 := Real.mul_self_sqrt (by norm_num)
  have h3 : (√3 : ℝ) * √3 = 3 := Real.mul_self_sqrt (by norm_num)
  have h20 : (√2 : ℝ) ≠ 0 := (Real.sqrt_pos.2 (by norm_num)).ne'
  have h30 : (√3 : ℝ) ≠ 0 := (Real.sqrt_pos.2 (by norm_num)).ne'
  have hfac : pos_factor eig posC = [[√3 / √2, 1 / √2], [√3 / √2, -(1 / √2)]] := by
    simp [pos_factor, posC, he, matMul, diagMat, List.range_succ, Finset.sum_range_succ, entryOf]
    ring
  have hM : (Matrix.of fun (i j : Fin 2) => entryOf [[√3 / √2, 1 / √2], [√3 / √2, -(1 / √2)]] i j) =
      !![√3 / √2, 1 / √2; √3 / √2, -(1 / √2)] := by
    ext i j; fin_cases i <;> fin_cases j <;> simp [entryOf]
  have hdet : (!![√3 / √2, 1 / √2; √3 / √2, -(1 / √2)] : Matrix (Fin 2) (Fin 2) ℝ).det ≠ 0 := by
    rw [Matrix.det_fin_two_of]
    have : √3 / √2 * -(1 / √2) - 1 / √2 * (√3 / √2) = -√3 := by
      field_simp
      nlinarith
    rw [this]
    exact neg_ne_zero.2 h30
  have hinv : (!![√3 / √2, 1 / √2; √3 / √2, -(1 / √2)] : Matrix (Fin 2) (Fin 2) ℝ)⁻¹ = !![√2 / (2 * √3), √2 / (2 * √3); √2 / 2, -(√2 / 2)] := by
    apply Matrix.inv_eq_right_inv
    ext i j
    fin_cases i <;> fin_cases j <;> simp [Matrix.mul_apply] <;> field_simp <;> norm_num
  have hla : laInv 2 [[√3 / √2, 1 / √2], [√3 / √2, -(1 / √2)]] = .ok [[√2 / (2 * √3), √2 / (2 * √3)], [√2 / 2, -(√2 / 2)]] := by
    rw [laInv]
    simp only [hM]
    rw [if_neg hdet, hinv]
    simp [List.finRange_succ]
  rw [quad_eval, hf, hq, hfac]
  simp only [posC, hla, Out.ok_bind]
  simp only [broadcast, broadcast2, matDot, List.mapM_cons, List.mapM_nil, List.zip_cons_cons, List.zip_nil_right, List.length_cons,
    List.length_nil, if_true, Out.ok_bind, pure, List.zipWith_cons_cons, List.zipWith_nil_left]
  rw [if_pos]
  have := entry_le_norm (Matrix.of fun (i j : Fin 2) => if i = j then (0 : ℝ) else
    entryOf [[√2 / (2 * √3) * (√3 / √2), √2 / (2 * √3) * (1 / √2)], [√2 / 2 * (√3 / √2), -(√2 / 2) * -(1 / √2)]] i j) 1 0
  rw [offDiagNorm]
  refine lt_of_lt_of_le ?_ this
  simp [entryOf]
  have : √2 / 2 * (√3 / √2) = √3 / 2 := by field_simp
  have h31 : (1 : ℝ) ≤ √3 := Real.one_le_sqrt.2 (by norm_num)
  rw [abs_of_pos (by linarith)]
  norm_num
  linarith

/-! ## The hypotheses can be met -/

theorem quadG_orthonormal : Orthonormal 1 0 [-1, 1] [1 / 2, 1 / 2] := by
  intro i j hi hj
  have hi : i = 0 ∨ i = 1 := by omega
  have hj : j = 0 ∨ j = 1 := by omega
  rcases hi with rfl | rfl <;> rcases hj with rfl | rfl <;> simp [Finset.sum_range_succ, phi, herm_zero, herm_one] <;> norm_num

/-- A series with mean 1, variance 4 and factor 2 on a quadrature with mean 0 and variance 1 meets the hypotheses of C65, a series with the
position and the factor of the quadrature those of C66. -/
example : (∃ f : HSeries (SFn ℝ), SeriesOk f ∧ Diagonal f.position ∧ f.position.dirs = (quadG 0 1).position.dirs ∧
    f.position.types = (quadG 0 1).position.types ∧ f.position.mean = [1] ∧ (∀ i < f.position.dim, 0 < entryOf f.position.cov i i) ∧
    f.coeffs = [1, 2] ∧ SFnOk f.factor ∧ f.factor.dirs = (quadG 0 1).position.dirs ∧
    DegreeOk 1 f.index_set f.degree (quadG 0 1).do_fourier) ∧
  (∃ S : HSeries (SFn ℝ), SeriesOk S ∧ S.position = (quadG 5 4).position ∧ S.factor = (quadG 5 4).factor ∧ S.coeffs = [1, 2] ∧
    ∀ p ∈ gridPoints (quadG 5 4).nodes, (quadG 5 4).factor.value (gridPoint (quadG 5 4).position p) ≠ 0) := by
  constructor
  · obtain ⟨f, ok, h1, h2, h3, h4, h5⟩ := linear_series ⟨1, [0], [1], [[4]], ["hermite"]⟩
      ⟨rfl, rfl, rfl, by simp, rfl, by simp⟩ rfl (⟨[0], {{(∅, 2)}}⟩ : SFn ℝ) 1 2
    refine ⟨f, ok, by rw [h2]; exact single_diagonal 0 1 4 _, by rw [h2]; rfl, by rw [h2]; rfl, by rw [h2], ?_, h1, ?_, by rw [h3]; rfl,
      ⟨by simp [quadG, HQuad.do_fourier], fun _ => Or.inr (le_refl 1), by rw [h4]; simp⟩⟩
    · rw [h2]
      intro i hi
      simp at hi
      subst hi
      simp [entryOf]
    · rw [h3]
      exact ⟨by simp, by simp⟩
  · obtain ⟨f, ok, h1, h2, h3, h4, h5⟩ := linear_series (quadG 5 4).position (quadG_ok 5 4).pos rfl (quadG 5 4).factor 1 2
    refine ⟨f, ok, h2, h3, h1, ?_⟩
    have h : √(4 : ℝ) = 2 := by rw [show (4 : ℝ) = 2 ^ 2 by norm_num]; exact Real.sqrt_sq (by norm_num)
    simp [quadG, gridPoints, cartesian, SFn.value, productValue, Interp.val, gridPoint, entryOf, diagMat, h]
    norm_num

end Hermipy.Props
