import Verif.Spec.Correlated
import Verif.Lemmas.Rules
import Verif.Lemmas.QuadIntegrate
import Verif.Lemmas.QuadTransform
import Verif.Lemmas.Weight
import Verif.Lemmas.Gaussian
import Mathlib.Data.List.GetD
import Mathlib.Algebra.MvPolynomial.Monad
import Mathlib.MeasureTheory.Measure.Lebesgue.EqHaar

/-! # Quadratures with correlated coordinates -/

namespace Hermipy
open Spec MeasureTheory Matrix

variable {n : ℕ}

/-! ## Eigenvectors -/

theorem Spec.EigenBasis.mul {A V : Matrix (Fin n) (Fin n) ℝ} {l : Fin n → ℝ} (h : EigenBasis A l V) : A * V = V * diagonal l := by
  ext i j
  have := congrFun (h.eigen j) i
  rw [mul_diagonal]
  simp only [Pi.smul_apply, col_apply, smul_eq_mul] at this
  rw [mul_comm, ← this]
  rfl

theorem Spec.EigenBasis.orthonormal {A V : Matrix (Fin n) (Fin n) ℝ} {l : Fin n → ℝ} (h : EigenBasis A l V) (hA : A.IsSymm)
    (hl : Function.Injective l) : Vᵀ * V = 1 := by
  have e : Vᵀ * A * V = Vᵀ * V * diagonal l := by rw [Matrix.mul_assoc, h.mul, Matrix.mul_assoc]
  have s : (Vᵀ * V * diagonal l)ᵀ = Vᵀ * V * diagonal l := by
    rw [← e, transpose_mul, transpose_mul, transpose_transpose, hA.eq, Matrix.mul_assoc]
  have g : (Vᵀ * V)ᵀ = Vᵀ * V := by rw [transpose_mul, transpose_transpose]
  ext i j
  by_cases hij : i = j
  · subst hij
    rw [one_apply_eq]
    exact h.unit i
  · rw [one_apply_ne hij]
    have h1 := congrFun (congrFun s i) j
    rw [transpose_apply, mul_diagonal, mul_diagonal] at h1
    have h2 := congrFun (congrFun g i) j
    rw [transpose_apply] at h2
    rw [h2] at h1
    have : (Vᵀ * V) i j * (l i - l j) = 0 := by linear_combination h1
    rcases mul_eq_zero.1 this with h | h
    · exact h
    · exact absurd (hl (sub_eq_zero.1 h)) hij

/-- The matrix whose columns are the eigenvectors times the roots of the eigenvalues. -/
noncomputable def rootOf (l : Fin n → ℝ) (V : Matrix (Fin n) (Fin n) ℝ) : Matrix (Fin n) (Fin n) ℝ := V * diagonal fun k => √(l k)

theorem rootOf_mul {l : Fin n → ℝ} (hl : ∀ i, 0 ≤ l i) (V : Matrix (Fin n) (Fin n) ℝ) : rootOf l V * (rootOf l V)ᵀ = V * diagonal l * Vᵀ := by
  rw [rootOf, transpose_mul, diagonal_transpose]
  have : (diagonal fun k => √(l k)) * (diagonal fun k => √(l k)) = diagonal l := by
    rw [diagonal_mul_diagonal]
    congr 1
    funext i
    exact Real.mul_self_sqrt (hl i)
  rw [← this]
  simp only [Matrix.mul_assoc]

theorem Spec.EigenBasis.root {A V : Matrix (Fin n) (Fin n) ℝ} {l : Fin n → ℝ} (h : EigenBasis A l V) (hl : ∀ i, 0 ≤ l i) (ho : Vᵀ * V = 1) :
    rootOf l V * (rootOf l V)ᵀ = A := by
  rw [rootOf_mul hl, ← h.mul, Matrix.mul_assoc, mul_eq_one_comm.1 ho, Matrix.mul_one]

theorem Spec.EigenBasis.values {A V : Matrix (Fin n) (Fin n) ℝ} {l : Fin n → ℝ} (h : EigenBasis A l V) (j : Fin n) :
    l j = V.col j ⬝ᵥ A *ᵥ V.col j := by
  rw [h.eigen, dotProduct_smul, h.unit, smul_eq_mul, mul_one]

theorem Spec.EigenBasis.pos {A V : Matrix (Fin n) (Fin n) ℝ} {l : Fin n → ℝ} (h : EigenBasis A l V) (hA : PosDefinite A) (j : Fin n) :
    0 < l j := by
  rw [h.values]
  refine hA.pos _ fun h0 => ?_
  have := h.unit j
  rw [h0] at this
  simp at this

theorem eigenPoint_eq (m l : Fin n → ℝ) (V : Matrix (Fin n) (Fin n) ℝ) (z : Fin n → ℝ) : eigenPoint m l V z = m + rootOf l V *ᵥ z := by
  funext i
  simp only [eigenPoint, Pi.add_apply, Finset.sum_apply, Pi.smul_apply, col_apply, smul_eq_mul, mulVec, dotProduct, rootOf, mul_diagonal]
  congr 1
  exact Finset.sum_congr rfl fun k _ => by ring

/-! ## The attribute `factor` -/

theorem squareOf_factor {eig : Eig} {p : Position} (hp : p.dirs.length = p.dim) {l : Fin p.dirs.length → ℝ}
    {V : Matrix (Fin p.dirs.length) (Fin p.dirs.length) ℝ} (he : EigReturns p.dirs.length (eig p.cov) l V) :
    squareOf p.dirs.length (pos_factor eig p) = rootOf l V := by
  ext i j
  have hi : (i : ℕ) < p.dim := hp ▸ i.2
  have hj : (j : ℕ) < p.dim := hp ▸ j.2
  have hl := he.length
  have hs : ∀ a b : Fin p.dirs.length, entryOf ((diagMat (eig p.cov).1).map fun r => r.map fun x => √x) a b = if a = b then √(l a) else 0 := by
    intro a b
    have ha : (a : ℕ) < (eig p.cov).1.length := by rw [hl]; exact a.2
    have hb : (b : ℕ) < (eig p.cov).1.length := by rw [hl]; exact b.2
    rw [← he.values a]
    by_cases hab : a = b
    · subst hab
      simp [entryOf, diagMat, ha]
    · have : (a : ℕ) ≠ b := fun h => hab (Fin.ext h)
      simp [entryOf, diagMat, ha, hb, this, hab]
  have e : squareOf p.dirs.length (pos_factor eig p) i j =
      ∑ k ∈ Finset.range p.dim, entryOf (eig p.cov).2 i k * entryOf ((diagMat (eig p.cov).1).map fun r => r.map fun x => √x) k j := by
    simp [squareOf, pos_factor, matMul, entryOf, hi, hj]
  rw [e, ← hp, Finset.sum_range, rootOf, mul_diagonal]
  rw [Finset.sum_eq_single j]
  · rw [hs, if_pos rfl, ← he.vectors]
    rfl
  · intro k _ hk
    rw [hs, if_neg hk, mul_zero]
  · simp

theorem factor_shape {eig : Eig} {p : Position} : (pos_factor eig p).length = p.dim ∧ ∀ r ∈ pos_factor eig p, r.length = p.dim := by
  refine ⟨by simp [pos_factor, matMul], ?_⟩
  intro r hr
  simp only [pos_factor, matMul, List.mem_map] at hr
  obtain ⟨i, -, rfl⟩ := hr
  simp

section
variable {F : Type} [Interp F]

/-- The values of a function at the points of the grid. -/
theorem corr_discretize_ok {eig : Eig} {q : HQuad F} (hq : CorrQuadOk q) {l : Fin q.position.dirs.length → ℝ}
    {V : Matrix (Fin q.position.dirs.length) (Fin q.position.dirs.length) ℝ}
    (he : EigReturns q.position.dirs.length (eig q.position.cov) l V) {f : SFn F} (hd : f.dirs = q.position.dirs)
    (hv : ∀ p ∈ f.terms, ∀ a ∈ p, ∀ d ∈ a.1, d ∈ f.dirs) :
    quad_discretize eig q f = .ok ((gridPoints q.nodes).map fun p =>
      f.value (place q.position.dirs (eigenPoint (meanOf q.position) l V (node _ p)))) := by
  have hfac := squareOf_factor hq.pos.dirs he
  rw [quad_discretize, discretize_ok (g := fun v => f.value fun d => v.getD (f.dirs.idxOf d) 0) hq.grid.dim_pos hq.grid.small
    (by rw [hq.pos.mean, hq.dim]) (by rw [factor_shape.1, hq.dim]) (by intro r hr; rw [factor_shape.2 r hr, hq.dim])]
  · congr 1
    apply List.map_congr_left
    intro p hp
    have hl := gridPoints_length hp
    apply SFn.value_congr
    intro t ht a ha d hdd
    have hdm : d ∈ q.position.dirs := hd ▸ hv t ht a ha d hdd
    have hi := List.idxOf_lt_length_iff.2 hdm
    have hpl : p.length = q.position.dirs.length := by rw [hl, hq.dim, hq.pos.dirs]
    rw [place, dif_pos hi, eigenPoint_eq, ← hfac, hd, affine]
    rw [List.getD_eq_getElem _ _ (by simpa [hpl] using hi)]
    simp only [List.getElem_map, List.getElem_range, Pi.add_apply, meanOf, mulVec, dotProduct, squareOf, of_apply, node, hpl]
    congr 1
    exact Finset.sum_range _
  · intro p hp
    have hl := gridPoints_length hp
    rw [cfun, if_pos]
    intro t ht a ha d hdd
    have hdm := hv t ht a ha d hdd
    have := List.idxOf_lt_length_iff.2 hdm
    rw [affine]
    simp only [List.length_map, List.length_range]
    rw [hl, hq.dim, ← hq.pos.dirs, ← hd]
    exact this

theorem corr_integrate_ok {slack : ℕ} {eig : Eig} {q : HQuad F} (hq : CorrQuadOk q) {l : Fin q.position.dirs.length → ℝ}
    {V : Matrix (Fin q.position.dirs.length) (Fin q.position.dirs.length) ℝ}
    (he : EigReturns q.position.dirs.length (eig q.position.cov) l V) (hs : 0 ∈ q.do_fourier → 1 ≤ slack) {f : SFn F}
    (hd : f.dirs = q.position.dirs) (hv : ∀ p ∈ f.terms, ∀ a ∈ p, ∀ d ∈ a.1, d ∈ f.dirs) :
    quad_integrate slack eig q f = .ok (quadrature q.nodes q.weights fun _ p =>
      f.value (place q.position.dirs (eigenPoint (meanOf q.position) l V (node _ p)))) := by
  rw [quad_integrate, corr_discretize_ok hq he hd hv, Out.ok_bind, integrate_ok hq.grid hs hq.weights (by simp)]
  congr 1
  apply quadrature_congr
  intro i p hp
  simp [hp]

end

/-! ## The Gauss rule in several directions -/

/-- The product Gauss rule is exact for polynomials of degree less than `2n` in each variable. -/
theorem gauss_grid {N d : ℕ} {rule : List ℝ × List ℝ} (hr : GaussRule N rule) {P : MvPolynomial (Fin d) ℝ} (hP : ∀ i, P.degreeOf i < 2 * N) :
    quadrature (List.replicate d rule.1) (List.replicate d (rule.2.map fun w => w / √(2 * Real.pi))) (fun _ p => MvPolynomial.eval (node d p) P) =
      ∫ z : Fin d → ℝ, MvPolynomial.eval z P * ∏ i, gw (z i) := by
  have hW : (List.replicate d (rule.2.map fun w => w / √(2 * Real.pi))).map List.length = (List.replicate d rule.1).map List.length := by
    simp [hr.nodes, hr.weights]
  simp only [MvPolynomial.eval_eq']
  rw [quadrature_sum]
  have int : ∀ e : Fin d →₀ ℕ, Integrable fun z : Fin d → ℝ => ∏ i, (z i ^ e i * gw (z i)) := by
    intro e
    refine Integrable.fintype_prod (f := fun i : Fin d => fun y : ℝ => y ^ e i * gw y) fun i => ?_
    have := gw_integrable (Polynomial.X ^ e i)
    simpa using this
  have rhs : (fun z : Fin d → ℝ => (∑ e ∈ P.support, P.coeff e * ∏ i, z i ^ e i) * ∏ i, gw (z i)) =
      fun z => ∑ e ∈ P.support, P.coeff e * ∏ i, (z i ^ e i * gw (z i)) := by
    funext z
    rw [Finset.sum_mul]
    refine Finset.sum_congr rfl fun e _ => ?_
    rw [mul_assoc, Finset.prod_mul_distrib]
  rw [rhs, integral_finsetSum _ fun e _ => (int e).const_mul _]
  refine Finset.sum_congr rfl fun e he => ?_
  rw [quadrature_smul, integral_const_mul]
  congr 1
  rw [integral_fintype_prod_volume_eq_prod (fun i : Fin d => fun y : ℝ => y ^ e i * gw y)]
  have q := quadrature_prod hW (fun k y => y ^ (if h : k < d then e ⟨k, h⟩ else 0))
  rw [List.length_replicate] at q
  have l : (fun (_ : ℕ) (p : List ℝ) => ∏ i, node d p i ^ e i) =
      fun (_ : ℕ) (p : List ℝ) => ∏ k ∈ Finset.range d, p.getD k 0 ^ (if h : k < d then e ⟨k, h⟩ else 0) := by
    funext _ p
    rw [Finset.prod_range]
    exact Finset.prod_congr rfl fun i _ => by simp [node]
  rw [l, q, Finset.prod_range]
  refine Finset.prod_congr rfl fun i _ => ?_
  have hi : e i < 2 * N := lt_of_le_of_lt (MvPolynomial.monomial_le_degreeOf i he) (hP i)
  have g := gauss_pow hr 0 (v := 1) zero_le_one hi
  have h1 := gaussianReal_one (Polynomial.X ^ e i)
  simp only [Polynomial.eval_pow, Polynomial.eval_X, gE] at h1
  rw [← h1]
  simp only [Real.sqrt_one, one_mul, zero_add, Real.toNNReal_one] at g
  rw [← g]
  simp [hr.nodes]

theorem totalDegree_bind₁ {σ τ : Type} [Fintype σ] {f : σ → MvPolynomial τ ℝ} (hf : ∀ i, (f i).totalDegree ≤ 1) (P : MvPolynomial σ ℝ) :
    (MvPolynomial.bind₁ f P).totalDegree ≤ P.totalDegree := by
  rw [MvPolynomial.bind₁, MvPolynomial.aeval_def, MvPolynomial.eval₂_eq']
  refine (MvPolynomial.totalDegree_finsetSum _ _).trans (Finset.sup_le fun e he => ?_)
  refine (MvPolynomial.totalDegree_mul _ _).trans ?_
  rw [MvPolynomial.algebraMap_eq, MvPolynomial.totalDegree_C, zero_add]
  refine (MvPolynomial.totalDegree_finsetProd _ _).trans ?_
  refine le_trans (Finset.sum_le_sum fun i _ => (MvPolynomial.totalDegree_pow _ _).trans (Nat.mul_le_mul_left _ (hf i))) ?_
  have := MvPolynomial.le_totalDegree he
  rw [Finsupp.sum_fintype _ _ (by simp)] at this
  simpa using this

/-- The polynomial in the new coordinates. -/
noncomputable def movedPoly (m : Fin n → ℝ) (R : Matrix (Fin n) (Fin n) ℝ) (P : MvPolynomial (Fin n) ℝ) : MvPolynomial (Fin n) ℝ :=
  MvPolynomial.bind₁ (fun i => MvPolynomial.C (m i) + ∑ k, MvPolynomial.C (R i k) * MvPolynomial.X k) P

theorem movedPoly_eval (m : Fin n → ℝ) (R : Matrix (Fin n) (Fin n) ℝ) (P : MvPolynomial (Fin n) ℝ) (z : Fin n → ℝ) :
    MvPolynomial.eval z (movedPoly m R P) = MvPolynomial.eval (m + R *ᵥ z) P := by
  rw [movedPoly, ← MvPolynomial.coe_aeval_eq_eval]
  simp only [RingHom.coe_coe]
  rw [MvPolynomial.aeval_bind₁, ← MvPolynomial.coe_aeval_eq_eval]
  simp only [RingHom.coe_coe]
  congr 2
  funext i
  simp [mulVec, dotProduct]

theorem movedPoly_degree (m : Fin n → ℝ) (R : Matrix (Fin n) (Fin n) ℝ) (P : MvPolynomial (Fin n) ℝ) (i : Fin n) :
    (movedPoly m R P).degreeOf i ≤ P.totalDegree := by
  refine (MvPolynomial.degreeOf_le_totalDegree _ _).trans (totalDegree_bind₁ (fun i => ?_) P)
  refine (MvPolynomial.totalDegree_add _ _).trans (max_le (by simp) ?_)
  refine (MvPolynomial.totalDegree_finsetSum _ _).trans (Finset.sup_le fun k _ => ?_)
  refine (MvPolynomial.totalDegree_mul _ _).trans ?_
  simp

/-! ## The change of variables -/

theorem prod_gw (z : Fin n → ℝ) : ∏ i, gw (z i) = Real.exp (-(z ⬝ᵥ z / 2)) / √((2 * Real.pi) ^ n) := by
  simp only [gw]
  rw [Finset.prod_div_distrib, Finset.prod_const, Finset.card_univ, Fintype.card_fin, ← Real.exp_sum]
  congr 1
  · congr 1
    rw [dotProduct, Finset.sum_div, ← Finset.sum_neg_distrib]
    exact Finset.sum_congr rfl fun i _ => by ring
  · rw [Real.sqrt_eq_rpow, Real.sqrt_eq_rpow, ← Real.rpow_natCast, ← Real.rpow_natCast, ← Real.rpow_mul (by positivity),
      ← Real.rpow_mul (by positivity), mul_comm (1 / 2 : ℝ)]

/-- The density at a point of the new coordinates. -/
theorem normalDensityOf_moved (m : Fin n → ℝ) {R : Matrix (Fin n) (Fin n) ℝ} (hR : R.det ≠ 0) (z : Fin n → ℝ) :
    normalDensityOf m (R * Rᵀ) (m + R *ᵥ z) = |R.det|⁻¹ * ∏ i, gw (z i) := by
  have hu : IsUnit R.det := isUnit_iff_ne_zero.2 hR
  have hut : IsUnit Rᵀ.det := by rw [det_transpose]; exact hu
  rw [normalDensityOf, prod_gw, add_sub_cancel_left, det_mul, det_transpose, Matrix.mul_inv_rev]
  have e : R *ᵥ z ⬝ᵥ (Rᵀ⁻¹ * R⁻¹) *ᵥ (R *ᵥ z) = z ⬝ᵥ z := by
    rw [mulVec_mulVec, Matrix.mul_assoc, nonsing_inv_mul _ hu, Matrix.mul_one, dotProduct_comm, dotProduct_mulVec, ← mulVec_transpose, mulVec_mulVec,
      mul_nonsing_inv _ hut, one_mulVec]
  rw [e, Real.sqrt_mul (by positivity), Real.sqrt_mul_self_eq_abs]
  field_simp

/-- Integrals against the normal distribution with covariance `R Rᵀ`. -/
theorem integral_moved (m : Fin n → ℝ) {R : Matrix (Fin n) (Fin n) ℝ} (hR : R.det ≠ 0) {g : (Fin n → ℝ) → ℝ} (hg : Continuous g) :
    ∫ x, g x * normalDensityOf m (R * Rᵀ) x = ∫ z, g (m + R *ᵥ z) * ∏ i, gw (z i) := by
  have hm : Measurable (toLin' R) := (LinearMap.continuous_on_pi _).measurable
  have hc : Continuous fun x => g x * normalDensityOf m (R * Rᵀ) x := by
    refine hg.mul ?_
    unfold normalDensityOf
    refine Continuous.div_const ?_ _
    fun_prop
  rw [← integral_add_left_eq_self (fun x => g x * normalDensityOf m (R * Rᵀ) x) m]
  have h := integral_map (μ := volume) hm.aemeasurable (f := fun y : Fin n → ℝ => g (m + y) * normalDensityOf m (R * Rᵀ) (m + y))
    (hc.comp (continuous_const.add continuous_id)).aestronglyMeasurable
  rw [Real.map_matrix_volume_pi_eq_smul_volume_pi hR, integral_smul_measure, ENNReal.toReal_ofReal (abs_nonneg _)] at h
  have hR' : |R.det| ≠ 0 := abs_ne_zero.2 hR
  have e : ∀ z, g (m + toLin' R z) * normalDensityOf m (R * Rᵀ) (m + toLin' R z) = |R.det|⁻¹ * (g (m + R *ᵥ z) * ∏ i, gw (z i)) := by
    intro z
    rw [toLin'_apply, normalDensityOf_moved m hR]
    ring
  simp only [e] at h
  rw [integral_const_mul, abs_inv, smul_eq_mul] at h
  exact mul_left_cancel₀ (inv_ne_zero hR') h

/-! ## Moments -/

theorem gE_pow_zero : ∫ y : ℝ, y ^ 0 * gw y = 1 := by
  have := gE_one
  simpa [gE] using this

theorem gE_pow_one : ∫ y : ℝ, y ^ 1 * gw y = 0 := by
  have := gE_stein 1
  simpa [gE] using this

theorem gE_pow_two : ∫ y : ℝ, y ^ 2 * gw y = 1 := by
  have := gE_stein Polynomial.X
  rw [Polynomial.derivative_X, gE_one] at this
  rw [← this, gE]
  congr 1
  funext y
  rw [Polynomial.eval_mul, Polynomial.eval_X]
  ring

theorem integral_monomial (e : Fin n → ℕ) : ∫ z : Fin n → ℝ, (∏ i, z i ^ e i) * ∏ i, gw (z i) = ∏ i, ∫ y : ℝ, y ^ e i * gw y := by
  rw [← integral_fintype_prod_volume_eq_prod (fun i : Fin n => fun y : ℝ => y ^ e i * gw y)]
  congr 1
  funext z
  rw [Finset.prod_mul_distrib]

theorem integrable_poly (P : MvPolynomial (Fin n) ℝ) : Integrable fun z : Fin n → ℝ => MvPolynomial.eval z P * ∏ i, gw (z i) := by
  have rhs : (fun z : Fin n → ℝ => MvPolynomial.eval z P * ∏ i, gw (z i)) = fun z => ∑ e ∈ P.support, P.coeff e * ∏ i, (z i ^ e i * gw (z i)) := by
    funext z
    rw [MvPolynomial.eval_eq', Finset.sum_mul]
    refine Finset.sum_congr rfl fun e _ => ?_
    rw [mul_assoc, Finset.prod_mul_distrib]
  rw [rhs]
  refine integrable_finsetSum _ fun e _ => Integrable.const_mul ?_ _
  refine Integrable.fintype_prod (f := fun i : Fin n => fun y : ℝ => y ^ e i * gw y) fun i => ?_
  have := gw_integrable (Polynomial.X ^ e i)
  simpa using this

theorem moment_zero : ∫ z : Fin n → ℝ, ∏ i, gw (z i) = 1 := by
  have := integral_monomial (n := n) fun _ => 0
  simp only [pow_zero, Finset.prod_const_one, one_mul] at this
  rw [this]
  have h := gE_pow_zero
  simp only [pow_zero, one_mul] at h
  simp [h]

theorem moment_one (k : Fin n) : ∫ z : Fin n → ℝ, z k * ∏ i, gw (z i) = 0 := by
  have := integral_monomial (n := n) fun i => if i = k then 1 else 0
  have e : ∀ z : Fin n → ℝ, ∏ i, z i ^ (if i = k then 1 else 0) = z k := by
    intro z
    rw [Finset.prod_eq_single k] <;> simp +contextual
  simp only [e] at this
  rw [this]
  refine Finset.prod_eq_zero (Finset.mem_univ k) ?_
  rw [if_pos rfl]
  exact gE_pow_one

theorem moment_two (k j : Fin n) : ∫ z : Fin n → ℝ, z k * z j * ∏ i, gw (z i) = if k = j then 1 else 0 := by
  have := integral_monomial (n := n) fun i => (if i = k then 1 else 0) + if i = j then 1 else 0
  have e : ∀ z : Fin n → ℝ, ∏ i, z i ^ ((if i = k then 1 else 0) + if i = j then 1 else 0) = z k * z j := by
    intro z
    simp only [pow_add]
    rw [Finset.prod_mul_distrib]
    congr 1
    · rw [Finset.prod_eq_single k] <;> simp +contextual
    · rw [Finset.prod_eq_single j] <;> simp +contextual
  simp only [e] at this
  rw [this]
  by_cases h : k = j
  · subst h
    rw [if_pos rfl]
    refine Finset.prod_eq_one fun i _ => ?_
    by_cases hi : i = k
    · simp only [hi, if_true]
      exact gE_pow_two
    · simp only [hi, if_false]
      exact gE_pow_zero
  · rw [if_neg h]
    refine Finset.prod_eq_zero (Finset.mem_univ k) ?_
    simp only [if_true, h, if_false]
    exact gE_pow_one

/-- Mean and covariance in the new coordinates. -/
theorem moved_mean (R : Matrix (Fin n) (Fin n) ℝ) (i : Fin n) : ∫ z : Fin n → ℝ, (R *ᵥ z) i * ∏ i, gw (z i) = 0 := by
  have e : (fun z : Fin n → ℝ => (R *ᵥ z) i * ∏ i, gw (z i)) = fun z => ∑ k, R i k * (z k * ∏ i, gw (z i)) := by
    funext z
    rw [mulVec, dotProduct, Finset.sum_mul]
    exact Finset.sum_congr rfl fun k _ => by ring
  rw [e, integral_finsetSum]
  · refine Finset.sum_eq_zero fun k _ => ?_
    rw [integral_const_mul, moment_one, mul_zero]
  · intro k _
    have := integrable_poly (n := n) (MvPolynomial.X k)
    simp only [MvPolynomial.eval_X] at this
    exact this.const_mul _

theorem moved_cov (R : Matrix (Fin n) (Fin n) ℝ) (i j : Fin n) :
    ∫ z : Fin n → ℝ, (R *ᵥ z) i * (R *ᵥ z) j * ∏ i, gw (z i) = (R * Rᵀ) i j := by
  have e : (fun z : Fin n → ℝ => (R *ᵥ z) i * (R *ᵥ z) j * ∏ i, gw (z i)) =
      fun z => ∑ k, ∑ t, R i k * R j t * (z k * z t * ∏ i, gw (z i)) := by
    funext z
    rw [mulVec, dotProduct, mulVec, dotProduct, Finset.sum_mul_sum, Finset.sum_mul]
    refine Finset.sum_congr rfl fun k _ => ?_
    rw [Finset.sum_mul]
    exact Finset.sum_congr rfl fun t _ => by ring
  have int : ∀ k t : Fin n, Integrable fun z : Fin n → ℝ => R i k * R j t * (z k * z t * ∏ i, gw (z i)) := by
    intro k t
    have := integrable_poly (n := n) (MvPolynomial.X k * MvPolynomial.X t)
    simp only [map_mul, MvPolynomial.eval_X] at this
    exact this.const_mul _
  rw [e, integral_finsetSum _ fun k _ => integrable_finsetSum _ fun t _ => int k t, mul_apply]
  refine Finset.sum_congr rfl fun k _ => ?_
  rw [integral_finsetSum _ fun t _ => int k t, Finset.sum_eq_single k]
  · rw [integral_const_mul, moment_two, if_pos rfl, mul_one, transpose_apply]
  · intro t _ ht
    rw [integral_const_mul, moment_two, if_neg (Ne.symm ht), mul_zero]
  · simp

/-! ## Coefficients -/

/-- The normalised Hermite polynomial of degree `m` in the variable `i`. -/
noncomputable def hermVar (i : Fin n) (m : ℕ) : MvPolynomial (Fin n) ℝ :=
  MvPolynomial.C (1 / √(m.factorial : ℝ)) * Polynomial.aeval (MvPolynomial.X i : MvPolynomial (Fin n) ℝ) (He m)

theorem hermVar_eval (i : Fin n) (m : ℕ) (z : Fin n → ℝ) : MvPolynomial.eval z (hermVar i m) = herm m (z i) := by
  rw [hermVar, map_mul, MvPolynomial.eval_C, herm_eq]
  have : MvPolynomial.eval z (Polynomial.aeval (MvPolynomial.X i : MvPolynomial (Fin n) ℝ) (He m)) = (He m).eval (z i) := by
    rw [Polynomial.aeval_eq_sum_range, map_sum, Polynomial.eval_eq_sum_range]
    refine Finset.sum_congr rfl fun t _ => ?_
    rw [MvPolynomial.smul_eval, map_pow, MvPolynomial.eval_X]
  rw [this]
  ring

theorem hermVar_degree (i j : Fin n) (m : ℕ) : (hermVar i m).degreeOf j ≤ if j = i then m else 0 := by
  refine (MvPolynomial.degreeOf_C_mul_le _ _ _).trans ?_
  rw [Polynomial.aeval_eq_sum_range]
  refine (MvPolynomial.degreeOf_sum_le _ _ _).trans (Finset.sup_le fun t ht => ?_)
  rw [MvPolynomial.smul_eq_C_mul]
  refine (MvPolynomial.degreeOf_C_mul_le _ _ _).trans ((MvPolynomial.degreeOf_pow_le _ _ _).trans ?_)
  rw [MvPolynomial.degreeOf_X]
  rw [natDegree_He] at ht
  have := Finset.mem_range.1 ht
  split <;> omega

theorem gauss_grid_herm {N d : ℕ} {rule : List ℝ × List ℝ} (hr : GaussRule N rule) {P : MvPolynomial (Fin d) ℝ} {I : Fin d → ℕ}
    (hP : ∀ i, P.degreeOf i + I i < 2 * N) :
    quadrature (List.replicate d rule.1) (List.replicate d (rule.2.map fun w => w / √(2 * Real.pi)))
        (fun _ p => MvPolynomial.eval (node d p) P * ∏ k, herm (I k) (node d p k)) =
      ∫ z : Fin d → ℝ, MvPolynomial.eval z P * (∏ k, herm (I k) (z k)) * ∏ i, gw (z i) := by
  have e : ∀ z : Fin d → ℝ, MvPolynomial.eval z (P * ∏ k, hermVar k (I k)) = MvPolynomial.eval z P * ∏ k, herm (I k) (z k) := by
    intro z
    rw [map_mul, map_prod]
    congr 1
    exact Finset.prod_congr rfl fun k _ => hermVar_eval _ _ _
  have := gauss_grid hr (P := P * ∏ k, hermVar k (I k)) ?_
  · simp only [e] at this
    exact this
  · intro i
    refine lt_of_le_of_lt (MvPolynomial.degreeOf_mul_le _ _ _) (lt_of_le_of_lt (Nat.add_le_add_left ?_ _) (hP i))
    refine (MvPolynomial.degreeOf_prod_le _ _ _).trans ?_
    refine (Finset.sum_le_sum fun k _ => hermVar_degree k i (I k)).trans ?_
    rw [Finset.sum_ite_eq Finset.univ i]
    simp

section
variable {F : Type} [Interp F]

theorem corr_transform_ok {slack : ℕ} {eig : Eig} {q : HQuad F} (hq : CorrQuadOk q) (hne : q.position.dirs ≠ [])
    {l : Fin q.position.dirs.length → ℝ} {V : Matrix (Fin q.position.dirs.length) (Fin q.position.dirs.length) ℝ}
    (he : EigReturns q.position.dirs.length (eig q.position.cov) l V) {s : IndexSet} {degree : ℕ}
    (hU : Usable s q.position.dim degree) (hd : DegreeOk slack s degree q.do_fourier) {L : List (List ℕ)}
    (hL : IterOk s q.position.dim degree L) {f : SFn F} (hfd : f.dirs = q.position.dirs)
    (hv : ∀ p ∈ f.terms, ∀ a ∈ p, ∀ d ∈ a.1, d ∈ f.dirs) :
    quad_transform slack eig degree s q f = .ok ⟨L.map fun m => quadrature q.nodes q.weights fun _ x =>
      gdiv (f.value (place q.position.dirs (eigenPoint (meanOf q.position) l V (node _ x))))
        (q.factor.value (place q.position.dirs (eigenPoint (meanOf q.position) l V (node _ x)))) * basis q.nodes.length q.do_fourier m x,
      q.position, recDegree s degree, q.factor, s⟩ := by
  rw [quad_transform, corr_discretize_ok hq he hfd hv, Out.ok_bind, quad_transform_grid,
    corr_discretize_ok hq he hq.factorDirs hq.factor.vars, Out.ok_bind, guardedDiv, broadcast, if_pos (by simp), Out.ok_bind,
    List.zipWith_map, List.zipWith_self, transform_forward_ok (L := L) (by rw [hq.dim]; exact hU.toSized) hq.grid hd
    hq.weights (by rw [hq.dim]; exact hL) (by simp), Out.ok_bind, mkSeries_small hq.pos hne hU hL (by simp)]
  congr 2
  apply List.map_congr_left
  intro m _
  apply quadrature_congr
  intro i x hx
  simp [hx, gdiv]

end

/-! ## The weight -/

theorem corr_weight {p : Position} (hp : PosOk p) (hne : p.dirs ≠ []) (ht : ∀ t ∈ p.types, t = "hermite") (h5 : ∀ d ∈ p.dirs, d < 5)
    (hdet : (covOf p).det ≠ 0) (x : ℕ → ℝ) : pos_weight p x = .ok (normalDensityOf (meanOf p) (covOf p) fun i => x (p.dirs.get i)) := by
  have hind : ((List.range p.types.length).filter fun i => p.types.getD i "" = "hermite") = List.range p.dirs.length := by
    rw [List.filter_eq_self.2, hp.types, hp.dirs]
    intro i hi
    have hi := List.mem_range.1 hi
    have := ht _ (List.getElem_mem hi)
    simp [hi, this]
  have e1 : (List.range p.dirs.length).mapM (fun i => pyget p.mean i) = .ok ((List.range p.dirs.length).map fun i => p.mean.getD i 0) := by
    refine mapM_ok fun i hi => ?_
    have : i < p.mean.length := by rw [hp.mean, ← hp.dirs]; exact List.mem_range.1 hi
    rw [pyget_some (List.getElem?_eq_getElem this)]
    simp [this]
  have e2 : ((List.range p.dirs.length).mapM fun i => do
      let d ← pyget p.dirs i
      if d < 5 then .ok (x d) else .throws) = .ok ((List.range p.dirs.length).map fun i => x (p.dirs.getD i 0)) := by
    refine mapM_ok fun i hi => ?_
    have : i < p.dirs.length := List.mem_range.1 hi
    rw [pyget_some (List.getElem?_eq_getElem this), Out.ok_bind, if_pos (h5 _ (List.getElem_mem this))]
    simp [this]
  have e3 : ((List.range p.dirs.length).mapM fun i => do
      let r ← pyget p.cov i
      (List.range p.dirs.length).mapM fun j => pyget r j) =
        .ok ((List.range p.dirs.length).map fun i => (List.range p.dirs.length).map fun j => entryOf p.cov i j) := by
    refine mapM_ok fun i hi => ?_
    have : i < p.cov.length := by rw [hp.cov, ← hp.dirs]; exact List.mem_range.1 hi
    rw [pyget_some (List.getElem?_eq_getElem this), Out.ok_bind]
    refine mapM_ok fun j hj => ?_
    have hj' : j < (p.cov[i]).length := by rw [hp.rows _ (List.getElem_mem this), ← hp.dirs]; exact List.mem_range.1 hj
    rw [pyget_some (List.getElem?_eq_getElem hj')]
    simp [entryOf, this, hj']
  have h0 : ¬ (List.range p.dirs.length).length = 0 := by simpa using hne
  rw [pos_weight]
  generalize (List.range p.types.length).filter (fun i => decide (p.types.getD i "" = "hermite")) = ind at hind ⊢
  subst hind
  rw [if_neg h0, e1, Out.ok_bind, e2, Out.ok_bind, e3, Out.ok_bind]
  obtain ⟨A, hA⟩ : ∃ A, A = (List.range p.dirs.length).map fun i => p.mean.getD i 0 := ⟨_, rfl⟩
  obtain ⟨B, hB⟩ : ∃ B, B = (List.range p.dirs.length).map fun i => x (p.dirs.getD i 0) := ⟨_, rfl⟩
  obtain ⟨C, hC⟩ : ∃ C, C = (List.range p.dirs.length).map fun i => (List.range p.dirs.length).map fun j => entryOf p.cov i j := ⟨_, rfl⟩
  rw [← hA, ← hB, ← hC]
  obtain ⟨N, hN⟩ : ∃ N, N = (List.range p.dirs.length).length := ⟨_, rfl⟩
  rw [← hN]
  have hN' : N = p.dirs.length := by simpa using hN
  clear hN h0
  subst hN'
  have hM : (Matrix.of fun i j : Fin p.dirs.length => entryOf C i j) = covOf p := by
    ext i j
    simp [hC, covOf, squareOf, entryOf]
  have hy : (fun i : Fin p.dirs.length => B.getD i 0 - A.getD i 0) = (fun i => x (p.dirs.get i)) - meanOf p := by
    funext i
    simp [hA, hB, meanOf]
  rw [hM, if_neg hdet, hy, normalDensityOf]
  congr 1
  rw [dotProduct_comm, ← hp.dirs, one_div_mul_eq_div]
  congr 3
  ring

end Hermipy
