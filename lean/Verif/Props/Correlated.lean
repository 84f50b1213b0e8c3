import Verif.Lemmas.Correlated
import Verif.Props.QuadConstructors
import Verif.Props.QuadEval
import Mathlib.Topology.Algebra.MvPolynomial

/-! # C96: quadratures for normal distributions with correlated coordinates -/

namespace Hermipy.Props
open Hermipy Hermipy.Spec MeasureTheory Matrix
variable {F : Type}

/-! ## The distribution -/

/-- A root of a positive definite matrix. -/
theorem posDefinite_root {n : ℕ} {C : Matrix (Fin n) (Fin n) ℝ} (hC : PosDefinite C) : ∃ R : Matrix (Fin n) (Fin n) ℝ, R.det ≠ 0 ∧ R * Rᵀ = C := by
  obtain ⟨R, S, h1, -, h3⟩ := posDefinite_factor hC
  refine ⟨Rᵀ, ?_, by rw [transpose_transpose, h3]⟩
  rw [det_transpose]
  have hd : R.det * S.det = 1 := by rw [← det_mul, h1, det_one]
  exact left_ne_zero_of_mul_eq_one hd

/-- The density of the specification: positive, with integral one, and with the given mean and covariance. -/
theorem C96_density {n : ℕ} (m : Fin n → ℝ) {C : Matrix (Fin n) (Fin n) ℝ} (hC : PosDefinite C) :
    (∀ x, 0 < normalDensityOf m C x) ∧ ∫ x, normalDensityOf m C x = 1 ∧ (∀ i, ∫ x, (x i - m i) * normalDensityOf m C x = 0) ∧
      ∀ i j, ∫ x, (x i - m i) * (x j - m j) * normalDensityOf m C x = C i j := by
  obtain ⟨R, hR, rfl⟩ := posDefinite_root hC
  have hd : 0 < (R * Rᵀ).det := by
    rw [det_mul, det_transpose, ← sq]
    positivity
  refine ⟨fun x => ?_, ?_, fun i => ?_, fun i j => ?_⟩
  · exact div_pos (Real.exp_pos _) (Real.sqrt_pos.2 (mul_pos (by positivity) hd))
  · have := integral_moved m hR (g := fun _ => 1) continuous_const
    simp only [one_mul] at this
    rw [this, moment_zero]
  · rw [integral_moved m hR (g := fun x => x i - m i) (by fun_prop), ← moved_mean R i]
    simp
  · rw [integral_moved m hR (g := fun x => (x i - m i) * (x j - m j)) (by fun_prop), ← moved_cov R i j]
    simp

/-- `weight()` is this density, for positions with Hermite directions only. -/
theorem C96_weight {p : Position} (hp : PosOk p) (hne : p.dirs ≠ []) (ht : ∀ t ∈ p.types, t = "hermite") (h5 : ∀ d ∈ p.dirs, d < 5)
    (hC : PosDefinite (covOf p)) (x : ℕ → ℝ) : pos_weight p x = .ok (normalDensityOf (meanOf p) (covOf p) fun i => x (p.dirs.get i)) :=
  corr_weight hp hne ht h5 (gaussian_integral hC).1.ne' x

/-! ## The attribute `factor` -/

/-- Eigenvectors of a symmetric matrix with distinct eigenvalues are orthonormal. -/
theorem C96_orthonormal {n : ℕ} {A V : Matrix (Fin n) (Fin n) ℝ} {l : Fin n → ℝ} (h : EigenBasis A l V) (hA : A.IsSymm)
    (hl : Function.Injective l) : Vᵀ * V = 1 := h.orthonormal hA hl

theorem orthonormal_of {n : ℕ} {A V : Matrix (Fin n) (Fin n) ℝ} {l : Fin n → ℝ} (h : EigenBasis A l V) (hA : A.IsSymm)
    (ho : Function.Injective l ∨ Vᵀ * V = 1) : Vᵀ * V = 1 := ho.elim (h.orthonormal hA) id

/-- `factor` is a root of the covariance matrix, if the eigenvalues are distinct or the eigenvectors orthonormal. -/
theorem C96_factor_partial {eig : Eig} {p : Position} (hp : PosOk p) {l : Fin p.dirs.length → ℝ}
    {V : Matrix (Fin p.dirs.length) (Fin p.dirs.length) ℝ} (he : EigReturns p.dirs.length (eig p.cov) l V) (hV : EigenBasis (covOf p) l V)
    (hC : PosDefinite (covOf p)) (ho : Function.Injective l ∨ Vᵀ * V = 1) :
    squareOf p.dirs.length (pos_factor eig p) * (squareOf p.dirs.length (pos_factor eig p))ᵀ = covOf p := by
  rw [squareOf_factor hp.dirs he, hV.root (fun i => (hV.pos hC i).le) (orthonormal_of hV hC.symm ho)]

/-! ## The points -/

variable [Interp F]

/-- The points at which functions are evaluated. -/
theorem C96_discretize {eig : Eig} {q : HQuad F} (hq : CorrQuadOk q) {l : Fin q.position.dirs.length → ℝ}
    {V : Matrix (Fin q.position.dirs.length) (Fin q.position.dirs.length) ℝ}
    (he : EigReturns q.position.dirs.length (eig q.position.cov) l V) {f : SFn F} (hf : SFnOk f) (hd : f.dirs = q.position.dirs) :
    quad_discretize eig q f = .ok ((gridPoints q.nodes).map fun p =>
      f.value (place q.position.dirs (eigenPoint (meanOf q.position) l V (node _ p)))) :=
  corr_discretize_ok hq he hd hf.vars

/-- With correlations there is no tensorization: `tensorize=True` changes nothing. -/
theorem C96_tensorize [DecidableEq F] (order : ℕ → Finset (Finset ℕ) → List (Finset ℕ)) (k slack degree : ℕ) (s : IndexSet) (eig : Eig) {q : HQuad F}
    (hq : ¬ q.position.is_diag) (f : SFn F) :
    quad_integrate_tensorize order k slack eig q f = quad_integrate slack eig q f ∧
      quad_transform_tensorize order k slack eig degree s q f = quad_transform slack eig degree s q f :=
  ⟨by rw [quad_integrate_tensorize, tensorize_at, if_pos hq], by rw [quad_transform_tensorize, tensorize_at, if_pos hq]⟩

/-! ## What `Quad.gauss_hermite` builds -/

omit [Interp F] in
/-- `Quad(nodes, weights, position=p, factor=factor)`. -/
theorem corr_init_position {nodes weights : List (List ℝ)} {n : ℕ} {p : Position} {factor : FactorArg F} (hN : nodes.length = p.dim)
    (hW : weights.length = p.dim) (hNn : ∀ r ∈ nodes, r.length = n) (hWn : ∀ r ∈ weights, r.length = n) (hn : 0 < n)
    (hs : n ^ p.dim < 2 ^ 32) (hp : PosOk p) (hd : DirsOk p.dirs) (hf : FactorOk p.dirs factor) (mean : Option (List ℝ))
    (cov : Option (List (List ℝ))) (dirs : Option (List ℕ)) (types : Option (List String)) :
    quad_init nodes weights (some p) factor mean cov dirs types = .ok ⟨nodes, weights, p, ⟨p.dirs, factorTerms factor⟩⟩ ∧
      CorrQuadOk (⟨nodes, weights, p, ⟨p.dirs, factorTerms factor⟩⟩ : HQuad F) := by
  obtain ⟨e, ok⟩ := factorOf_ok hd hf
  have hdim : 0 < p.dim := by rw [← hp.dirs]; exact List.length_pos_of_ne_nil hd.ne
  have hne : nodes ≠ [] := by rintro rfl; simp at hN; omega
  have hne' : weights ≠ [] := by rintro rfl; simp at hW; omega
  have hu : ∀ {l : List (List ℝ)}, l ≠ [] → (∀ r ∈ l, r.length = n) → uniform l := by
    intro l h1 h2 r hr
    obtain ⟨a, l, rfl⟩ := List.exists_cons_of_ne_nil h1
    rw [h2 r hr]
    simp [h2 a (by simp)]
  have hmap : ∀ {l : List (List ℝ)}, (∀ r ∈ l, r.length = n) → l.map List.length = List.replicate l.length n := by
    intro l h
    rw [List.eq_replicate_iff]
    refine ⟨by simp, ?_⟩
    intro x hx
    obtain ⟨r, hr, rfl⟩ := List.mem_map.1 hx
    exact h r hr
  refine ⟨?_, hp, hN, ⟨hne, ?_, ⟨?_, ?_⟩, ?_⟩, ?_, hu hne hNn, ok, rfl⟩
  · rw [quad_init, if_neg (by simp [hu hne hNn, hu hne' hWn]), initPosition, Out.ok_bind, e, Out.ok_bind]
  · rintro r hr rfl
    have := hNn _ hr
    simp at this
    omega
  · simp [HQuad.do_fourier, hp.types, hN]
  · intro f hf
    obtain ⟨t, -, rfl⟩ := List.mem_map.1 hf
    split <;> simp
  · rw [gridPoints, length_cartesian, hmap hNn, List.prod_replicate, hN]
    exact hs
  · rw [hmap hNn, hmap hWn, hN, hW]

/-- The keyword arguments of `gauss_hermite` for `d` directions. -/
structure CorrKeywords (d : ℕ) (mean : Option (List ℝ)) (cov : List (List ℝ)) (dirs : Option (List ℕ)) (factor : FactorArg F) : Prop where
  mean : ∀ m, mean = some m → m.length = d
  cov : cov.length = d ∧ ∀ r ∈ cov, r.length = d
  length : ∀ ds, dirs = some ds → ds.length = d
  dirsOk : DirsOk (dirs.getD (List.range d))
  factor : FactorOk (dirs.getD (List.range d)) factor

/-- The quadrature has the data that is given, and mean zero and the first directions where it is not. -/
structure CorrBuilt (q : HQuad F) (d n : ℕ) (mean : Option (List ℝ)) (cov : List (List ℝ)) (dirs : Option (List ℕ)) (factor : FactorArg F) :
    Prop where
  ok : CorrQuadOk q
  dim : q.position.dim = d
  points : ∀ r ∈ q.nodes, r.length = n
  position : Filled q.position mean (some cov) dirs none
  factorTerms : q.factor.terms = factorTerms factor
  hermite : ∀ t ∈ q.position.types, t = "hermite"
  symbols : ∀ d ∈ q.position.dirs, d < 5

omit [Interp F] in
theorem corr_built {hermegauss : ℕ → List ℝ × List ℝ} {n d : ℕ} (hg : GaussRule n (hermegauss n)) (hn : 0 < n)
    {n_points : Points} {dim : Option ℕ} {dirs : Option (List ℕ)} (hdim : dirs = none → ∀ k, dim = some k → k = d)
    (hpts : (n_points = .one n ∧ (dirs = none → dim = none → d = 1)) ∨ n_points = .each (List.replicate d n)) (hs : n ^ d < 2 ^ 32)
    {mean : Option (List ℝ)} {cov : List (List ℝ)} {factor : FactorArg F} (hk : CorrKeywords d mean cov dirs factor) :
    ∃ q, quad_gauss_hermite hermegauss n_points dim dirs none factor mean (some cov) none = .ok q ∧ CorrBuilt q d n mean cov dirs factor ∧
      q.position.dirs = dirs.getD (List.range d) ∧ q.nodes = List.replicate q.position.dirs.length (hermegauss n).1 ∧
      q.weights = List.replicate q.position.dirs.length ((hermegauss n).2.map fun w => w / √(2 * Real.pi)) ∧ ∀ f ∈ q.do_fourier, f = 0 := by
  have e1 : gaussPoints n_points dim dirs = .ok (List.replicate d n) := by
    cases dirs with
    | some ds =>
      have := hk.length ds rfl
      rcases hpts with ⟨rfl, -⟩ | rfl <;> simp [gaussPoints, npFull, this]
    | none =>
      cases dim with
      | some k =>
        have := hdim rfl k rfl
        rcases hpts with ⟨rfl, -⟩ | rfl <;> simp [gaussPoints, npFull, this]
      | none =>
        rcases hpts with ⟨rfl, h⟩ | rfl
        · simp [gaussPoints, h rfl rfl]
        · simp [gaussPoints]
  have e2 : hermegauss_nd hermegauss (List.replicate d n) = .ok (List.replicate d (hermegauss n).1,
      List.replicate d ((hermegauss n).2.map fun w => w / √(2 * Real.pi))) := by
    rw [hermegauss_nd, mapM_ok (g := fun n => ((hermegauss n).1, (hermegauss n).2.map fun w => w / √(2 * Real.pi)))]
    · simp
    · intro k hk
      rw [List.eq_of_mem_replicate hk, if_neg hn.ne']
  obtain ⟨p, e, hpdim, hfill⟩ := C63_init_partial (n := d) (dim := some d) (mean := mean) (cov := some cov) (dirs := dirs) (types := none)
    ⟨by simp, hk.mean, fun c hc => by cases hc; exact hk.cov, hk.length, by simp⟩ (Or.inr (by simp))
  have hpd : p.dirs = dirs.getD (List.range d) := by
    cases dirs with
    | some ds => exact hfill.dirsGiven ds rfl
    | none =>
      refine List.ext_getElem? fun i => ?_
      by_cases hi : i < d
      · rw [hfill.first rfl i (by rw [hpdim]; exact hi)]
        simp [hi]
      · have h1 : p.dirs[i]? = none := List.getElem?_eq_none_iff.2 (by rw [hfill.dirsLength]; omega)
        rw [h1]
        simp
        omega
  have hok : PosOk p := by
    refine ⟨hfill.dirsLength, hfill.meanLength, hfill.covLength, ?_, hfill.typesLength, ?_⟩
    · rw [hfill.covGiven cov rfl, hpdim]; exact hk.cov.2
    · rw [hpd]; exact hk.dirsOk.sorted.imp fun h => ne_of_lt h
  have htypes : ∀ t ∈ p.types, t = "hermite" := by
    intro t ht
    obtain ⟨i, hi, rfl⟩ := List.mem_iff_getElem.1 ht
    have := hfill.hermite rfl i (by rw [← hfill.typesLength]; exact hi)
    simpa only [List.getElem?_eq_getElem hi, Option.some.injEq] using this
  have hpl : p.dirs.length = d := hok.dirs.trans hpdim
  obtain ⟨e3, ok⟩ := corr_init_position (factor := factor) (p := p) (nodes := List.replicate d (hermegauss n).1)
    (weights := List.replicate d ((hermegauss n).2.map fun w => w / √(2 * Real.pi))) (n := n) (by simp [hpdim]) (by simp [hpdim])
    (by intro r hr; rw [List.eq_of_mem_replicate hr]; exact hg.nodes)
    (by intro r hr; rw [List.eq_of_mem_replicate hr]; simp [hg.weights]) hn (by rw [hpdim]; exact hs) hok (by rw [hpd]; exact hk.dirsOk)
    (by rw [hpd]; exact hk.factor) mean (some cov) dirs none
  refine ⟨_, ?_, ⟨ok, hpdim, ?_, hfill, rfl, htypes, by rw [hpd]; exact hk.dirsOk.symbols⟩, hpd, by rw [hpl], by rw [hpl], ?_⟩
  · rw [quad_gauss_hermite, e1, Out.ok_bind, e2, Out.ok_bind, ← e3, quad_init, quad_init, List.length_replicate]
    simp only [initPosition, e]
  · intro r hr
    rw [List.eq_of_mem_replicate hr]
    exact hg.nodes
  · intro f hf
    obtain ⟨t, ht, rfl⟩ := List.mem_map.1 hf
    simp [htypes t ht]

/-! ## What it integrates -/

omit [Interp F] in
/-- The rule, for any matrix `V` whose columns are used as directions. -/
theorem corr_rule {n : ℕ} {rule : List ℝ × List ℝ} (hg : GaussRule n rule) {dirs : List ℕ} (hn : dirs.Nodup) {g : (ℕ → ℝ) → ℝ}
    (hp : TotalBelow (2 * n) dirs g) (m l : Fin dirs.length → ℝ) (V : Matrix (Fin dirs.length) (Fin dirs.length) ℝ) :
    quadrature (List.replicate dirs.length rule.1) (List.replicate dirs.length (rule.2.map fun w => w / √(2 * Real.pi)))
        (fun _ p => g (place dirs (eigenPoint m l V (node _ p)))) =
      ∫ z, g (place dirs (m + rootOf l V *ᵥ z)) * ∏ i, gw (z i) := by
  obtain ⟨P, hP, hgP⟩ := hp
  have e : ∀ z, g (place dirs (m + rootOf l V *ᵥ z)) = MvPolynomial.eval z (movedPoly m (rootOf l V) P) := by
    intro z
    rw [hgP, movedPoly_eval]
    congr 2
    funext i
    exact place_get hn _ i
  simp only [eigenPoint_eq, e]
  exact gauss_grid hg fun i => lt_of_le_of_lt (movedPoly_degree _ _ P i) hP

omit [Interp F] in
theorem corr_normal {n : ℕ} {rule : List ℝ × List ℝ} (hg : GaussRule n rule) {dirs : List ℕ} (hn : dirs.Nodup) {g : (ℕ → ℝ) → ℝ}
    (hp : TotalBelow (2 * n) dirs g) (m : Fin dirs.length → ℝ) {l : Fin dirs.length → ℝ} (hl : ∀ i, 0 < l i)
    {V : Matrix (Fin dirs.length) (Fin dirs.length) ℝ} (hV : V.det ≠ 0) :
    quadrature (List.replicate dirs.length rule.1) (List.replicate dirs.length (rule.2.map fun w => w / √(2 * Real.pi)))
        (fun _ p => g (place dirs (eigenPoint m l V (node _ p)))) =
      ∫ x, g (place dirs x) * normalDensityOf m (V * diagonal l * Vᵀ) x := by
  have hR : (rootOf l V).det ≠ 0 := by
    rw [rootOf, det_mul, det_diagonal]
    exact mul_ne_zero hV (Finset.prod_ne_zero_iff.2 fun i _ => (Real.sqrt_pos.2 (hl i)).ne')
  rw [corr_rule hg hn hp, ← rootOf_mul fun i => (hl i).le]
  obtain ⟨P, -, hgP⟩ := hp
  have e : (fun x => g (place dirs x)) = fun x => MvPolynomial.eval x P := by
    funext x
    rw [hgP]
    congr 2
    funext i
    exact place_get hn _ i
  have hc : Continuous fun x : Fin dirs.length → ℝ => g (place dirs x) := by
    rw [e]
    exact MvPolynomial.continuous_eval P
  exact (integral_moved m hR hc).symm

/-- C96. `Quad.gauss_hermite` with `n` points in each of `d` directions and a positive definite covariance matrix integrates the polynomials of
total degree less than `2n` exactly against the normal distribution with the given mean and covariance, if the eigenvalues are distinct or
the eigenvectors orthonormal. Missing for the full statement: covariance matrices with repeated eigenvalues, see `C96_repeated_false`. -/
theorem C96_gauss_hermite_partial {hermegauss : ℕ → List ℝ × List ℝ} {n d : ℕ} (hg : GaussRule n (hermegauss n)) (hn : 0 < n)
    {n_points : Points} {dim : Option ℕ} {dirs : Option (List ℕ)} (hdim : dirs = none → ∀ k, dim = some k → k = d)
    (hpts : (n_points = .one n ∧ (dirs = none → dim = none → d = 1)) ∨ n_points = .each (List.replicate d n)) (hs : n ^ d < 2 ^ 32)
    {mean : Option (List ℝ)} {cov : List (List ℝ)} {factor : FactorArg F} (hk : CorrKeywords d mean cov dirs factor) :
    ∃ q, quad_gauss_hermite hermegauss n_points dim dirs none factor mean (some cov) none = .ok q ∧ CorrBuilt q d n mean cov dirs factor ∧
      ∀ (slack : ℕ) (eig : Eig) (f : SFn F) (l : Fin q.position.dirs.length → ℝ) (V : Matrix (Fin q.position.dirs.length) (Fin q.position.dirs.length) ℝ),
        1 ≤ slack → EigReturns q.position.dirs.length (eig q.position.cov) l V → EigenBasis (covOf q.position) l V → PosDefinite (covOf q.position) →
        (Function.Injective l ∨ Vᵀ * V = 1) → SFnOk f → f.dirs = q.position.dirs → TotalBelow (2 * n) q.position.dirs f.value →
        quad_integrate slack eig q f =
          .ok (∫ x, f.value (place q.position.dirs x) * normalDensityOf (meanOf q.position) (covOf q.position) x) := by
  obtain ⟨q, e, hb, -, hN, hW, -⟩ := corr_built hg hn hdim hpts hs hk
  refine ⟨q, e, hb, ?_⟩
  intro slack eig f l V hsl he hV hC ho hf hfd hpoly
  have hl := hV.pos hC
  rw [corr_integrate_ok hb.ok he (fun _ => hsl) hfd hf.vars, hN, hW, corr_normal hg hb.ok.pos.nodup hpoly _ hl hV.independent, ← rootOf_mul fun i => (hl i).le,
    hV.root (fun i => (hl i).le) (orthonormal_of hV hC.symm ho)]

/-- C96. Without the condition on the eigenvectors, the quadrature is the one for the normal distribution whose covariance matrix is the sum
of the squares of the eigenvectors times the eigenvalues. -/
theorem C96_rule {hermegauss : ℕ → List ℝ × List ℝ} {n d : ℕ} (hg : GaussRule n (hermegauss n)) (hn : 0 < n)
    {n_points : Points} {dim : Option ℕ} {dirs : Option (List ℕ)} (hdim : dirs = none → ∀ k, dim = some k → k = d)
    (hpts : (n_points = .one n ∧ (dirs = none → dim = none → d = 1)) ∨ n_points = .each (List.replicate d n)) (hs : n ^ d < 2 ^ 32)
    {mean : Option (List ℝ)} {cov : List (List ℝ)} {factor : FactorArg F} (hk : CorrKeywords d mean cov dirs factor) :
    ∃ q, quad_gauss_hermite hermegauss n_points dim dirs none factor mean (some cov) none = .ok q ∧ CorrBuilt q d n mean cov dirs factor ∧
      ∀ (slack : ℕ) (eig : Eig) (f : SFn F) (l : Fin q.position.dirs.length → ℝ) (V : Matrix (Fin q.position.dirs.length) (Fin q.position.dirs.length) ℝ),
        1 ≤ slack → EigReturns q.position.dirs.length (eig q.position.cov) l V → EigenBasis (covOf q.position) l V → PosDefinite (covOf q.position) →
        SFnOk f → f.dirs = q.position.dirs → TotalBelow (2 * n) q.position.dirs f.value →
        quad_integrate slack eig q f = .ok (∫ x, f.value (place q.position.dirs x) *
          normalDensityOf (meanOf q.position) (∑ k, l k • vecMulVec (V.col k) (V.col k)) x) := by
  obtain ⟨q, e, hb, -, hN, hW, -⟩ := corr_built hg hn hdim hpts hs hk
  refine ⟨q, e, hb, ?_⟩
  intro slack eig f l V hsl he hV hC hf hfd hpoly
  have hl := hV.pos hC
  have hsum : V * diagonal l * Vᵀ = ∑ k, l k • vecMulVec (V.col k) (V.col k) := by
    ext i j
    rw [mul_apply, Matrix.sum_apply]
    refine Finset.sum_congr rfl fun k _ => ?_
    rw [mul_diagonal, transpose_apply]
    simp only [Matrix.smul_apply, vecMulVec_apply, col_apply, smul_eq_mul]
    ring
  rw [corr_integrate_ok hb.ok he (fun _ => hsl) hfd hf.vars, hN, hW, corr_normal hg hb.ok.pos.nodup hpoly _ hl hV.independent, hsum]

/-- C96. The integral of the product of two centred coordinates, with at least two points: the covariance, for orthonormal eigenvectors. -/
theorem C96_covariance {hermegauss : ℕ → List ℝ × List ℝ} {n d : ℕ} (hg : GaussRule n (hermegauss n)) (hn : 2 ≤ n)
    {n_points : Points} {dim : Option ℕ} {dirs : Option (List ℕ)} (hdim : dirs = none → ∀ k, dim = some k → k = d)
    (hpts : (n_points = .one n ∧ (dirs = none → dim = none → d = 1)) ∨ n_points = .each (List.replicate d n)) (hs : n ^ d < 2 ^ 32)
    {mean : Option (List ℝ)} {cov : List (List ℝ)} {factor : FactorArg F} (hk : CorrKeywords d mean cov dirs factor) :
    ∃ q, quad_gauss_hermite hermegauss n_points dim dirs none factor mean (some cov) none = .ok q ∧ CorrBuilt q d n mean cov dirs factor ∧
      ∀ (slack : ℕ) (eig : Eig) (f : SFn F) (l : Fin q.position.dirs.length → ℝ) (V : Matrix (Fin q.position.dirs.length) (Fin q.position.dirs.length) ℝ)
        (i j : Fin q.position.dirs.length), 1 ≤ slack → EigReturns q.position.dirs.length (eig q.position.cov) l V →
        (∀ k, 0 ≤ l k) → SFnOk f → f.dirs = q.position.dirs →
        (∀ x, f.value x = (x (q.position.dirs.get i) - meanOf q.position i) * (x (q.position.dirs.get j) - meanOf q.position j)) →
        quad_integrate slack eig q f = .ok (∑ k, l k * V i k * V j k) ∧
        (EigenBasis (covOf q.position) l V → Vᵀ * V = 1 → quad_integrate slack eig q f = .ok (covOf q.position i j)) := by
  obtain ⟨q, e, hb, -, hN, hW, -⟩ := corr_built hg (by omega) hdim hpts hs hk
  refine ⟨q, e, hb, ?_⟩
  intro slack eig f l V i j hsl he hl hf hfd hval
  have hpoly : TotalBelow (2 * n) q.position.dirs f.value := by
    refine ⟨(MvPolynomial.X i - MvPolynomial.C (meanOf q.position i)) * (MvPolynomial.X j - MvPolynomial.C (meanOf q.position j)), ?_, ?_⟩
    · have h1 : ∀ (a : Fin q.position.dirs.length) (c : ℝ), (MvPolynomial.X a - MvPolynomial.C c).totalDegree ≤ 1 := fun a c =>
        (MvPolynomial.totalDegree_sub _ _).trans (by simp)
      refine lt_of_le_of_lt ((MvPolynomial.totalDegree_mul _ _).trans (Nat.add_le_add (h1 _ _) (h1 _ _))) (by omega)
    · intro x
      rw [hval]
      simp
  have hnd := hb.ok.pos.nodup
  have key : quad_integrate slack eig q f = .ok ((rootOf l V * (rootOf l V)ᵀ) i j) := by
    rw [corr_integrate_ok hb.ok he (fun _ => hsl) hfd hf.vars, hN, hW, corr_rule hg hnd hpoly, ← moved_cov]
    congr 2
    funext z
    rw [hval, place_get hnd, place_get hnd]
    simp
  refine ⟨?_, fun hV ho => by rw [key, hV.root hl ho]⟩
  rw [key, rootOf_mul hl, mul_apply]
  congr 1
  refine Finset.sum_congr rfl fun k _ => ?_
  rw [mul_diagonal, transpose_apply]
  ring

/-! ## Coefficients -/

/-- C96. The coefficients that `transform` computes are the integrals, against the normal distribution, of the function divided by the factor times
the Hermite polynomials of the coordinates along the eigenvectors, in standard deviations. -/
theorem C96_transform_partial {hermegauss : ℕ → List ℝ × List ℝ} {n d : ℕ} (hg : GaussRule n (hermegauss n)) (hn : 0 < n)
    {n_points : Points} {dim : Option ℕ} {dirs : Option (List ℕ)} (hdim : dirs = none → ∀ k, dim = some k → k = d)
    (hpts : (n_points = .one n ∧ (dirs = none → dim = none → d = 1)) ∨ n_points = .each (List.replicate d n)) (hs : n ^ d < 2 ^ 32)
    {mean : Option (List ℝ)} {cov : List (List ℝ)} {factor : FactorArg F} (hk : CorrKeywords d mean cov dirs factor) :
    ∃ q, quad_gauss_hermite hermegauss n_points dim dirs none factor mean (some cov) none = .ok q ∧ CorrBuilt q d n mean cov dirs factor ∧
      ∀ (slack degree D : ℕ) (s : IndexSet) (eig : Eig) (f : SFn F) (g : (ℕ → ℝ) → ℝ) (l : Fin q.position.dirs.length → ℝ)
        (V : Matrix (Fin q.position.dirs.length) (Fin q.position.dirs.length) ℝ),
        1 ≤ slack → (s = .cross ∨ s = .cross_nc → 1 ≤ degree) → Usable s q.position.dim degree →
        EigReturns q.position.dirs.length (eig q.position.cov) l V → EigenBasis (covOf q.position) l V → PosDefinite (covOf q.position) →
        (Function.Injective l ∨ Vᵀ * V = 1) → SFnOk f → f.dirs = q.position.dirs →
        (∀ x, q.factor.value x ≠ 0) → (∀ x, f.value x = q.factor.value x * g x) → TotalBelow D q.position.dirs g → D + degree ≤ 2 * n →
        ∃ S, quad_transform slack eig degree s q f = .ok S ∧ SeriesOk S ∧ S.position = q.position ∧ S.factor = q.factor ∧ S.index_set = s ∧
          ∀ I y, Coef S I y ↔ InSet s q.position.dim degree I ∧ y = ∫ x, g (place q.position.dirs x) *
            (∏ k : Fin q.position.dirs.length, herm (I.getD k 0) (V.col k ⬝ᵥ (x - meanOf q.position) / √(l k))) *
            normalDensityOf (meanOf q.position) (covOf q.position) x := by
  obtain ⟨q, e, hb, hds, hN, hW, hF⟩ := corr_built hg hn hdim hpts hs hk
  refine ⟨q, e, hb, ?_⟩
  intro slack degree D s eig f g l V hsl hcr hU he hV hC ho hf hfd hnz hfg hpoly hD
  have hl := hV.pos hC
  have hort := orthonormal_of hV hC.symm ho
  have hne : q.position.dirs ≠ [] := by rw [hds]; exact hk.dirsOk.ne
  have hnd := hb.ok.pos.nodup
  obtain ⟨L, hL⟩ := iterOk_exists hU.toSized.fits'
  have hT := corr_transform_ok hb.ok hne he hU ⟨fun h => absurd (hF 1 h) one_ne_zero, fun _ => Or.inr hsl, hcr⟩ hL hfd hf.vars
  suffices key : ∀ I ∈ L, (quadrature q.nodes q.weights fun _ x =>
      gdiv (f.value (place q.position.dirs (eigenPoint (meanOf q.position) l V (node _ x))))
        (q.factor.value (place q.position.dirs (eigenPoint (meanOf q.position) l V (node _ x)))) * basis q.nodes.length q.do_fourier I x) =
      ∫ x, g (place q.position.dirs x) *
            (∏ k : Fin q.position.dirs.length, herm (I.getD k 0) (V.col k ⬝ᵥ (x - meanOf q.position) / √(l k))) *
            normalDensityOf (meanOf q.position) (covOf q.position) x by
    obtain ⟨S, e, ok, h1, h2, h3, h4, h5, -⟩ := mkSeries_ok (factor := q.factor) hb.ok.pos hne hU hL (coeffs := L.map _) (by simp)
    rw [mkSeries_small hb.ok.pos hne hU hL (by simp)] at e
    cases e
    refine ⟨_, hT, ok, rfl, rfl, rfl, fun m y => ?_⟩
    rw [coef_iff (L := L) h5.list, ← hL.mem]
    constructor
    · rintro ⟨k, hk1, hk2⟩
      have hm := List.mem_of_getElem? hk1
      rw [List.getElem?_map, hk1, Option.map_some, Option.some.injEq] at hk2
      exact ⟨hm, by rw [← hk2]; exact key m hm⟩
    · rintro ⟨hm, rfl⟩
      refine ⟨_, getElem?_idxOf' hm, ?_⟩
      rw [List.getElem?_map, getElem?_idxOf' hm, Option.map_some, Option.some.injEq]
      exact key m hm
  intro I hIL
  obtain ⟨P, hPd, hgP⟩ := hpoly
  have hR : (rootOf l V).det ≠ 0 := by
    rw [rootOf, det_mul, det_diagonal]
    exact mul_ne_zero hV.independent (Finset.prod_ne_zero_iff.2 fun i _ => (Real.sqrt_pos.2 (hl i)).ne')
  have e1 : ∀ x : Fin q.position.dirs.length → ℝ, g (place q.position.dirs x) = MvPolynomial.eval x P := by
    intro x
    rw [hgP]
    congr 2
    funext i
    exact place_get hnd _ i
  have hcont : Continuous fun x : Fin q.position.dirs.length → ℝ => MvPolynomial.eval x P *
      ∏ k : Fin q.position.dirs.length, herm (I.getD k 0) (V.col k ⬝ᵥ (x - meanOf q.position) / √(l k)) := by
    refine (MvPolynomial.continuous_eval P).mul (continuous_finset_prod _ fun k _ => ?_)
    have h1 : Continuous (herm (I.getD k 0)) := by
      have : herm (I.getD k 0) = fun x => (He (I.getD k 0)).eval x / √((I.getD k 0).factorial : ℝ) := funext fun x => herm_eq _ x
      rw [this]
      exact ((He _).continuous).div_const _
    refine h1.comp (Continuous.div_const ?_ _)
    simp only [dotProduct]
    fun_prop
  have hcov : covOf q.position = rootOf l V * (rootOf l V)ᵀ := (hV.root (fun i => (hl i).le) hort).symm
  simp only [e1]
  rw [hcov, integral_moved (meanOf q.position) hR hcont]
  have e2 : ∀ (z : Fin q.position.dirs.length → ℝ) (k : Fin q.position.dirs.length),
      V.col k ⬝ᵥ (meanOf q.position + rootOf l V *ᵥ z - meanOf q.position) / √(l k) = z k := by
    intro z k
    rw [add_sub_cancel_left]
    have : V.col k ⬝ᵥ rootOf l V *ᵥ z = (Vᵀ *ᵥ (rootOf l V *ᵥ z)) k := rfl
    rw [this, mulVec_mulVec, rootOf, ← Matrix.mul_assoc, hort, Matrix.one_mul, mulVec_diagonal]
    exact mul_div_cancel_left₀ _ (Real.sqrt_pos.2 (hl k)).ne'
  simp only [e2, ← movedPoly_eval]
  rw [← gauss_grid_herm hg (P := movedPoly (meanOf q.position) (rootOf l V) P) (I := fun k => I.getD k 0), hN, hW]
  · apply quadrature_congr
    intro i p hp
    have hp' : p ∈ gridPoints (List.replicate q.position.dirs.length (hermegauss n).1) := List.mem_of_getElem? hp
    rw [gdiv_ne (hnz _), hfg, mul_div_cancel_left₀ _ (hnz _), e1, eigenPoint_eq, movedPoly_eval]
    congr 1
    rw [basis, List.length_replicate, Finset.prod_range]
    refine Finset.prod_congr rfl fun k _ => ?_
    have hk0 : q.do_fourier.getD k 0 = 0 := by
      by_cases h : (k : ℕ) < q.do_fourier.length
      · rw [List.getD_eq_getElem _ _ h]
        exact hF _ (List.getElem_mem h)
      · simp [List.getElem?_eq_none_iff.2 (not_lt.1 h)]
    rw [hk0, phi, if_neg (by decide)]
    rfl
  · intro i
    have h1 := movedPoly_degree (meanOf q.position) (rootOf l V) P i
    have h2 : I.getD i 0 ≤ degree := by
      by_cases h : (i : ℕ) < I.length
      · rw [List.getD_eq_getElem _ _ h]
        exact inSet_le hcr ((hL.mem I).1 hIL) _ (List.getElem_mem h)
      · simp [List.getElem?_eq_none_iff.2 (not_lt.1 h)]
    omega

/-! ## Repeated eigenvalues -/

/-- A covariance matrix with the eigenvalues 4, 1, 1. -/
def cov3 : List (List ℝ) := [[2, 1, 1], [1, 2, 1], [1, 1, 2]]

/-- Eigenvalues and eigenvectors of `cov3`. -/
noncomputable def eig3 : Eig := fun _ =>
  ([4, 1, 1], [[1 / √3, 1 / √2, 1 / √2], [1 / √3, -(1 / √2), 0], [1 / √3, 0, -(1 / √2)]])

theorem cov3_pos : PosDefinite (squareOf 3 cov3) := by
  refine ⟨?_, ?_⟩
  · ext i j
    fin_cases i <;> fin_cases j <;> rfl
  · intro x hx
    have e : x ⬝ᵥ squareOf 3 cov3 *ᵥ x = x 0 ^ 2 + x 1 ^ 2 + x 2 ^ 2 + (x 0 + x 1 + x 2) ^ 2 := by
      simp [dotProduct, mulVec, squareOf, cov3, entryOf, Fin.sum_univ_three]
      ring
    rw [e]
    by_contra h
    have h0 : x 0 = 0 := by nlinarith [sq_nonneg (x 0), sq_nonneg (x 1), sq_nonneg (x 2), sq_nonneg (x 0 + x 1 + x 2)]
    have h1 : x 1 = 0 := by nlinarith [sq_nonneg (x 0), sq_nonneg (x 1), sq_nonneg (x 2), sq_nonneg (x 0 + x 1 + x 2)]
    have h2 : x 2 = 0 := by nlinarith [sq_nonneg (x 0), sq_nonneg (x 1), sq_nonneg (x 2), sq_nonneg (x 0 + x 1 + x 2)]
    refine hx ?_
    funext i
    fin_cases i
    · exact h0
    · exact h1
    · exact h2

/-- The eigenvectors of `eig3` as columns. -/
noncomputable def vec3 : Matrix (Fin 3) (Fin 3) ℝ := !![1 / √3, 1 / √2, 1 / √2; 1 / √3, -(1 / √2), 0; 1 / √3, 0, -(1 / √2)]

theorem eig3_returns (c : List (List ℝ)) : EigReturns 3 (eig3 c) ![4, 1, 1] vec3 := by
  refine ⟨rfl, ?_, ?_⟩
  · intro i
    fin_cases i <;> rfl
  · ext i j
    fin_cases i <;> fin_cases j <;> rfl

theorem eig3_basis : EigenBasis (squareOf 3 cov3) ![4, 1, 1] vec3 := by
  have h2 : (√2 : ℝ) * √2 = 2 := Real.mul_self_sqrt (by norm_num)
  have h3 : (√3 : ℝ) * √3 = 3 := Real.mul_self_sqrt (by norm_num)
  have h20 : (√2 : ℝ) ≠ 0 := (Real.sqrt_pos.2 (by norm_num)).ne'
  have h30 : (√3 : ℝ) ≠ 0 := (Real.sqrt_pos.2 (by norm_num)).ne'
  refine ⟨?_, ?_, ?_⟩
  · intro j
    funext i
    fin_cases i <;> fin_cases j <;> simp [mulVec, dotProduct, squareOf, cov3, entryOf, vec3, Fin.sum_univ_three] <;> ring
  · intro j
    fin_cases j <;> simp [dotProduct, vec3, Fin.sum_univ_three] <;> field_simp <;> nlinarith
  · rw [vec3, det_fin_three]
    simp
    field_simp
    norm_num

/-- C96, negation for repeated eigenvalues. `numpy.linalg.eig` does not promise orthogonal eigenvectors. If it returns, for the covariance matrix
`[[2, 1, 1], [1, 2, 1], [1, 1, 2]]`, the eigenvectors `(1, 1, 1)/√3`, `(1, -1, 0)/√2` and `(1, 0, -1)/√2`, then the quadrature of `x₀²` with
any number of points from two on is 7/3, while the variance is 2. -/
theorem C96_repeated_false :
    EigReturns 3 (eig3 cov3) ![4, 1, 1] vec3 ∧ EigenBasis (squareOf 3 cov3) ![4, 1, 1] vec3 ∧ PosDefinite (squareOf 3 cov3) ∧
    (∀ (hermegauss : ℕ → List ℝ × List ℝ) (n : ℕ), GaussRule n (hermegauss n) → 2 ≤ n → n ^ 3 < 2 ^ 32 →
      ∃ q : HQuad F, quad_gauss_hermite hermegauss (.one n) (some 3) none none (.expr {0}) none (some cov3) none = .ok q ∧
        ∀ (slack : ℕ) (f : SFn F), 1 ≤ slack → SFnOk f → f.dirs = [0, 1, 2] → (∀ x, f.value x = x 0 ^ 2) →
          quad_integrate slack eig3 q f = .ok (7 / 3)) ∧
    ∫ x : Fin 3 → ℝ, x 0 ^ 2 * normalDensityOf 0 (squareOf 3 cov3) x = 2 := by
  have h2 : (√2 : ℝ) * √2 = 2 := Real.mul_self_sqrt (by norm_num)
  have h3 : (√3 : ℝ) * √3 = 3 := Real.mul_self_sqrt (by norm_num)
  have h20 : (√2 : ℝ) ≠ 0 := (Real.sqrt_pos.2 (by norm_num)).ne'
  have h30 : (√3 : ℝ) ≠ 0 := (Real.sqrt_pos.2 (by norm_num)).ne'
  refine ⟨eig3_returns _, eig3_basis, cov3_pos, ?_, ?_⟩
  · intro hermegauss n hg hn hs
    obtain ⟨q, e, hb, h⟩ := C96_covariance (F := F) hg hn (n_points := .one n) (dim := some 3) (dirs := none) (by rintro - k hk; exact (Option.some.inj hk).symm)
      (Or.inl ⟨rfl, by simp⟩) hs (mean := none) (cov := cov3) (factor := .expr {0})
      ⟨by simp, by simp [cov3], by simp, ⟨by decide, by decide, by decide⟩, by simp [FactorOk]⟩
    refine ⟨q, e, ?_⟩
    intro slack f hsl hf hfd hval
    have hdirs : q.position.dirs = [0, 1, 2] := by
      have hl : q.position.dirs.length = 3 := hb.ok.pos.dirs.trans hb.dim
      refine List.ext_getElem? fun i => ?_
      by_cases hi : i < 3
      · rw [hb.position.first rfl i (by rw [hb.dim]; exact hi)]
        interval_cases i <;> rfl
      · rw [List.getElem?_eq_none_iff.2 (by omega), List.getElem?_eq_none_iff.2 (by simp; omega)]
    have hcov : q.position.cov = cov3 := hb.position.covGiven cov3 rfl
    have hmean : ∀ i, q.position.mean.getD i 0 = 0 := by
      intro i
      by_cases hi : i < 3
      · have := hb.position.zero rfl i (by rw [hb.dim]; exact hi)
        simp [this]
      · have : q.position.mean[i]? = none := List.getElem?_eq_none_iff.2 (by rw [hb.position.meanLength, hb.dim]; omega)
        simp [this]
    clear e hb
    obtain ⟨nodes, weights, ⟨dim, ds, mean, cov, types⟩, factor⟩ := q
    change ds = [0, 1, 2] at hdirs
    change ∀ i, mean.getD i 0 = 0 at hmean
    subst hdirs
    have := (h slack eig3 f ![4, 1, 1] vec3 0 0 hsl (eig3_returns _) (by intro k; fin_cases k <;> simp) hf hfd ?_).1
    · rw [this]
      congr 1
      change ∑ k : Fin 3, (![4, 1, 1] : Fin 3 → ℝ) k * vec3 0 k * vec3 0 k = 7 / 3
      simp [Fin.sum_univ_three, vec3]
      field_simp
      nlinarith
    · intro x
      rw [hval]
      have h0 : meanOf ⟨dim, [0, 1, 2], mean, cov, types⟩ 0 = 0 := hmean 0
      rw [h0]
      simp
      ring
  · have := (C96_density 0 cov3_pos).2.2.2 0 0
    simp only [Pi.zero_apply, sub_zero] at this
    have e : squareOf 3 cov3 0 0 = 2 := rfl
    rw [e] at this
    rw [← this]
    simp only [sq]

/-! ## Cases meeting the hypotheses -/

/-- A covariance matrix with correlations. -/
def cov2 : List (List ℝ) := [[2, 1], [1, 2]]

/-- Its eigenvectors. -/
noncomputable def vec2 : Matrix (Fin 2) (Fin 2) ℝ := !![1 / √2, 1 / √2; 1 / √2, -(1 / √2)]

/-- The position and its eigenvectors: distinct eigenvalues. -/
example : PosDefinite (squareOf 2 cov2) ∧ EigenBasis (squareOf 2 cov2) ![3, 1] vec2 ∧
    EigReturns 2 ([3, 1], [[1 / √2, 1 / √2], [1 / √2, -(1 / √2)]]) ![3, 1] vec2 ∧ Function.Injective (![3, 1] : Fin 2 → ℝ) := by
  have h2 : (√2 : ℝ) * √2 = 2 := Real.mul_self_sqrt (by norm_num)
  have h20 : (√2 : ℝ) ≠ 0 := (Real.sqrt_pos.2 (by norm_num)).ne'
  refine ⟨⟨?_, ?_⟩, ⟨?_, ?_, ?_⟩, ⟨rfl, ?_, ?_⟩, ?_⟩
  · ext i j
    fin_cases i <;> fin_cases j <;> rfl
  · intro x hx
    have e : x ⬝ᵥ squareOf 2 cov2 *ᵥ x = x 0 ^ 2 + x 1 ^ 2 + (x 0 + x 1) ^ 2 := by
      simp [dotProduct, mulVec, squareOf, cov2, entryOf, Fin.sum_univ_two]
      ring
    rw [e]
    by_contra h
    have h0 : x 0 = 0 := by nlinarith [sq_nonneg (x 0), sq_nonneg (x 1), sq_nonneg (x 0 + x 1)]
    have h1 : x 1 = 0 := by nlinarith [sq_nonneg (x 0), sq_nonneg (x 1), sq_nonneg (x 0 + x 1)]
    refine hx ?_
    funext i
    fin_cases i
    · exact h0
    · exact h1
  · intro j
    funext i
    fin_cases i <;> fin_cases j <;> simp [mulVec, dotProduct, squareOf, cov2, entryOf, vec2, Fin.sum_univ_two] <;> ring
  · intro j
    fin_cases j <;> simp [dotProduct, vec2, Fin.sum_univ_two] <;> field_simp <;> nlinarith
  · rw [vec2, det_fin_two]
    simp
    field_simp
    norm_num
  · intro i
    fin_cases i <;> rfl
  · ext i j
    fin_cases i <;> fin_cases j <;> rfl
  · intro i j h
    fin_cases i <;> fin_cases j <;> simp at h ⊢

/-- `Quad.gauss_hermite(2, dim=2, cov=[[2, 1], [1, 2]])`. -/
example : GaussRule 2 ((fun _ => gauss2 : ℕ → List ℝ × List ℝ) 2) ∧ CorrKeywords 2 none cov2 none (FactorArg.expr {0} : FactorArg F) :=
  ⟨gauss2_ok, by simp, by simp [cov2], by simp, ⟨by decide, by decide, by decide⟩, by simp [FactorOk]⟩

/-- The polynomial `x₀² x₁`. -/
example : TotalBelow (2 * 2) [0, 1] fun x => x 0 ^ 2 * x 1 := by
  refine ⟨MvPolynomial.X 0 ^ 2 * MvPolynomial.X 1, ?_, fun x => by simp⟩
  refine lt_of_le_of_lt (MvPolynomial.totalDegree_mul _ _) ?_
  have := MvPolynomial.totalDegree_pow (MvPolynomial.X (R := ℝ) (0 : Fin 2)) 2
  rw [MvPolynomial.totalDegree_X] at this
  have h1 : (MvPolynomial.X (R := ℝ) (1 : Fin 2)).totalDegree = 1 := MvPolynomial.totalDegree_X _
  exact lt_of_le_of_lt (add_le_add this h1.le) (by norm_num)

/-- Factors for the example: any function of the variables. -/
noncomputable local instance interp96 : Interp ((ℕ → ℝ) → ℝ) where
  val s a x := a fun d => if d ∈ s then x d else 0
  val_local s a x y h := by
    congr 1
    funext d
    split
    · exact h d (by assumption)
    · rfl

/-- The function `x₀²` of three directions. -/
example : ∃ f : SFn ((ℕ → ℝ) → ℝ), SFnOk f ∧ f.dirs = [0, 1, 2] ∧ ∀ x, f.value x = x 0 ^ 2 :=
  ⟨⟨[0, 1, 2], {{({0}, fun x => x 0 ^ 2)}}⟩, ⟨by simp, by simp⟩, rfl, fun x => by simp [SFn.value, productValue, Interp.val]⟩

/-- A position that is not diagonal. -/
example : ¬ (⟨2, [0, 1], [0, 0], cov2, ["hermite", "hermite"]⟩ : Position).is_diag := by
  rw [Position.is_diag, not_not]
  refine ⟨by simp, ?_⟩
  have := entry_le_norm (Matrix.of fun (i j : Fin 2) => if i = j then (0 : ℝ) else entryOf cov2 i j) 1 0
  rw [offDiagNorm]
  refine lt_of_lt_of_le ?_ this
  simp [entryOf, cov2]
  norm_num

end Hermipy.Props
