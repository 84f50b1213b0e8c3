import Verif.Props.GaussRule
import Mathlib.Analysis.Calculus.Taylor

/-! # C86: errors of the quadratures -/

namespace Hermipy.Props
open Hermipy Hermipy.Spec MeasureTheory
variable {F : Type}

theorem mem_cartesian_getD : ∀ {nodes : List (List ℝ)} {p : List ℝ}, p ∈ cartesian nodes → ∀ i < nodes.length, p.getD i 0 ∈ nodes.getD i []
  | [], p, _, i, hi => by simp at hi
  | l :: ls, p, hp, i, hi => by
    rw [cartesian, List.mem_flatMap] at hp
    obtain ⟨x, hx, hp⟩ := hp
    obtain ⟨p', hp', rfl⟩ := List.mem_map.1 hp
    cases i with
    | zero => simpa using hx
    | succ i => simpa using mem_cartesian_getD hp' i (by simpa using hi)

/-- If a rule with weights that are not negative integrates `p` and `W` exactly and `W` bounds the distance of `f` to `p`, then the error for `f`
is at most twice the integral of `W`. -/
theorem quadrature_error {nodes weights : List (List ℝ)} (hnn : ∀ l ∈ weights, ∀ w ∈ l, 0 ≤ w) {pos : Position} {c : ℝ} (hc : 0 ≤ c)
    {μ : Measure (Fin pos.dirs.length → ℝ)} {f p W : (ℕ → ℝ) → ℝ}
    (hp : quadrature nodes weights (fun _ y => p (gridPoint pos y)) = c * ∫ x, p (place pos.dirs x) ∂μ)
    (hW : quadrature nodes weights (fun _ y => W (gridPoint pos y)) = c * ∫ x, W (place pos.dirs x) ∂μ)
    (ip : Integrable (fun x => p (place pos.dirs x)) μ) (iW : Integrable (fun x => W (place pos.dirs x)) μ)
    (mf : AEStronglyMeasurable (fun x => f (place pos.dirs x)) μ)
    (hgrid : ∀ y ∈ cartesian nodes, |f (gridPoint pos y) - p (gridPoint pos y)| ≤ W (gridPoint pos y))
    (hae : ∀ᵐ x ∂μ, |f (place pos.dirs x) - p (place pos.dirs x)| ≤ W (place pos.dirs x)) :
    |quadrature nodes weights (fun _ y => f (gridPoint pos y)) - c * ∫ x, f (place pos.dirs x) ∂μ| ≤ 2 * (c * ∫ x, W (place pos.dirs x) ∂μ) := by
  have h1 : |quadrature nodes weights (fun _ y => f (gridPoint pos y)) - quadrature nodes weights (fun _ y => p (gridPoint pos y))| ≤
      quadrature nodes weights (fun _ y => W (gridPoint pos y)) := by
    rw [quadrature, quadrature, quadrature, ← Finset.sum_sub_distrib]
    refine (Finset.abs_sum_le_sum_abs _ _).trans (Finset.sum_le_sum fun i hi => ?_)
    have hi := Finset.mem_range.1 hi
    have hw : 0 ≤ (gridWeights weights).getD i 0 := by
      rcases Nat.lt_or_ge i (gridWeights weights).length with hi | hi
      · rw [List.getD_eq_getElem _ _ hi]
        exact cartesian_weights_nonneg hnn _ (List.getElem_mem hi)
      · rw [List.getD_eq_default _ _ hi]
    rw [← mul_sub, abs_mul, abs_of_nonneg hw]
    refine mul_le_mul_of_nonneg_left (hgrid _ ?_) hw
    rw [List.getD_eq_getElem _ _ hi]
    exact List.getElem_mem hi
  have id : Integrable (fun x => f (place pos.dirs x) - p (place pos.dirs x)) μ :=
    iW.mono' (mf.sub ip.aestronglyMeasurable) (hae.mono fun x hx => by simpa using hx)
  have h2 : |(∫ x, f (place pos.dirs x) ∂μ) - ∫ x, p (place pos.dirs x) ∂μ| ≤ ∫ x, W (place pos.dirs x) ∂μ := by
    have e : (fun x => f (place pos.dirs x)) = fun x => (f (place pos.dirs x) - p (place pos.dirs x)) + p (place pos.dirs x) := by
      funext x; ring
    rw [e, integral_add id ip, add_sub_cancel_right]
    refine (norm_integral_le_integral_norm _).trans (integral_mono_ae id.norm iW (hae.mono fun x hx => by simpa using hx))
  rw [hp, hW] at h1
  have h3 : |c * (∫ x, f (place pos.dirs x) ∂μ) - c * ∫ x, p (place pos.dirs x) ∂μ| ≤ c * ∫ x, W (place pos.dirs x) ∂μ := by
    rw [← mul_sub, abs_mul, abs_of_nonneg hc]
    exact mul_le_mul_of_nonneg_left h2 hc
  rw [abs_le] at *
  constructor <;> linarith [h1.1, h1.2, h3.1, h3.2]

theorem separated_integrable {dirs : List ℕ} (hn : dirs.Nodup) (μ : Fin dirs.length → Measure ℝ) [∀ i, SigmaFinite (μ i)] {m : ℕ} {a : ℕ → ℝ}
    {u : ℕ → ℕ → ℝ → ℝ} {g : (ℕ → ℝ) → ℝ} (hg : Separated m dirs a u g) (hi : ∀ t, ∀ i : Fin dirs.length, Integrable (u t i) (μ i)) :
    Integrable (fun x => g (place dirs x)) (Measure.pi μ) := by
  have e : (fun x => g (place dirs x)) = fun x => ∑ t ∈ Finset.range m, a t * ∏ i : Fin dirs.length, u t i (x i) := by
    funext x
    rw [hg]
    refine Finset.sum_congr rfl fun t _ => ?_
    congr 1
    refine Finset.prod_congr rfl fun i _ => ?_
    rw [place_get hn]
  rw [e]
  exact integrable_finsetSum _ fun t _ => (Integrable.fintype_prod (f := fun i : Fin dirs.length => u t i) (hi t)).const_mul _

theorem poly_integrable {n : ℕ} (hn : 0 < n) {pos : Position} (hd : pos.dirs.Nodup) (hv : Variances pos.cov) {g : (ℕ → ℝ) → ℝ}
    (h : PolyBelow n pos.dirs g) : Integrable (fun x => g (place pos.dirs x)) (normal pos) := by
  obtain ⟨m, a, k, -, hsep⟩ := poly_separated hn h
  exact separated_integrable hd _ hsep fun t i => integrable_pow _ (hv.nonneg i) _

/-- **C86.** Error of the quadratures made by `gauss_hermite`: if the function is within `W` of the polynomial `p`, where `p` and `W` have degree
less than `2n` in each direction, then the result differs from the integral against the normal density by at most twice the integral of `W`. -/
theorem C86_gauss [Interp F] {hermegauss : ℕ → List ℝ × List ℝ} {n d : ℕ} (hg : GaussRule n (hermegauss n)) (hn : 0 < n)
    {n_points : Points} {dim : Option ℕ} {dirs : Option (List ℕ)} (hdim : dirs = none → ∀ k, dim = some k → k = d)
    (hpts : (n_points = .one n ∧ (dirs = none → dim = none → d = 1)) ∨ n_points = .each (List.replicate d n)) (hs : n ^ d < 2 ^ 32)
    {mean : Option (List ℝ)} {cov : Option (List (List ℝ))} {factor : FactorArg F} (hk : Keywords d mean cov dirs factor) :
    ∃ q, quad_gauss_hermite hermegauss n_points dim dirs none factor mean cov none = .ok q ∧ Built q d n mean cov dirs none factor ∧
      ∀ (slack : ℕ) (eig : Eig) (f : SFn F), 1 ≤ slack → EigDiag eig → SFnOk f → f.dirs = q.position.dirs →
        AEStronglyMeasurable (fun x => f.value (place q.position.dirs x)) (normal q.position) →
        ∀ p W : (ℕ → ℝ) → ℝ, PolyBelow (2 * n) q.position.dirs p → PolyBelow (2 * n) q.position.dirs W → (∀ x, |f.value x - p x| ≤ W x) →
          ∃ v, quad_integrate slack eig q f = .ok v ∧
            |v - ∫ x, f.value (place q.position.dirs x) ∂(normal q.position)| ≤ 2 * ∫ x, W (place q.position.dirs x) ∂(normal q.position) := by
  obtain ⟨q, e, hb, hv, -, hW, -⟩ := gauss_hermite_built hg hn hdim hpts hs hk
  obtain ⟨q', e', -, -, hrule⟩ := gauss_hermite_rule hg hn hdim hpts hs hk
  obtain rfl : q = q' := Out.ok.inj (e.symm.trans e')
  refine ⟨q, e, hb, ?_⟩
  intro slack eig f hsl he hf hfd mf p W pp pW hfp
  refine ⟨_, quad_integrate_ok he hb.ok (fun _ => hsl) hfd hf.vars, ?_⟩
  have hnn : ∀ l ∈ q.weights, ∀ w ∈ l, 0 ≤ w := by
    rw [hW]
    intro l hl w hw
    rw [List.eq_of_mem_replicate hl, List.mem_map] at hw
    obtain ⟨w, hw, rfl⟩ := hw
    exact div_nonneg ((C83_weights hg).2.1 w hw).le (Real.sqrt_nonneg _)
  have := quadrature_error hnn (pos := q.position) (c := 1) zero_le_one (μ := normal q.position) (f := f.value) (p := p) (W := W)
    (by rw [one_mul]; exact hrule p pp) (by rw [one_mul]; exact hrule W pW) (poly_integrable (by omega) hb.ok.pos.nodup hv pp)
    (poly_integrable (by omega) hb.ok.pos.nodup hv pW) mf (fun y _ => hfp _) (Filter.Eventually.of_forall fun x => hfp _)
  rwa [one_mul, one_mul] at this

/-! ## Smooth functions of one variable -/

theorem taylor_error {g : ℝ → ℝ} {r : ℕ} (hg : ContDiff ℝ r g) {M : ℝ} (hM : ∀ x, |iteratedDeriv r g x| ≤ M) (m x : ℝ) :
    |g x - ∑ k ∈ Finset.range r, iteratedDeriv k g m / k.factorial * (x - m) ^ k| ≤ M / r.factorial * |x - m| ^ r := by
  cases r with
  | zero => simpa using hM x
  | succ r =>
    by_cases hx : m = x
    · subst hx
      rw [Finset.sum_eq_single 0]
      · simp
      · intro b _ hb
        rw [sub_self, zero_pow hb, mul_zero]
      · simp
    · obtain ⟨x', -, h⟩ := taylor_mean_remainder_lagrange_iteratedDeriv (n := r) hx (hg.contDiffOn (s := Set.uIcc m x))
      have e : taylorWithinEval g r (Set.uIcc m x) m x = ∑ k ∈ Finset.range (r + 1), iteratedDeriv k g m / k.factorial * (x - m) ^ k := by
        rw [taylor_within_apply]
        refine Finset.sum_congr rfl fun k hk => ?_
        have hk : k ≤ r + 1 := by have := Finset.mem_range.1 hk; omega
        rw [iteratedDerivWithin_eq_iteratedDeriv (uniqueDiffOn_uIcc hx) (hg.contDiffAt.of_le (by exact_mod_cast hk)) Set.left_mem_uIcc, smul_eq_mul]
        field_simp
      rw [← e, h, abs_div, abs_mul, abs_pow, Nat.abs_cast, div_mul_eq_mul_div]
      gcongr
      exact hM x'

/-- The even moments of the standard normal distribution. -/
theorem gE_even (j : ℕ) : gE (Polynomial.X ^ (2 * j)) = (2 * j).factorial / (2 ^ j * j.factorial) := by
  induction j with
  | zero => simpa using gE_one
  | succ j ih =>
    have h := gE_stein (Polynomial.X ^ (2 * j + 1))
    rw [← pow_succ', Polynomial.derivative_X_pow, Nat.add_sub_cancel, gE_C_mul, ih] at h
    rw [show 2 * (j + 1) = 2 * j + 1 + 1 by ring, h, Nat.factorial_succ, Nat.factorial_succ, Nat.factorial_succ]
    have : (j.factorial : ℝ) ≠ 0 := by positivity
    push_cast
    field_simp
    ring

open ProbabilityTheory in
theorem central_even (m : ℝ) {v : ℝ} (hv : 0 ≤ v) (j : ℕ) :
    ∫ y, (y - m) ^ (2 * j) ∂(gaussianReal m (Real.toNNReal v)) = v ^ j * ((2 * j).factorial / (2 ^ j * j.factorial)) := by
  rw [gaussianReal_affine m hv, integral_map (by fun_prop) (by fun_prop), ← gE_even, ← gaussianReal_one, ← integral_const_mul]
  congr 1
  funext y
  rw [add_sub_cancel_left, mul_pow, pow_mul (√v), Real.sq_sqrt hv]
  simp

/-- **C86.** For a function of one variable with `2j` continuous derivatives, the last of them bounded by `M`, the error of the rule with `n > j`
nodes is at most `2 M σ^(2j) / (2^j j!)`. -/
theorem C86_gauss_smooth [Interp F] {hermegauss : ℕ → List ℝ × List ℝ} {n k : ℕ} (hg : GaussRule n (hermegauss n)) (hs : n < 2 ^ 32) (hk : k < 5)
    {m v : ℝ} (hv : 0 ≤ v) {factor : FactorArg F} (hf : FactorOk [k] factor) {j : ℕ} (hj : j < n) :
    ∃ q, quad_gauss_hermite hermegauss (.one n) none (some [k]) none factor (some [m]) (some [[v]]) none = .ok q ∧ QuadOk q ∧
      ∀ (slack : ℕ) (eig : Eig) (f : SFn F), 1 ≤ slack → EigDiag eig → SFnOk f → f.dirs = [k] → ∀ g : ℝ → ℝ, (∀ x, f.value x = g (x k)) →
        ContDiff ℝ (2 * j : ℕ) g → ∀ M, (∀ x, |iteratedDeriv (2 * j) g x| ≤ M) →
        ∃ I, quad_integrate slack eig q f = .ok I ∧
          |I - ∫ y, g y ∂(ProbabilityTheory.gaussianReal m (Real.toNNReal v))| ≤ 2 * (M * v ^ j / (2 ^ j * j.factorial)) := by
  have hvar : Variances [[v]] := by
    refine ⟨?_, ?_⟩
    · rintro (_ | i) (_ | j) h <;> simp [entryOf] at h ⊢
    · rintro (_ | i) <;> simp [entryOf, hv]
  have hkw : Keywords 1 (some [m]) (some [[v]]) (some [k]) factor :=
    ⟨by simp, by simp [hvar], by simp, ⟨by simp, by simp [hk], by simp⟩, hf⟩
  obtain ⟨q, e, hb, herr⟩ := C86_gauss (F := F) hg (by omega) (n_points := .one n) (dim := none) (dirs := some [k]) (by simp)
    (Or.inl ⟨rfl, by simp⟩) (by simpa using hs) hkw
  refine ⟨q, e, hb.ok, ?_⟩
  intro slack eig f hsl he hfo hfd g hfg hgc M hM
  obtain ⟨nodes, weights, pos, fac⟩ := q
  obtain ⟨dim, dirs, mean, cov, types⟩ := pos
  have hdirs : dirs = [k] := hb.position.dirsGiven _ rfl
  have hmean : mean = [m] := hb.position.meanGiven _ rfl
  have hcov : cov = [[v]] := hb.position.covGiven _ rfl
  subst hdirs hmean hcov
  have hM0 : 0 ≤ M := (abs_nonneg _).trans (hM 0)
  -- the polynomials
  have pp : PolyBelow (2 * n) [k] (fun x => ∑ i ∈ Finset.range (2 * j), iteratedDeriv i g m / i.factorial * (x k - m) ^ i) := by
    refine ⟨∑ i ∈ Finset.range (2 * j), MvPolynomial.C (iteratedDeriv i g m / i.factorial) * (MvPolynomial.X 0 - MvPolynomial.C m) ^ i, ?_, ?_⟩
    · intro i
      refine lt_of_le_of_lt (MvPolynomial.degreeOf_sum_le _ _ _) ((Finset.sup_lt_iff (by simp; omega)).2 fun b hb => ?_)
      have := Finset.mem_range.1 hb
      have h1 := MvPolynomial.degreeOf_mul_le i (MvPolynomial.C (iteratedDeriv b g m / b.factorial)) ((MvPolynomial.X 0 - MvPolynomial.C m) ^ b)
      have h2 := MvPolynomial.degreeOf_pow_le i (MvPolynomial.X 0 - MvPolynomial.C m : MvPolynomial (Fin [k].length) ℝ) b
      have h3 := MvPolynomial.degreeOf_sub_le i (MvPolynomial.X 0 : MvPolynomial (Fin [k].length) ℝ) (MvPolynomial.C m)
      rw [MvPolynomial.degreeOf_C] at h1 h3
      have h4 : MvPolynomial.degreeOf i (MvPolynomial.X 0 : MvPolynomial (Fin [k].length) ℝ) ≤ 1 := by
        rw [MvPolynomial.degreeOf_X]; split <;> omega
      have h5 : b * MvPolynomial.degreeOf i (MvPolynomial.X 0 - MvPolynomial.C m : MvPolynomial (Fin [k].length) ℝ) ≤ b * 1 :=
        Nat.mul_le_mul_left b (by omega)
      omega
    · intro x
      simp
  have pW : PolyBelow (2 * n) [k] (fun x => M / (2 * j).factorial * (x k - m) ^ (2 * j)) := by
    refine ⟨MvPolynomial.C (M / (2 * j).factorial) * (MvPolynomial.X 0 - MvPolynomial.C m) ^ (2 * j), ?_, ?_⟩
    · intro i
      have h1 := MvPolynomial.degreeOf_mul_le i (MvPolynomial.C (M / (2 * j).factorial)) ((MvPolynomial.X 0 - MvPolynomial.C m) ^ (2 * j))
      have h2 := MvPolynomial.degreeOf_pow_le i (MvPolynomial.X 0 - MvPolynomial.C m : MvPolynomial (Fin [k].length) ℝ) (2 * j)
      have h3 := MvPolynomial.degreeOf_sub_le i (MvPolynomial.X 0 : MvPolynomial (Fin [k].length) ℝ) (MvPolynomial.C m)
      rw [MvPolynomial.degreeOf_C] at h1 h3
      have h4 : MvPolynomial.degreeOf i (MvPolynomial.X 0 : MvPolynomial (Fin [k].length) ℝ) ≤ 1 := by
        rw [MvPolynomial.degreeOf_X]; split <;> omega
      have h5 : (2 * j) * MvPolynomial.degreeOf i (MvPolynomial.X 0 - MvPolynomial.C m : MvPolynomial (Fin [k].length) ℝ) ≤ (2 * j) * 1 :=
        Nat.mul_le_mul_left _ (by omega)
      omega
    · intro x
      simp
  have hle : ∀ x : ℝ, |g x - ∑ i ∈ Finset.range (2 * j), iteratedDeriv i g m / i.factorial * (x - m) ^ i| ≤
      M / (2 * j).factorial * (x - m) ^ (2 * j) := by
    intro x
    have := taylor_error hgc hM m x
    rwa [(even_two_mul j).pow_abs] at this
  have hgcont : Continuous g := hgc.continuous
  have hpl : Continuous fun x : Fin [k].length → ℝ => g (place [k] x k) := by
    have : (fun x : Fin [k].length → ℝ => g (place [k] x k)) = fun x => g (x 0) := by
      funext x; simp [place]
    rw [this]
    exact hgcont.comp (continuous_apply _)
  obtain ⟨I, hI, hbd⟩ := herr slack eig f hsl he hfo hfd (by simp only [hfg]; exact hpl.aestronglyMeasurable) _ _ pp pW
    (fun x => by rw [hfg]; exact hle _)
  refine ⟨I, hI, ?_⟩
  have nd : [k].Nodup := by simp
  have inte : ∀ u : ℝ → ℝ, Integrable u (ProbabilityTheory.gaussianReal m (Real.toNNReal v)) →
      ∫ x, u (place [k] x k) ∂(normal ⟨dim, [k], [m], [[v]], types⟩) = ∫ y, u y ∂(ProbabilityTheory.gaussianReal m (Real.toNNReal v)) := by
    intro u hu
    have hsep : Separated 1 [k] (fun _ => 1) (fun _ _ => u) (fun x => u (x k)) := by intro x; simp
    have := integral_separated nd (fun i : Fin [k].length => ProbabilityTheory.gaussianReal (([m] : List ℝ).getD i 0)
      (Real.toNNReal (entryOf [[v]] i i))) hsep (by intro t i; fin_cases i; simpa [entryOf] using hu)
    rw [normal]
    refine this.trans ?_
    simp [entryOf]
  have intPow : ∀ i, Integrable (fun y : ℝ => (y - m) ^ i) (ProbabilityTheory.gaussianReal m (Real.toNNReal v)) := by
    intro i
    rw [gaussianReal_affine m hv, integrable_map_measure (by fun_prop) (by fun_prop)]
    refine (integrable_one ((Polynomial.C (√v) * Polynomial.X) ^ i)).congr (Filter.Eventually.of_forall fun y => ?_)
    simp
  have intT : Integrable (fun y : ℝ => ∑ i ∈ Finset.range (2 * j), iteratedDeriv i g m / i.factorial * (y - m) ^ i)
      (ProbabilityTheory.gaussianReal m (Real.toNNReal v)) := integrable_finsetSum _ fun i _ => (intPow i).const_mul _
  have intg : Integrable g (ProbabilityTheory.gaussianReal m (Real.toNNReal v)) := by
    have := ((intPow (2 * j)).const_mul (M / (2 * j).factorial)).mono' (hgcont.aestronglyMeasurable.sub intT.aestronglyMeasurable)
      (Filter.Eventually.of_forall fun x => by simpa using hle x)
    have h := this.add intT
    refine h.congr (Filter.Eventually.of_forall fun x => ?_)
    simp
  simp only [hfg] at hbd
  rw [inte g intg, inte (fun y => M / (2 * j).factorial * (y - m) ^ (2 * j)) ((intPow _).const_mul _), integral_const_mul, central_even m hv] at hbd
  refine hbd.trans (le_of_eq ?_)
  have : ((2 * j).factorial : ℝ) ≠ 0 := by positivity
  field_simp

/-! ## Fourier -/

theorem trig_integrable {n : ℕ} {dirs : List ℕ} (hd : dirs.Nodup) {bounds : List (ℝ × ℝ)} {g : (ℕ → ℝ) → ℝ} (h : TrigBelow n dirs bounds g) :
    Integrable (fun x => g (place dirs x)) (box dirs.length bounds) := by
  obtain ⟨m, a, k, θ, -, hsum⟩ := h
  have hsep : Separated m dirs a (fun t i y => Real.cos (k t i * (2 * Real.pi / ((bounds.getD i 0).2 - (bounds.getD i 0).1)) * y + θ t i)) g :=
    hsum
  refine separated_integrable hd _ hsep fun t i => Continuous.integrableOn_Icc ?_
  fun_prop

/-- The points of the rule lie in the box. -/
theorem fourier_node_mem {n : ℕ} {x : ℝ} (hx : x ∈ fourierNodes n) {l r : ℝ} (h : l < r) :
    l ≤ l / 2 + r / 2 + √(((r - l) / (2 * Real.pi)) ^ 2) * x ∧ l / 2 + r / 2 + √(((r - l) / (2 * Real.pi)) ^ 2) * x ≤ r := by
  rw [fourierNodes, List.mem_map] at hx
  obtain ⟨j, hj, rfl⟩ := hx
  have hj := List.mem_range.1 hj
  have hn : (0 : ℝ) < n := by exact_mod_cast (by omega : 0 < n)
  have hjn : (j : ℝ) / n ≤ 1 := by rw [div_le_one hn]; exact_mod_cast hj.le
  have hj0 : 0 ≤ (j : ℝ) / n := by positivity
  have hpi := Real.pi_pos
  have hrl : 0 < r - l := by linarith
  rw [Real.sqrt_sq (by positivity)]
  have e : l / 2 + r / 2 + (r - l) / (2 * Real.pi) * (-Real.pi + 2 * Real.pi * (j : ℝ) / n) = l + (r - l) * ((j : ℝ) / n) := by
    field_simp
    ring
  rw [e]
  constructor
  · have := mul_nonneg hrl.le hj0
    linarith
  · have := mul_le_mul_of_nonneg_left hjn hrl.le
    linarith

/-- **C86.** Error of the quadratures made by `fourier`: if in the box the function is within `W` of the sum `p` of waves, where `p` and `W` have
less than `n` periods in each direction, then the result differs from the rescaled integral over the box by at most twice that of `W`. -/
theorem C86_fourier [Interp F] {n d : ℕ} (hn : 0 < n) {n_points : Points} {bounds : Option (List (ℝ × ℝ))} {dirs : Option (List ℕ)}
    (hpts : (n_points = .one n ∧ (dirs = none → bounds = none → d = 1)) ∨ n_points = .each (List.replicate d n))
    (hb : ∀ b, bounds = some b → b.length = d ∧ ∀ x ∈ b, x.1 < x.2) (hlen : ∀ ds, dirs = some ds → ds.length = d)
    (hd : DirsOk (dirs.getD (List.range d))) (hs : n ^ d < 2 ^ 32) {factor : FactorArg F} (hf : FactorOk (dirs.getD (List.range d)) factor)
    {b : List (ℝ × ℝ)} (hbd : b = bounds.getD (List.replicate d (-Real.pi, Real.pi))) {c : ℝ}
    (hc : c = ∏ i ∈ Finset.range d, (2 * Real.pi / ((b.getD i 0).2 - (b.getD i 0).1))) :
    ∃ q, quad_fourier n_points bounds none factor dirs = .ok q ∧ QuadOk q ∧ q.position.dirs = dirs.getD (List.range d) ∧
      ∀ (slack : ℕ) (eig : Eig) (f : SFn F), EigDiag eig → SFnOk f → f.dirs = q.position.dirs →
        AEStronglyMeasurable (fun x => f.value (place q.position.dirs x)) (box q.position.dirs.length b) →
        ∀ p W : (ℕ → ℝ) → ℝ, TrigBelow n q.position.dirs b p → TrigBelow n q.position.dirs b W →
          (∀ x, (∀ i : Fin q.position.dirs.length, (b.getD i 0).1 ≤ x (q.position.dirs.get i) ∧ x (q.position.dirs.get i) ≤ (b.getD i 0).2) →
            |f.value x - p x| ≤ W x) →
          ∃ v, quad_integrate slack eig q f = .ok v ∧
            |v - c * ∫ x, f.value (place q.position.dirs x) ∂(box q.position.dirs.length b)| ≤
              2 * (c * ∫ x, W (place q.position.dirs x) ∂(box q.position.dirs.length b)) := by
  obtain ⟨q, e, ok, hqd, hdf, hN, hW, hmean, hcov, hlt, -, hrule⟩ := fourier_rule (F := F) hn hpts hb hlen hd hs hf
  rw [← hbd] at hmean hcov hlt hrule
  rw [← hc] at hrule
  refine ⟨q, e, ok, hqd, ?_⟩
  intro slack eig f he hfo hfd mf p W tp tW hfp
  refine ⟨_, quad_integrate_ok he ok (fun h => absurd (hdf 0 h) (by simp)) hfd hfo.vars, ?_⟩
  have hpi := Real.pi_pos
  have hl : q.position.dirs.length = d := by
    have := ok.dim
    rw [ok.pos.dirs, ← ok.dim, hN]
    simp
  have hc0 : 0 ≤ c := by
    rw [hc]
    refine Finset.prod_nonneg fun i hi => ?_
    have := hlt i (Finset.mem_range.1 hi)
    exact div_nonneg (by linarith) (by linarith)
  refine quadrature_error ?_ hc0 (hrule p tp) (hrule W tW) (trig_integrable ok.pos.nodup tp) (trig_integrable ok.pos.nodup tW) mf ?_ ?_
  · rw [hW]
    intro l hl w hw
    rw [List.eq_of_mem_replicate hl] at hw
    rw [fourierWeights] at hw
    have : w = 2 * Real.pi / n := by simpa using (List.eq_of_mem_replicate hw)
    rw [this]
    positivity
  · intro y hy
    refine hfp _ fun i => ?_
    rw [gridPoint_get ok.pos.nodup]
    have hi : (i : ℕ) < d := by rw [← hl]; exact i.2
    have hyi := mem_cartesian_getD hy i (by rw [hN]; simpa using hi)
    rw [hmean i hi, hcov i hi]
    refine fourier_node_mem (n := n) ?_ (hlt i hi)
    rw [hN] at hyi
    simpa [hi] using hyi
  · have hae : ∀ᵐ x ∂(box q.position.dirs.length b), ∀ i : Fin q.position.dirs.length, x i ∈ Set.Icc (b.getD i 0).1 (b.getD i 0).2 := by
      rw [box, ae_all_iff]
      intro i
      have := (Measure.tendsto_eval_ae_ae (μ := fun i : Fin q.position.dirs.length => volume.restrict (Set.Icc (b.getD i 0).1 (b.getD i 0).2))
        (i := i)).eventually (ae_restrict_mem measurableSet_Icc)
      exact this
    filter_upwards [hae] with x hx
    refine hfp _ fun i => ?_
    rw [place_get ok.pos.nodup]
    exact hx i

/-- **C86.** A function of one variable that is the sum of a Fourier series with absolutely summable coefficients: the error is at most `4π` times
the sum of the coefficients that the rule does not resolve. -/
theorem C86_fourier_series [Interp F] {n k : ℕ} (hn : 0 < n) (hs : n < 2 ^ 32) (hk : k < 5) {l r : ℝ} (hlr : l < r) {factor : FactorArg F}
    (hf : FactorOk [k] factor) :
    ∃ q, quad_fourier (.one n) (some [(l, r)]) none factor (some [k]) = .ok q ∧ QuadOk q ∧
      ∀ (slack : ℕ) (eig : Eig) (f : SFn F), EigDiag eig → SFnOk f → f.dirs = [k] → ∀ a θ : ℕ → ℝ, Summable (fun i => |a i|) →
        (∀ x, f.value x = ∑' i : ℕ, a i * Real.cos (i * (2 * Real.pi / (r - l)) * x k + θ i)) →
        ∃ I, quad_integrate slack eig q f = .ok I ∧
          |I - 2 * Real.pi / (r - l) * ∫ y in Set.Icc l r, ∑' i : ℕ, a i * Real.cos (i * (2 * Real.pi / (r - l)) * y + θ i)| ≤
            4 * Real.pi * ∑' i, |a (i + n)| := by
  have hpi := Real.pi_pos
  have hrl : 0 < r - l := by linarith
  obtain ⟨q, e, ok, hqd, herr⟩ := C86_fourier (F := F) hn (d := 1) (n_points := .one n) (bounds := some [(l, r)]) (dirs := some [k])
    (Or.inl ⟨rfl, by simp⟩) (by simp [hlr]) (by simp) ⟨by simp, by simp [hk], by simp⟩ (by simpa using hs) hf rfl rfl
  refine ⟨q, e, ok, ?_⟩
  intro slack eig f he hfo hfd a θ ha hfv
  obtain ⟨nodes, weights, pos, fac⟩ := q
  obtain ⟨dim, dirs, mean, cov, types⟩ := pos
  have hqd : dirs = [k] := hqd
  subst hqd
  obtain ⟨u, hu⟩ : ∃ u : ℝ → ℝ, u = fun y => ∑' i : ℕ, a i * Real.cos (i * (2 * Real.pi / (r - l)) * y + θ i) := ⟨_, rfl⟩
  have hsum : ∀ y : ℝ, Summable fun i : ℕ => a i * Real.cos (i * (2 * Real.pi / (r - l)) * y + θ i) := by
    intro y
    refine Summable.of_norm_bounded ha fun i => ?_
    rw [Real.norm_eq_abs, abs_mul]
    exact mul_le_of_le_one_right (abs_nonneg _) (Real.abs_cos_le_one _)
  have huc : Continuous u := by
    rw [hu]
    refine continuous_tsum (u := fun i => |a i|) (fun i => by fun_prop) ha fun i y => ?_
    rw [Real.norm_eq_abs, abs_mul]
    exact mul_le_of_le_one_right (abs_nonneg _) (Real.abs_cos_le_one _)
  have hfu : ∀ x, f.value x = u (x k) := by intro x; rw [hu]; exact hfv x
  have tp : TrigBelow n [k] [(l, r)] (fun x => ∑ i ∈ Finset.range n, a i * Real.cos (i * (2 * Real.pi / (r - l)) * x k + θ i)) := by
    refine ⟨n, a, fun t _ => if t < n then t else 0, fun t _ => θ t, fun t i => by dsimp only; split <;> omega, fun x => ?_⟩
    refine Finset.sum_congr rfl fun t ht => ?_
    have ht := Finset.mem_range.1 ht
    simp [ht]
  have tW : TrigBelow n [k] [(l, r)] (fun _ => ∑' i, |a (i + n)|) :=
    ⟨1, fun _ => ∑' i, |a (i + n)|, fun _ _ => 0, fun _ _ => 0, fun _ _ => hn, fun x => by simp⟩
  have hpl : Continuous fun x : Fin [k].length → ℝ => u (place [k] x k) := by
    have : (fun x : Fin [k].length → ℝ => u (place [k] x k)) = fun x => u (x 0) := by
      funext x; simp [place]
    rw [this]
    exact huc.comp (continuous_apply _)
  obtain ⟨I, hI, hbd⟩ := herr slack eig f he hfo hfd (by simp only [hfu]; exact hpl.aestronglyMeasurable) _ _ tp tW (by
    intro x _
    rw [hfv]
    have := (hsum (x k)).sum_add_tsum_nat_add n
    rw [← this, add_sub_cancel_left]
    have hs2 : Summable fun i => |a (i + n)| := (summable_nat_add_iff n).2 ha
    rw [← Real.norm_eq_abs]
    refine tsum_of_norm_bounded hs2.hasSum fun i => ?_
    rw [Real.norm_eq_abs, abs_mul]
    exact mul_le_of_le_one_right (abs_nonneg _) (Real.abs_cos_le_one _))
  refine ⟨I, hI, ?_⟩
  have nd : [k].Nodup := by simp
  have inte : ∀ w : ℝ → ℝ, Continuous w → ∫ x, w (place [k] x k) ∂(box [k].length [(l, r)]) = ∫ y in Set.Icc l r, w y := by
    intro w hw
    have hsep : Separated 1 [k] (fun _ => 1) (fun _ _ => w) (fun x => w (x k)) := by intro x; simp
    have := integral_separated nd (fun i : Fin [k].length => volume.restrict (Set.Icc (([(l, r)] : List (ℝ × ℝ)).getD i 0).1
      (([(l, r)] : List (ℝ × ℝ)).getD i 0).2)) hsep (by intro t i; exact hw.integrableOn_Icc)
    rw [box]
    refine this.trans ?_
    simp
  simp only [hfu, Option.getD_some] at hbd
  rw [inte u huc, inte (fun _ => ∑' i, |a (i + n)|) continuous_const] at hbd
  simp only [Finset.prod_range_one, List.getD_cons_zero, setIntegral_const, Real.volume_real_Icc_of_le hlr.le, smul_eq_mul] at hbd
  rw [hu] at hbd
  refine hbd.trans (le_of_eq ?_)
  field_simp
  ring

/-! ## The hypotheses can be met -/

/-- The sine has all derivatives bounded by one, so with `n` nodes the error is at most `2 / (2^(n-1) (n-1)!)`. -/
example (j : ℕ) : ContDiff ℝ (2 * j : ℕ) Real.sin ∧ ∀ x, |iteratedDeriv (2 * j) Real.sin x| ≤ 1 := by
  refine ⟨Real.contDiff_sin, fun x => ?_⟩
  rw [Real.iteratedDeriv_even_sin]
  simpa [abs_mul] using Real.abs_sin_le_one x

/-- Coefficients of a series which is not a finite sum. -/
example : Summable (fun i : ℕ => |((1 : ℝ) / 2) ^ i|) := by
  simpa [abs_pow] using summable_geometric_two

end Hermipy.Props
