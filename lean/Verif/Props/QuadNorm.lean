import Verif.Lemmas.Flat
import Verif.Lemmas.Spectrum
import Verif.Props.QuadConstructors
import Verif.Props.QuadEval
import Verif.Props.QuadIntegrate

/-! # C79: integrals without weight, and norms -/

namespace Hermipy.Props
open Hermipy Hermipy.Spec MeasureTheory
variable {F : Type} [Interp F]

/-- C79. `integrate` of a function, with and without `flat`. With `flat` the values are divided by the density of the position; if Hermite
and other directions are mixed, the result is too large by the factor `surplus`. -/
theorem C79_flat {slack : ℕ} {eig : Eig} (he : EigDiag eig) {q : HQuad F} (hq : QuadOk q) (hs : 0 ∈ q.do_fourier → 1 ≤ slack)
    (h5 : ∀ d ∈ q.position.dirs, d < 5) (hv : PosVar q.position) {f : Integrand F} {g : (ℕ → ℝ) → ℝ} (hf : StandsFor q.position.dirs f g) :
    quad_integrate_flat slack eig q true f = .ok (surplus q.position *
      quadrature q.nodes q.weights fun _ p => g (gridPoint q.position p) / density q.position (gridPoint q.position p)) ∧
    quad_integrate_flat slack eig q false f = .ok (quadrature q.nodes q.weights fun _ p => g (gridPoint q.position p)) := by
  have hg := standsFor_grid (slack := slack) he hq h5 hf
  rw [quad_integrate_flat_ok he hq hs h5 hv hg (by simp), quad_integrate_plain_ok hq hs hg (by simp)]
  constructor
  · congr 2
    apply quadrature_congr
    intro i p hp
    simp [hp]
  · congr 1
    apply quadrature_congr
    intro i p hp
    simp [hp]

omit [Interp F] in
/-- There is no surplus if all the directions are of the same kind. -/
theorem surplus_pure {p : Position} (h : hermiteDirs p = 0 ∨ otherDirs p = 0) : surplus p = 1 := by
  rw [surplus]
  split
  · rfl
  · rw [h.resolve_left (by assumption)]
    simp

omit [Interp F] in
theorem surplus_mixed {p : Position} (h : 0 < hermiteDirs p) (h' : 0 < otherDirs p) : 1 < surplus p := by
  rw [surplus, if_neg h.ne', Real.lt_sqrt (by norm_num), one_pow]
  exact one_lt_pow₀ (by have := Real.pi_gt_three; linarith) h'.ne'

/-- C79. For Fourier directions, `flat` changes nothing. -/
theorem C79_flat_fourier {slack : ℕ} {eig : Eig} (he : EigDiag eig) {q : HQuad F} (hq : QuadOk q) (hs : 0 ∈ q.do_fourier → 1 ≤ slack)
    (h5 : ∀ d ∈ q.position.dirs, d < 5) (ht : ∀ t ∈ q.position.types, t = "fourier") {f : Integrand F} {g : (ℕ → ℝ) → ℝ}
    (hf : StandsFor q.position.dirs f g) (flat : Bool) :
    quad_integrate_flat slack eig q flat f = .ok (quadrature q.nodes q.weights fun _ p => g (gridPoint q.position p)) := by
  have hh : ∀ i < q.position.dim, q.position.types.getD i "" ≠ "hermite" := by
    intro i hi
    have hi : i < q.position.types.length := by rw [hq.pos.types]; exact hi
    rw [List.getD_eq_getElem _ _ hi, ht _ (List.getElem_mem hi)]
    decide
  have hv : PosVar q.position := fun i hi h => absurd h (hh i hi)
  have h0 : hermiteDirs q.position = 0 := by
    rw [hermiteDirs, List.length_eq_zero_iff, List.filter_eq_nil_iff]
    intro t htt
    rw [ht t htt]
    decide
  obtain ⟨h1, h2⟩ := C79_flat he hq hs h5 hv hf
  cases flat with
  | false => exact h2
  | true =>
    rw [h1, surplus_pure (Or.inl h0), one_mul]
    congr 2
    funext i p
    rw [density, Finset.prod_eq_one, div_one]
    intro i hi
    rw [weight1D, if_neg (hh i (Finset.mem_range.1 hi))]

/-- C79. With the quadratures of `Quad.gauss_hermite`, the flat integral of a polynomial of degree less than `2n` in each direction times
the density is its integral over the whole space. -/
theorem C79_flat_gauss {hermegauss : ℕ → List ℝ × List ℝ} {n d : ℕ} (hg : GaussRule n (hermegauss n)) (hn : 0 < n)
    {n_points : Points} {dim : Option ℕ} {dirs : Option (List ℕ)} (hdim : dirs = none → ∀ k, dim = some k → k = d)
    (hpts : (n_points = .one n ∧ (dirs = none → dim = none → d = 1)) ∨ n_points = .each (List.replicate d n)) (hs : n ^ d < 2 ^ 32)
    {mean : Option (List ℝ)} {cov : Option (List (List ℝ))} {factor : FactorArg F} (hk : Keywords d mean cov dirs factor)
    (hpos : ∀ c, cov = some c → ∀ i < d, 0 < entryOf c i i) :
    ∃ q, quad_gauss_hermite hermegauss n_points dim dirs none factor mean cov none = .ok q ∧ Built q d n mean cov dirs none factor ∧
      ∀ (slack : ℕ) (eig : Eig) (f : Integrand F) (g u : (ℕ → ℝ) → ℝ), 1 ≤ slack → EigDiag eig → StandsFor q.position.dirs f g →
        PolyBelow (2 * n) q.position.dirs u →
        (∀ x, g x = u x * ∏ i : Fin q.position.dirs.length,
          normalDensity (q.position.mean.getD i 0) (entryOf q.position.cov i i) (x (q.position.dirs.get i))) →
        quad_integrate_flat slack eig q true f = .ok (∫ x, g (place q.position.dirs x)) := by
  obtain ⟨q, e, hb, hvar, hrule⟩ := gauss_hermite_rule hg hn hdim hpts hs hk
  refine ⟨q, e, hb, ?_⟩
  intro slack eig f g u hsl he hf hu hgu
  have hcov : ∀ i < q.position.dim, 0 < entryOf q.position.cov i i := by
    cases cov with
    | some c => rw [hb.dim, hb.position.covGiven c rfl]; exact hpos c rfl
    | none =>
      intro i hi
      obtain ⟨r, h1, h2, h3⟩ := hb.position.eye rfl i hi
      simp [entryOf, h1, h3 i hi]
  have hherm : ∀ i < q.position.dim, q.position.types.getD i "" = "hermite" := by
    intro i hi
    have := hb.position.hermite rfl i hi
    simp [this]
  have hdl : q.position.dirs.length = q.position.dim := hb.ok.pos.dirs
  have h5 : ∀ k ∈ q.position.dirs, k < 5 := by
    cases dirs with
    | some ds => rw [hb.position.dirsGiven ds rfl]; exact hk.dirsOk.symbols
    | none =>
      intro k hkm
      obtain ⟨i, hi, rfl⟩ := List.mem_iff_getElem.1 hkm
      have h1 := hb.position.first rfl i (by rw [← hdl]; exact hi)
      rw [List.getElem?_eq_getElem hi] at h1
      rw [Option.some.inj h1]
      exact hk.dirsOk.symbols i (by simp; rw [← hb.dim, ← hdl]; exact hi)
  have hv : PosVar q.position := fun i hi _ => hcov i hi
  have h0 : otherDirs q.position = 0 := by
    rw [otherDirs, List.length_eq_zero_iff, List.filter_eq_nil_iff]
    intro t ht
    obtain ⟨i, hi, rfl⟩ := List.mem_iff_getElem.1 ht
    have := hherm i (by rw [← hb.ok.pos.types]; exact hi)
    rw [List.getD_eq_getElem _ _ hi] at this
    simp [this]
  have hdens : ∀ x, density q.position x = ∏ i : Fin q.position.dirs.length,
      normalDensity (q.position.mean.getD i 0) (entryOf q.position.cov i i) (x (q.position.dirs.get i)) := by
    intro x
    rw [density, ← hdl, Finset.prod_range]
    refine Finset.prod_congr rfl fun i _ => ?_
    rw [weight1D, if_pos (hherm i (by rw [← hdl]; exact i.2))]
    simp
  rw [(C79_flat he hb.ok (fun _ => hsl) h5 hv hf).1, surplus_pure (Or.inr h0), one_mul]
  obtain ⟨m, a, k, hkn, hsep⟩ := poly_separated (by omega) hu
  have hr := hrule u hu
  rw [integral_normal hb.ok.pos hcov hsep] at hr
  have e1 : (fun x => g (place q.position.dirs x)) = fun x => u (place q.position.dirs x) *
      ∏ i : Fin q.position.dirs.length, normalDensity (q.position.mean.getD i 0) (entryOf q.position.cov i i) (x i) := by
    funext x
    rw [hgu]
    simp only [place_get hb.ok.pos.nodup]
  rw [e1, ← hr]
  congr 2
  funext i p
  rw [hgu, ← hdens, mul_div_cancel_right₀ _ (density_pos hv _).ne']

/-- C79. If no factor of the function and of the factor of the quadrature depends on both Hermite and other directions, the flat integral
with `tensorize` is the quadrature of the function divided by the density; without `tensorize` it is `surplus` times this. -/
theorem C79_flat_tensorize_partial {order : ℕ → Finset (Finset ℕ) → List (Finset ℕ)} (ho : OrderOk order) (k : ℕ) {slack : ℕ} {eig : Eig}
    (he : EigDiag eig) {q : HQuad F} (hq : QuadOk q) {p : Product F} (hp : q.factor.terms = {p}) (hs : 0 ∈ q.do_fourier → 1 ≤ slack)
    (h5 : ∀ d ∈ q.position.dirs, d < 5) (hvar : PosVar q.position) {f : SFn F} (hf : SFnOk f) (hd : f.dirs = q.position.dirs)
    (hne : f.terms ≠ 0) (hup : Unmixed q.position p) (huf : ∀ args ∈ f.terms, Unmixed q.position args) :
    ∃ I, quad_integrate_flat_tensorize order k slack eig q true f = .ok I ∧
      quad_integrate_flat slack eig q true (.fn f) = .ok (surplus q.position * I) ∧
      I = quadrature q.nodes q.weights fun _ x => f.value (gridPoint q.position x) / density q.position (gridPoint q.position x) :=
  ⟨_, flat_tensorize_ok ho k he hq hp hs h5 hvar hf hd hne hup huf,
    (C79_flat he hq hs h5 hvar (f := .fn f) (g := f.value) ⟨hf, hd, fun _ => rfl⟩).1, rfl⟩

/-- C79 is false for mixtures: the flat integral depends on `tensorize`. -/
theorem C79_mixture_false {order : ℕ → Finset (Finset ℕ) → List (Finset ℕ)} (ho : OrderOk order) (k : ℕ) {eig : Eig} (he : EigDiag eig) :
    ∃ (q : HQuad ℝ) (f : SFn ℝ) (_ : Interp ℝ), QuadOk q ∧ SFnOk f ∧ f.dirs = q.position.dirs ∧ PosVar q.position ∧ ∃ I J,
      quad_integrate_flat_tensorize order k 1 eig q true f = .ok I ∧ quad_integrate_flat 1 eig q true (.fn f) = .ok J ∧ I < J := by
  have hv : PosVar (quadW 1).position := by
    intro i hi _
    have : i < 2 := hi
    match i with
    | 0 => simp [quadW, entryOf, diagMat]
    | 1 => simp [quadW, entryOf, diagMat]
  have hf : SFnOk (⟨[0, 1], {0}⟩ : SFn ℝ) := ⟨by simp, by simp⟩
  let _ : Interp ℝ := ⟨fun s c x => c + ∑ d ∈ s, x d, fun s c x y h => by rw [Finset.sum_congr rfl h]⟩
  obtain ⟨I, e1, e2, hI⟩ := C79_flat_tensorize_partial ho k he (quadW_ok 1) (p := 0) rfl (fun _ => le_refl 1) (by simp [quadW]) hv hf rfl
    (by simp) (by intro a ha; simp at ha) (by intro args h a ha; simp at h; subst h; simp at ha)
  refine ⟨quadW 1, _, inferInstance, quadW_ok 1, hf, rfl, hv, I, _, e1, e2, ?_⟩
  have hpos : 0 < I := by
    have hd := density_pos hv (gridPoint (quadW 1).position [0, 0])
    have : I = 1 / density (quadW 1).position (gridPoint (quadW 1).position [0, 0]) := by
      rw [hI]
      simp [quadrature, quadW, gridPoints, gridWeights, cartesian, SFn.value, productValue]
    rw [this]
    positivity
  have hs := surplus_mixed (p := (quadW 1).position) (by decide) (by decide)
  nlinarith

/-! ## Norms -/

theorem integralOf_eq {slack : ℕ} {eig : Eig} (he : EigDiag eig) {q : HQuad F} (hq : QuadOk q) (hs : 0 ∈ q.do_fourier → 1 ≤ slack)
    (h5 : ∀ d ∈ q.position.dirs, d < 5) (hv : PosVar q.position) {f : Integrand F} {values : List ℝ} (hf : gridOf slack eig q f = .ok values)
    (hl : values.length = (gridPoints q.nodes).length) (flat : Bool) :
    quad_integrate_flat slack eig q flat f = .ok (integralOf q flat fun i _ => values.getD i 0) := by
  cases flat with
  | true => exact quad_integrate_flat_ok he hq hs h5 hv hf hl
  | false => exact quad_integrate_plain_ok hq hs hf hl

omit [Interp F] in
theorem integralOf_congr {q : HQuad F} {flat : Bool} {v v' : ℕ → List ℝ → ℝ} (h : ∀ i p, (gridPoints q.nodes)[i]? = some p → v i p = v' i p) :
    integralOf q flat v = integralOf q flat v' := by
  cases flat with
  | true =>
    rw [integralOf, integralOf, if_pos rfl, if_pos rfl]
    congr 1
    apply quadrature_congr
    intro i p hp
    rw [h i p hp]
  | false => exact quadrature_congr h

omit [Interp F] in
theorem integralOf_nonneg {q : HQuad F} (hw : WeightsNonneg q) (hv : PosVar q.position) {flat : Bool} {v : ℕ → List ℝ → ℝ} (h : ∀ i p, 0 ≤ v i p) :
    0 ≤ integralOf q flat v := by
  have hgw : ∀ i, 0 ≤ (gridWeights q.weights).getD i 0 := by
    intro i
    by_cases hi : i < (gridWeights q.weights).length
    · rw [List.getD_eq_getElem _ _ hi]
      have hm := List.getElem_mem hi
      generalize (gridWeights q.weights)[i] = w at hm
      obtain ⟨r, hr, rfl⟩ := List.mem_map.1 hm
      have key : ∀ (l : List (List ℝ)), (∀ r ∈ l, ∀ w ∈ r, 0 ≤ w) → ∀ r ∈ cartesian l, 0 ≤ r.prod := by
        intro l
        induction l with
        | nil => intro _ r hr; simp [cartesian] at hr; simp [hr]
        | cons a l ih =>
          intro h r hr
          simp only [cartesian, List.mem_flatMap, List.mem_map] at hr
          obtain ⟨x, hx, p, hp, rfl⟩ := hr
          rw [List.prod_cons]
          exact mul_nonneg (h a (by simp) x hx) (ih (fun r hr => h r (by simp [hr])) p hp)
      exact key _ hw r hr
    · simp [List.getElem?_eq_none (not_lt.1 hi)]
  have hq : ∀ u : ℕ → List ℝ → ℝ, (∀ i p, 0 ≤ u i p) → 0 ≤ quadrature q.nodes q.weights u :=
    fun u hu => Finset.sum_nonneg fun i _ => mul_nonneg (hgw i) (hu _ _)
  cases flat with
  | true => exact mul_nonneg (surplus_pos _).le (hq _ fun i p => div_nonneg (h i p) (density_pos hv _).le)
  | false => exact hq _ h

/-- C79. The norms of an array of values on the grid. -/
theorem C79_norm_values {slack : ℕ} {eig : Eig} (he : EigDiag eig) {q : HQuad F} (hq : QuadOk q) (hs : 0 ∈ q.do_fourier → 1 ≤ slack)
    (h5 : ∀ d ∈ q.position.dirs, d < 5) (hv : PosVar q.position) (hw : WeightsNonneg q) (absE : Multiset (Product F) → Multiset (Product F))
    {values : List ℝ} (hl : values.length = (gridPoints q.nodes).length) (flat : Bool) :
    quad_norm slack eig absE q (.grid values) 2 flat = .ok (.value (√(integralOf q flat fun i _ => values.getD i 0 ^ 2))) ∧
    quad_norm slack eig absE q (.grid values) 1 flat = .ok (.value (integralOf q flat fun i _ => |values.getD i 0|)) := by
  constructor
  · rw [quad_norm, evalSeries, Out.ok_bind, normOf, if_pos rfl, squareOf, Out.ok_bind,
      integralOf_eq he hq hs h5 hv (f := .grid (values.map fun x => x ^ 2)) rfl (by simpa using hl), Out.ok_bind]
    have e : integralOf q flat (fun i _ => (values.map fun x => x ^ 2).getD i 0) = integralOf q flat fun i _ => values.getD i 0 ^ 2 := by
      apply integralOf_congr
      intro i p hp
      obtain ⟨hi, rfl⟩ := List.getElem?_eq_some_iff.1 hp
      simp [hl ▸ hi]
    rw [e, npSqrt, if_neg (not_lt.2 (integralOf_nonneg hw hv fun i p => by positivity))]
    rintro _ ⟨⟩
  · rw [quad_norm, evalSeries, Out.ok_bind, normOf, if_neg (by decide), if_pos rfl, absOf, Out.ok_bind,
      integralOf_eq he hq hs h5 hv (f := .grid (values.map fun x => |x|)) rfl (by simpa using hl), Out.ok_bind]
    have e : integralOf q flat (fun i _ => (values.map fun x => |x|).getD i 0) = integralOf q flat fun i _ => |values.getD i 0| := by
      apply integralOf_congr
      intro i p hp
      obtain ⟨hi, rfl⟩ := List.getElem?_eq_some_iff.1 hp
      simp [hl ▸ hi]
    rw [e]
    rintro _ ⟨⟩

/-- The value of the square of an expression. -/
theorem square_value (terms : Multiset (Product F)) (x : ℕ → ℝ) :
    ((terms.bind fun p => terms.map fun p' => p + p').map fun p => productValue p x).sum = (terms.map fun p => productValue p x).sum ^ 2 := by
  rw [Multiset.map_bind, Multiset.sum_bind, pow_two, ← Multiset.sum_map_mul_right]
  congr 1
  apply Multiset.map_congr rfl
  intro p _
  rw [Multiset.map_map, ← Multiset.sum_map_mul_left]
  congr 1
  apply Multiset.map_congr rfl
  intro p' _
  simp only [Function.comp_apply, productValue_add]

/-- C79. The norms of a sympy expression in the variables of the quadrature are those of its values. -/
theorem C79_norm_expr {slack : ℕ} {eig : Eig} (he : EigDiag eig) {q : HQuad F} (hq : QuadOk q) (hs : 0 ∈ q.do_fourier → 1 ≤ slack)
    (h5 : ∀ d ∈ q.position.dirs, d < 5) (hv : PosVar q.position) (hw : WeightsNonneg q) {absE : Multiset (Product F) → Multiset (Product F)}
    (ha : AbsOk absE) {terms : Multiset (Product F)} {g : (ℕ → ℝ) → ℝ} (hf : StandsFor q.position.dirs (.expr terms) g) (flat : Bool) :
    quad_norm slack eig absE q (.expr terms) 2 flat = .ok (.value (√(integralOf q flat fun _ p => g (gridPoint q.position p) ^ 2))) ∧
    quad_norm slack eig absE q (.expr terms) 1 flat = .ok (.value (integralOf q flat fun _ p => |g (gridPoint q.position p)|)) := by
  constructor
  · have hsq : StandsFor q.position.dirs (.expr (terms.bind fun p => terms.map fun p' => p + p')) fun x => g x ^ 2 := by
      refine ⟨?_, fun x => by rw [square_value, hf.2]⟩
      intro p hp a hap d hd
      rw [Multiset.mem_bind] at hp
      obtain ⟨p1, h1, hp⟩ := hp
      obtain ⟨p2, h2, rfl⟩ := Multiset.mem_map.1 hp
      rcases Multiset.mem_add.1 hap with h | h
      · exact hf.1 p1 h1 a h d hd
      · exact hf.1 p2 h2 a h d hd
    rw [quad_norm, evalSeries, Out.ok_bind, normOf, if_pos rfl, squareOf, Out.ok_bind,
      integralOf_eq he hq hs h5 hv (standsFor_grid he hq h5 hsq) (by simp), Out.ok_bind]
    · have e : integralOf q flat (fun i _ => ((gridPoints q.nodes).map fun p => g (gridPoint q.position p) ^ 2).getD i 0) =
          integralOf q flat fun _ p => g (gridPoint q.position p) ^ 2 := by
        apply integralOf_congr
        intro i p hp
        simp [hp]
      rw [e, npSqrt, if_neg (not_lt.2 (integralOf_nonneg hw hv fun i p => by positivity))]
    · rintro _ ⟨⟩
  · have hab : StandsFor q.position.dirs (.expr (absE terms)) fun x => |g x| := by
      refine ⟨?_, fun x => by rw [ha.value, hf.2]⟩
      intro p hp a hap d hd
      obtain ⟨p', hp', a', ha', hd'⟩ := ha.vars terms p hp a hap d hd
      exact hf.1 p' hp' a' ha' d hd'
    rw [quad_norm, evalSeries, Out.ok_bind, normOf, if_neg (by decide), if_pos rfl, absOf, Out.ok_bind,
      integralOf_eq he hq hs h5 hv (standsFor_grid he hq h5 hab) (by simp), Out.ok_bind]
    · have e : integralOf q flat (fun i _ => ((gridPoints q.nodes).map fun p => |g (gridPoint q.position p)|).getD i 0) =
          integralOf q flat fun _ p => |g (gridPoint q.position p)| := by
        apply integralOf_congr
        intro i p hp
        simp [hp]
      rw [e]
    · rintro _ ⟨⟩

/-- C79. `norm` raises for a `Function` and for a string, and returns `None` for other numbers than 1 and 2. -/
theorem C79_norm_rejects (slack : ℕ) (eig : Eig) (absE : Multiset (Product F) → Multiset (Product F)) (q : HQuad F) (flat : Bool) :
    (∀ f n, n = 1 ∨ n = 2 → quad_norm slack eig absE q (.fn f) n flat = .throws) ∧
    (∀ terms n, n = 1 ∨ n = 2 → quad_norm slack eig absE q (.text terms) n flat = .throws) ∧
    ∀ f n, n ≠ 1 → n ≠ 2 → (∀ s, f ≠ .series s) → quad_norm slack eig absE q f n flat = .ok .none := by
  refine ⟨?_, ?_, ?_⟩
  · rintro f n (rfl | rfl) <;> rfl
  · rintro f n (rfl | rfl) <;> rfl
  · intro f n h1 h2 h3
    cases f with
    | series s => exact absurd rfl (h3 s)
    | _ => rw [quad_norm, evalSeries, Out.ok_bind, normOf, if_neg h2, if_neg h1] <;> rintro _ ⟨⟩

/-- The values of a series on the position of the quadrature. -/
theorem series_values {slack : ℕ} {eig : Eig} (he : EigDiag eig) {q : HQuad F} (hq : QuadOk q)
    (hvar : ∀ i < q.position.dim, 0 < entryOf q.position.cov i i) {S : HSeries (SFn F)} (hS : SeriesOk S) (hpos : S.position = q.position)
    (hfac : SFnOk S.factor) (hfd : S.factor.dirs = q.position.dirs) (hdeg : DegreeOk slack S.index_set S.degree q.do_fourier) {L : List IVec}
    (hL : IterOk S.index_set S.position.dim S.degree L) (hlen : S.coeffs.length = L.length) :
    ∃ vals, quad_eval slack eig q S = .ok vals ∧ vals.length = (gridPoints q.nodes).length ∧
      ∀ i p, (gridPoints q.nodes)[i]? = some p → vals.getD i 0 =
        series q.nodes.length q.do_fourier L S.coeffs p * S.factor.value (gridPoint q.position p) := by
  have hn : q.nodes.length = q.position.dim := hq.dim
  have hev := quad_eval_ok (slack := slack) he hq hS (by rw [hpos]; exact hq.diag) (by rw [hpos]) (by rw [hpos]; exact hvar) hfd hfac.vars hdeg hL hlen
  rw [hpos] at hev
  refine ⟨_, hev, by simp, fun i p hp => ?_⟩
  have hm : p ∈ gridPoints q.nodes := List.mem_of_getElem? hp
  rw [List.getD_eq_getElem?_getD, List.getElem?_map, hp, hn]
  simp only [Option.map_some, Option.getD_some]
  rw [seriesNodes_self hq hvar hm]

/-- C79: the integral of a series is that of its function, the sum of the basis functions times the factor. -/
theorem C79_series [DecidableEq F] {slack : ℕ} {eig : Eig} (he : EigDiag eig) {q : HQuad F} (hq : QuadOk q) (hs : 0 ∈ q.do_fourier → 1 ≤ slack)
    (h5 : ∀ d ∈ q.position.dirs, d < 5) (hvar : ∀ i < q.position.dim, 0 < entryOf q.position.cov i i) {S : HSeries (SFn F)} (hS : SeriesOk S)
    (hpos : S.position = q.position) (hfac : SFnOk S.factor) (hfd : S.factor.dirs = q.position.dirs)
    (hdeg : DegreeOk slack S.index_set S.degree q.do_fourier) {L : List IVec} (hL : S.index_set.s_list q.position.dim S.degree = .ok L) (flat : Bool) :
    quad_integrate_flat slack eig q flat (.series S) = .ok (integralOf q flat fun _ p =>
      (∑ j ∈ Finset.range L.length, S.coeffs.getD j 0 * coordBasis q.position q.do_fourier (L.getD j []) (gridPoint q.position p)) *
        S.factor.value (gridPoint q.position p)) := by
  obtain ⟨L', hL', hlen⟩ := hS.list
  obtain rfl : L' = L := by
    have := hL'.list
    rw [hpos, hL] at this
    exact (Out.ok.inj this).symm
  have hn : q.nodes.length = q.position.dim := hq.dim
  obtain ⟨vals, hev, hvl, hval⟩ := series_values (slack := slack) he hq hvar hS hpos hfac hfd hdeg hL' hlen
  have hv : PosVar q.position := fun i hi _ => hvar i hi
  have hgrid : gridOf slack eig q (.series S) = .ok vals := hev
  have hfun : ∀ i p, (gridPoints q.nodes)[i]? = some p → vals.getD i 0 =
      (∑ j ∈ Finset.range L'.length, S.coeffs.getD j 0 * coordBasis q.position q.do_fourier (L'.getD j []) (gridPoint q.position p)) *
        S.factor.value (gridPoint q.position p) := by
    intro i p hp
    rw [hval i p hp, series]
    simp only [coordBasis_gridPoint hq hvar]
  cases flat with
  | true =>
    rw [quad_integrate_flat_ok he hq hs h5 hv hgrid hvl, integralOf, if_pos rfl]
    congr 2
    apply quadrature_congr
    intro i p hp
    rw [hfun i p hp]
  | false =>
    rw [quad_integrate_flat, hgrid, Out.ok_bind, flatten, if_neg (by simp), Out.ok_bind, integrate_ok hq.grid hs hq.weights hvl, integralOf,
      if_neg (by simp)]
    congr 1
    apply quadrature_congr
    intro i p hp
    rw [hfun i p hp]

theorem phiZero_count (f : List ℕ) : phiZero f.length f * √(2 * Real.pi) ^ f.count 1 = 1 := by
  have hp : 0 < √(2 * Real.pi) := Real.sqrt_pos.2 (by positivity)
  induction f with
  | nil => simp [phiZero]
  | cons a f ih =>
    have e : phiZero (a :: f).length (a :: f) = phi a 0 0 * phiZero f.length f := by
      rw [phiZero, List.length_cons, Finset.prod_range_succ', mul_comm]
      rfl
    rw [e]
    by_cases ha : a = 1
    · subst ha
      rw [List.count_cons_self, pow_succ]
      have : phi 1 0 0 * √(2 * Real.pi) = 1 := by
        rw [phi, if_pos rfl, trig, if_pos rfl, one_div_mul_cancel hp.ne']
      linear_combination (phiZero f.length f * √(2 * Real.pi) ^ f.count 1) * this + ih
    · rw [List.count_cons_of_ne ha]
      have : phi a 0 0 = 1 := by
        simp [phi, ha, herm]
      rw [this, one_mul, ih]

/-- C79: the integral of a series whose factor is one is its coefficient of zero, times `√(2π)` for each Fourier direction. -/
theorem C79_series_mean [DecidableEq F] {slack : ℕ} {eig : Eig} (he : EigDiag eig) {q : HQuad F} (hq : QuadOk q) (hs : 0 ∈ q.do_fourier → 1 ≤ slack)
    (h5 : ∀ d ∈ q.position.dirs, d < 5) (hvar : ∀ i < q.position.dim, 0 < entryOf q.position.cov i i) {S : HSeries (SFn F)} (hS : SeriesOk S)
    (hpos : S.position = q.position) (hfac : SFnOk S.factor) (hfd : S.factor.dirs = q.position.dirs)
    (hdeg : DegreeOk slack S.index_set S.degree q.do_fourier) {L : List IVec} (hL : S.index_set.s_list q.position.dim S.degree = .ok L)
    (ho : ∀ k < q.nodes.length, Orthonormal S.degree (q.do_fourier.getD k 0) (q.nodes.getD k []) (q.weights.getD k []))
    (hone : ∀ p ∈ gridPoints q.nodes, S.factor.value (gridPoint q.position p) = 1) :
    quad_integrate_flat slack eig q false (.series S) =
      .ok (coef L S.coeffs (List.replicate q.position.dim 0) * √(2 * Real.pi) ^ q.do_fourier.count 1) := by
  rw [C79_series he hq hs h5 hvar hS hpos hfac hfd hdeg hL, integralOf, if_neg (by simp)]
  obtain ⟨L', hL', hlen⟩ := hS.list
  obtain rfl : L' = L := by
    have := hL'.list
    rw [hpos, hL] at this
    exact (Out.ok.inj this).symm
  have hn : q.nodes.length = q.position.dim := hq.dim
  have h0 : List.replicate q.position.dim 0 ∈ L' := (hL'.mem _).2 (by rw [hpos]; exact inSet_zero _ _ _)
  have hj := List.idxOf_lt_length_of_mem h0
  have hsum := quadrature_series hq.weights ho hL'.nodup (fun m hm => by rw [hn, ← hpos]; exact inSet_length ((hL'.mem m).1 hm))
    (fun m hm => inSet_le hdeg.cross ((hL'.mem m).1 hm)) S.coeffs hj
  have hfl : q.do_fourier.length = q.position.dim := by rw [← hn]; exact hq.grid.flags.1
  have hz : phiZero q.position.dim q.do_fourier * √(2 * Real.pi) ^ q.do_fourier.count 1 = 1 := by
    rw [← hfl]
    exact phiZero_count q.do_fourier
  rw [coef, ← hsum, mul_comm, ← quadrature_smul]
  congr 1
  apply quadrature_congr
  intro i p hp
  rw [hone p (List.mem_of_getElem? hp), mul_one, List.getElem_idxOf, ← coordBasis_gridPoint hq hvar, coordBasis_zero]
  simp only [coordBasis_gridPoint hq hvar]
  rw [← series]
  linear_combination (-series q.nodes.length q.do_fourier L' S.coeffs p) * hz

/-- C79. Parseval: on a quadrature that is exact for the degree of the series, the 2-norm of a series whose factor is one is the euclidean
norm of its coefficients; so is the flat 2-norm, if the factor is the square root of the weight. -/
theorem C79_parseval [DecidableEq F] {slack : ℕ} {eig : Eig} (he : EigDiag eig) {q : HQuad F} (hq : QuadOk q) (hs : 0 ∈ q.do_fourier → 1 ≤ slack)
    (h5 : ∀ d ∈ q.position.dirs, d < 5) (hvar : ∀ i < q.position.dim, 0 < entryOf q.position.cov i i) (hw : WeightsNonneg q)
    (absE : Multiset (Product F) → Multiset (Product F)) {S : HSeries (SFn F)} (hS : SeriesOk S) (hpos : S.position = q.position)
    (hfac : SFnOk S.factor) (hfd : S.factor.dirs = q.position.dirs) (hdeg : DegreeOk slack S.index_set S.degree q.do_fourier)
    (ho : ∀ k < q.nodes.length, Orthonormal S.degree (q.do_fourier.getD k 0) (q.nodes.getD k []) (q.weights.getD k [])) :
    ((∀ p ∈ gridPoints q.nodes, S.factor.value (gridPoint q.position p) = 1) →
      quad_norm slack eig absE q (.series S) 2 false = .ok (.value (√(S.coeffs.map fun c => c ^ 2).sum))) ∧
    ((∀ p ∈ gridPoints q.nodes, pos_weight q.position (gridPoint q.position p) = .ok (S.factor.value (gridPoint q.position p) ^ 2)) →
      quad_norm slack eig absE q (.series S) 2 true = .ok (.value (√(S.coeffs.map fun c => c ^ 2).sum))) := by
  obtain ⟨L, hL, hlen⟩ := hS.list
  have hv : PosVar q.position := fun i hi _ => hvar i hi
  have hn : q.nodes.length = q.position.dim := hq.dim
  obtain ⟨vals, hev, hvl, hval⟩ := series_values (slack := slack) he hq hvar hS hpos hfac hfd hdeg hL hlen
  have hsq : quadrature q.nodes q.weights (fun _ p => series q.nodes.length q.do_fourier L S.coeffs p ^ 2) = (S.coeffs.map fun x => x ^ 2).sum :=
    quadrature_square hq.weights ho hL.nodup (fun m hm => by rw [hn, ← hpos]; exact inSet_length ((hL.mem m).1 hm))
      (fun m hm => inSet_le hdeg.cross ((hL.mem m).1 hm)) _ hlen
  have key : ∀ flat, quad_norm slack eig absE q (.series S) 2 flat = .ok (.value (√(integralOf q flat fun i _ => vals.getD i 0 ^ 2))) := by
    intro flat
    rw [← (C79_norm_values he hq hs h5 hv hw absE hvl flat).1, quad_norm, evalSeries, hev, Out.ok_bind, Out.ok_bind]
    rfl
  constructor
  · intro hone
    rw [key, ← hsq]
    congr 3
    rw [integralOf, if_neg (by simp)]
    apply quadrature_congr
    intro i p hp
    rw [hval i p hp, hone p (List.mem_of_getElem? hp), mul_one]
  · intro hroot
    rw [key, ← hsq]
    congr 3
    rw [integralOf, if_pos rfl, ← quadrature_smul]
    apply quadrature_congr
    intro i p hp
    have h1 := hroot p (List.mem_of_getElem? hp)
    rw [pos_weight_density hq.pos hq.diag h5 hv] at h1
    have h1 := Out.ok.inj h1
    have hd := (density_pos hv (gridPoint q.position p)).ne'
    have hsu := (surplus_pos q.position).ne'
    rw [hval i p hp, mul_pow, ← h1]
    field_simp

/-! ## Cases meeting the hypotheses -/

/-- Factors for the examples: any function of the variables. -/
noncomputable local instance interp79 : Interp ((ℕ → ℝ) → ℝ) where
  val s a x := a fun d => if d ∈ s then x d else 0
  val_local s a x y h := by
    congr 1
    funext d
    split
    · exact h d (by assumption)
    · rfl

/-- An absolute value as in `C79_norm_expr`: one function of all the variables. -/
example : ∃ absE : Multiset (Product ((ℕ → ℝ) → ℝ)) → Multiset (Product ((ℕ → ℝ) → ℝ)), AbsOk absE := by
  classical
  refine ⟨fun terms => {{((terms.bind fun p => p.bind fun a => a.1.val).toFinset, fun x => |(terms.map fun p => productValue p x).sum|)}}, ?_, ?_⟩
  · intro terms p hp a ha d hd
    simp only [Multiset.mem_singleton] at hp
    subst hp
    simp only [Multiset.mem_singleton] at ha
    subst ha
    simpa using hd
  · intro terms x
    simp only [Multiset.map_singleton, Multiset.sum_singleton, productValue, Multiset.prod_singleton, Interp.val]
    congr 2
    apply Multiset.map_congr rfl
    intro p hp
    congr 1
    apply Multiset.map_congr rfl
    intro a ha
    refine congrArg a.2 ?_
    funext e
    by_cases h : e ∈ a.1
    · have : e ∈ (terms.bind fun p => p.bind fun a => a.1.val).toFinset := by
        simp only [Multiset.mem_toFinset, Multiset.mem_bind]
        exact ⟨p, hp, a, ha, h⟩
      simp [h, this]
    · simp [h]

/-- The integral of `x³` times the normal density with mean 1 and variance 4, by `Quad.gauss_hermite(2, mean=[1], cov=[[4]])`. -/
example {eig : Eig} (he : EigDiag eig) : ∃ (q : HQuad ((ℕ → ℝ) → ℝ)) (f : Integrand ((ℕ → ℝ) → ℝ)),
    quad_gauss_hermite (fun _ => gauss2) (.one 2) none none none (.expr {0}) (some [1]) (some [[4]]) none = .ok q ∧
    quad_integrate_flat 1 eig q true f = .ok (∫ x, (place q.position.dirs x 0) ^ 3 * normalDensity 1 4 (place q.position.dirs x 0)) := by
  obtain ⟨q, e, hb, h⟩ := C79_flat_gauss (F := (ℕ → ℝ) → ℝ) (hermegauss := fun _ => gauss2) (n := 2) (d := 1) gauss2_ok (by decide)
    (n_points := .one 2) (dim := none) (dirs := none) (by simp) (Or.inl ⟨rfl, fun _ _ => rfl⟩) (by norm_num) (mean := some [1]) (cov := some [[4]])
    (factor := .expr {0}) ⟨by simp, by
      intro c hc
      cases hc
      refine ⟨by simp, ?_, ?_⟩
      · rintro (_ | i) (_ | j) h <;> simp [entryOf] at h ⊢
      · rintro (_ | i) <;> simp [entryOf], by simp, ⟨by simp, by simp, by simp⟩, by simp [FactorOk]⟩
    (by intro c hc i hi; cases hc; have : i = 0 := by omega
        subst this; simp [entryOf])
  have hdirs : q.position.dirs = [0] := by
    apply List.ext_getElem?
    intro i
    have hl : q.position.dirs.length = 1 := by rw [hb.ok.pos.dirs, hb.dim]
    by_cases hi : i < 1
    · have : i = 0 := by omega
      subst this
      rw [hb.position.first rfl 0 (by rw [hb.dim]; decide)]
      rfl
    · rw [List.getElem?_eq_none (by omega), List.getElem?_eq_none (by simp; omega)]
  refine ⟨q, .expr {{({0}, fun x => x 0 ^ 3 * normalDensity 1 4 (x 0))}}, e, ?_⟩
  refine h 1 eig _ (fun x => x 0 ^ 3 * normalDensity 1 4 (x 0)) (fun x => x 0 ^ 3) (le_refl 1) he ?_ ?_ ?_
  · refine ⟨by simp [hdirs], fun x => by simp [productValue, Interp.val]⟩
  · rw [hdirs]
    refine ⟨MvPolynomial.X 0 ^ 3, ?_, by simp⟩
    intro i
    have h0 := MvPolynomial.degreeOf_pow_le i (MvPolynomial.X (R := ℝ) (0 : Fin 1)) 3
    have e0 := MvPolynomial.degreeOf_X (R := ℝ) i (0 : Fin 1)
    rw [e0] at h0
    refine lt_of_le_of_lt h0 ?_
    split <;> decide
  · intro x
    rw [hb.position.meanGiven _ rfl, hb.position.covGiven _ rfl]
    generalize q.position.dirs = l at hdirs
    subst hdirs
    simp [entryOf]

/-- The quadrature with the two-point Gauss rule, mean `μ` and variance `v`. -/
noncomputable def quad79 (μ v : ℝ) : HQuad ((ℕ → ℝ) → ℝ) :=
  ⟨[[-1, 1]], [[1 / 2, 1 / 2]], ⟨1, [0], [μ], diagMat [v], ["hermite"]⟩, ⟨[0], {0}⟩⟩

theorem quad79_ok (μ v : ℝ) : QuadOk (quad79 μ v) where
  pos := ⟨rfl, rfl, rfl, by simp [quad79, diagMat], rfl, by simp [quad79]⟩
  diag := by
    have := single_diagonal 0 μ v "hermite"
    simpa [quad79, diagMat] using this
  dim := rfl
  grid := ⟨by simp [quad79], by simp [quad79], ⟨rfl, by simp [quad79, HQuad.do_fourier]⟩, by simp [quad79, gridPoints, cartesian]⟩
  weights := rfl
  uniform := by intro r hr; simp [quad79] at hr ⊢; simp [hr]
  factor := ⟨by simp [quad79], by simp [quad79]⟩
  factorDirs := rfl

/-- The series with coefficients 3 and 4 has integral 3 and norm 5: with factor 1, and with the root of the weight as factor in the flat norm. -/
example {eig : Eig} (he : EigDiag eig) (absE : Multiset (Product ((ℕ → ℝ) → ℝ)) → Multiset (Product ((ℕ → ℝ) → ℝ))) :
    (∃ S : HSeries (SFn ((ℕ → ℝ) → ℝ)), S.coeffs = [3, 4] ∧ quad_norm 1 eig absE (quad79 1 4) (.series S) 2 false = .ok (.value 5) ∧
      quad_integrate_flat 1 eig (quad79 1 4) false (.series S) = .ok 3) ∧
    (∃ S : HSeries (SFn ((ℕ → ℝ) → ℝ)), S.coeffs = [3, 4] ∧ quad_norm 1 eig absE (quad79 1 4) (.series S) 2 true = .ok (.value 5)) := by
  classical
  have hq := quad79_ok 1 4
  have hvar : ∀ i < (quad79 1 4).position.dim, 0 < entryOf (quad79 1 4).position.cov i i := by
    intro i hi
    have : i = 0 := by change i < 1 at hi; omega
    subst this
    simp [quad79, entryOf, diagMat]
  have hroot : √(([3, 4] : List ℝ).map fun c => c ^ 2).sum = 5 := by
    rw [show (([3, 4] : List ℝ).map fun c => c ^ 2).sum = 5 ^ 2 by norm_num]
    exact Real.sqrt_sq (by norm_num)
  have key : ∀ fac : SFn ((ℕ → ℝ) → ℝ), SFnOk fac → fac.dirs = [0] → ∃ S : HSeries (SFn ((ℕ → ℝ) → ℝ)), S.coeffs = [3, 4] ∧ S.factor = fac ∧
      SeriesOk S ∧ S.position = (quad79 1 4).position ∧ DegreeOk 1 S.index_set S.degree (quad79 1 4).do_fourier ∧ S.degree = 1 ∧
      S.index_set.s_list (quad79 1 4).position.dim S.degree = .ok [[0], [1]] := by
    intro fac hfac hd
    obtain ⟨S, ok, h1, h2, h3, h4, h5⟩ := linear_series (quad79 1 4).position hq.pos rfl fac 3 4
    refine ⟨S, h1, h3, ok, h2, ⟨by simp [quad79, HQuad.do_fourier], fun _ => Or.inr (le_refl 1), by rw [h4]; simp⟩, ?_, by rw [h4]; exact h5⟩
    obtain ⟨L, hL, hlen⟩ := ok.list
    have eL : L = [[0], [1]] := by
      have := hL.list
      rw [h4, h2] at this
      exact Out.ok.inj (this.symm.trans h5)
    rw [h4, h2] at hL
    have a := (hL.mem [1]).1 (by rw [eL]; simp)
    have b : ¬ InSet .triangle (quad79 1 4).position.dim S.degree [2] := fun h => by
      have := (hL.mem [2]).2 h
      rw [eL] at this
      simp at this
    simp [InSet, InTriangle, quad79] at a b
    omega
  have ho : ∀ S : HSeries (SFn ((ℕ → ℝ) → ℝ)), S.degree = 1 → ∀ k < (quad79 1 4).nodes.length, Orthonormal S.degree
      ((quad79 1 4).do_fourier.getD k 0) ((quad79 1 4).nodes.getD k []) ((quad79 1 4).weights.getD k []) := by
    intro S h k hk
    have : k = 0 := by simp [quad79] at hk; omega
    subst this
    rw [h]
    exact quadG_orthonormal
  have hw : WeightsNonneg (quad79 1 4) := by
    intro r hr w hw
    simp [quad79] at hr
    subst hr
    simp at hw
    subst hw
    norm_num
  have hv : PosVar (quad79 1 4).position := fun i hi _ => hvar i hi
  constructor
  · obtain ⟨S, h1, h2, ok, h3, h4, h5, hl⟩ := key ⟨[0], {0}⟩ ⟨by simp, by simp⟩ rfl
    refine ⟨S, h1, ?_, ?_⟩
    swap
    · have := C79_series_mean he hq (fun _ => le_refl 1) (by simp [quad79]) hvar ok h3 (by rw [h2]; exact ⟨by simp, by simp⟩) (by rw [h2]; rfl) h4 hl
        (ho S h5) (by intro p _; rw [h2]; simp [SFn.value, productValue])
      rw [this, h1]
      simp [coef, quad79, HQuad.do_fourier]
    have := (C79_parseval he hq (fun _ => le_refl 1) (by simp [quad79]) hvar hw absE ok h3 (by rw [h2]; exact ⟨by simp, by simp⟩)
      (by rw [h2]; rfl) h4 (ho S h5)).1 (by intro p _; rw [h2]; simp [SFn.value, productValue])
    rwa [h1, hroot] at this
  · obtain ⟨S, h1, h2, ok, h3, h4, h5, hl⟩ := key ⟨[0], {{({0}, fun x => √(density (quad79 1 4).position x))}}⟩ ⟨by simp, by simp⟩ rfl
    refine ⟨S, h1, ?_⟩
    have := (C79_parseval he hq (fun _ => le_refl 1) (by simp [quad79]) hvar hw absE ok h3 (by rw [h2]; exact ⟨by simp, by simp⟩)
      (by rw [h2]; rfl) h4 (ho S h5)).2 (by
        intro p _
        rw [pos_weight_density hq.pos hq.diag (by simp [quad79]) hv, surplus_pure (Or.inr (by decide)), div_one, h2]
        congr 1
        simp only [SFn.value, productValue, Multiset.map_singleton, Multiset.sum_singleton, Multiset.prod_singleton, Interp.val]
        rw [Real.sq_sqrt (density_pos hv _).le]
        refine density_congr hq.pos fun d hd => ?_
        simp [quad79] at hd
        subst hd
        simp)
    rwa [h1, hroot] at this

end Hermipy.Props
