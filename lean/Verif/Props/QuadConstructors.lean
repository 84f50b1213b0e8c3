import Verif.Lemmas.Rules
import Verif.Lemmas.QuadIntegrate
import Verif.Props.PositionInit
import Mathlib.Data.List.GetD

/-! # C78: the constructors of quadratures -/

namespace Hermipy.Props
open Hermipy Hermipy.Spec MeasureTheory
variable {F : Type}

theorem factorOf_ok {dirs : List ℕ} (hd : DirsOk dirs) {factor : FactorArg F} (hf : FactorOk dirs factor) :
    factorOf factor dirs = .ok ⟨dirs, factorTerms factor⟩ ∧ SFnOk (⟨dirs, factorTerms factor⟩ : SFn F) := by
  cases factor with
  | fn f => obtain ⟨h1, rfl⟩ := hf; exact ⟨rfl, h1⟩
  | expr terms =>
    refine ⟨?_, ⟨hd.sorted, hf⟩⟩
    rw [factorOf]
    rw [if_neg (by simpa [isSorted] using hd.sorted.imp le_of_lt), if_neg (by have := hd.symbols; push Not; exact this), if_neg]
    · rfl
    · rintro ⟨p, hp, x, ⟨a, ha, hx⟩, h⟩
      exact h (hf p hp a ha x hx)

/-- `Quad(nodes, weights, position=p, factor=factor)`. -/
theorem quad_init_position {nodes weights : List (List ℝ)} {n : ℕ} {p : Position} {factor : FactorArg F} (hN : nodes.length = p.dim)
    (hW : weights.length = p.dim) (hNn : ∀ r ∈ nodes, r.length = n) (hWn : ∀ r ∈ weights, r.length = n) (hn : 0 < n)
    (hs : n ^ p.dim < 2 ^ 32) (hp : PosOk p) (hdiag : Diagonal p) (hd : DirsOk p.dirs) (hf : FactorOk p.dirs factor) (mean : Option (List ℝ))
    (cov : Option (List (List ℝ))) (dirs : Option (List ℕ)) (types : Option (List String)) :
    quad_init nodes weights (some p) factor mean cov dirs types = .ok ⟨nodes, weights, p, ⟨p.dirs, factorTerms factor⟩⟩ ∧
      QuadOk (⟨nodes, weights, p, ⟨p.dirs, factorTerms factor⟩⟩ : HQuad F) := by
  obtain ⟨e, ok⟩ := factorOf_ok hd hf
  have hdim : 0 < p.dim := by rw [← hp.dirs]; exact List.length_pos_of_ne_nil hd.ne
  have hne : nodes ≠ [] := by rintro rfl; simp at hN; omega
  have hne' : weights ≠ [] := by rintro rfl; simp at hW; omega
  have hu : ∀ {l : List (List ℝ)}, l ≠ [] → (∀ r ∈ l, r.length = n) → uniform l := by
    intro l h1 h2 r hr
    obtain ⟨a, l, rfl⟩ := List.exists_cons_of_ne_nil h1
    rw [h2 r hr]
    simp [h2 a (by simp)]
  have hmap : ∀ {l : List (List ℝ)}, (∀ r ∈ l, r.length = n) → l.map List.length = List.replicate l.length n := by
    intro l h
    rw [List.eq_replicate_iff]
    refine ⟨by simp, ?_⟩
    intro x hx
    obtain ⟨r, hr, rfl⟩ := List.mem_map.1 hx
    exact h r hr
  refine ⟨?_, hp, hdiag, hN, ⟨hne, ?_, ⟨?_, ?_⟩, ?_⟩, ?_, hu hne hNn, ok, rfl⟩
  · rw [quad_init, if_neg (by simp [hu hne hNn, hu hne' hWn]), initPosition, Out.ok_bind, e, Out.ok_bind]
  · rintro r hr rfl
    have := hNn _ hr
    simp at this
    omega
  · simp [HQuad.do_fourier, hp.types, hN]
  · intro f hf
    obtain ⟨t, -, rfl⟩ := List.mem_map.1 hf
    split <;> simp
  · rw [gridPoints, length_cartesian, hmap hNn, List.prod_replicate, hN]
    exact hs
  · rw [hmap hNn, hmap hWn, hN, hW]

/-- The covariance matrix is diagonal and has nonnegative entries. -/
structure Variances (cov : List (List ℝ)) : Prop where
  diag : ∀ i j, i ≠ j → entryOf cov i j = 0
  nonneg : ∀ i, 0 ≤ entryOf cov i i

theorem diagonal_of {p : Position} (h : ∀ i j, i ≠ j → entryOf p.cov i j = 0) : Diagonal p := by
  intro i j r c hij h1 h2
  have := h i j hij
  simpa [entryOf, h1, h2] using this

theorem eye_entry {p : Position} {mean : Option (List ℝ)} {dirs : Option (List ℕ)} {types : Option (List String)}
    (h : Filled p mean none dirs types) : Variances p.cov := by
  have key : ∀ i j, entryOf p.cov i j = 0 ∨ (entryOf p.cov i j = 1 ∧ i = j) := by
    intro i j
    by_cases hi : i < p.dim
    · obtain ⟨r, h1, h2, h3⟩ := h.eye rfl i hi
      by_cases hj : j < p.dim
      · by_cases hij : i = j
        · right
          subst hij
          simp [entryOf, h1, h3 i hi]
        · left; simp [entryOf, h1, h3 j hj, hij]
      · left
        have : r[j]? = none := List.getElem?_eq_none_iff.2 (by omega)
        simp [entryOf, h1, this]
    · left
      have : p.cov[i]? = none := List.getElem?_eq_none_iff.2 (by rw [h.covLength]; omega)
      simp [entryOf, this]
  exact ⟨fun i j hij => (key i j).resolve_right fun h => hij h.2, fun i => by
    rcases key i i with h | ⟨h, -⟩ <;> rw [h]
    norm_num⟩

/-- The keyword arguments of `gauss_hermite` and `newton_cotes` for `d` directions. -/
structure Keywords (d : ℕ) (mean : Option (List ℝ)) (cov : Option (List (List ℝ))) (dirs : Option (List ℕ)) (factor : FactorArg F) : Prop where
  mean : ∀ m, mean = some m → m.length = d
  cov : ∀ c, cov = some c → (c.length = d ∧ ∀ r ∈ c, r.length = d) ∧ Variances c
  length : ∀ ds, dirs = some ds → ds.length = d
  dirsOk : DirsOk (dirs.getD (List.range d))
  factor : FactorOk (dirs.getD (List.range d)) factor

/-- The quadrature has the data that is given, and mean zero, unit covariance and the first directions where it is not. -/
structure Built (q : HQuad F) (d n : ℕ) (mean : Option (List ℝ)) (cov : Option (List (List ℝ))) (dirs : Option (List ℕ))
    (types : Option (List String)) (factor : FactorArg F) : Prop where
  ok : QuadOk q
  dim : q.position.dim = d
  points : ∀ r ∈ q.nodes, r.length = n
  position : Filled q.position mean cov dirs types
  factorTerms : q.factor.terms = factorTerms factor

theorem quad_init_built {nodes weights : List (List ℝ)} {n d : ℕ} {mean : Option (List ℝ)} {cov : Option (List (List ℝ))}
    {dirs : Option (List ℕ)} {factor : FactorArg F} (hN : nodes.length = d) (hW : weights.length = d) (hNn : ∀ r ∈ nodes, r.length = n)
    (hWn : ∀ r ∈ weights, r.length = n) (hn : 0 < n) (hs : n ^ d < 2 ^ 32) (hk : Keywords d mean cov dirs factor) :
    ∃ q, quad_init nodes weights none factor mean cov dirs none = .ok q ∧ Built q d n mean cov dirs none factor ∧ Variances q.position.cov ∧
      q.nodes = nodes ∧ q.weights = weights ∧ ∀ f ∈ q.do_fourier, f = 0 := by
  obtain ⟨p, e, hdim, hfill⟩ := C63_init_partial (n := d) (dim := some d) (mean := mean) (cov := cov) (dirs := dirs) (types := none)
    ⟨by simp, hk.mean, fun c hc => (hk.cov c hc).1, hk.length, by simp⟩ (Or.inr (by simp))
  have hpd : p.dirs = dirs.getD (List.range d) := by
    cases dirs with
    | some ds => exact hfill.dirsGiven ds rfl
    | none =>
      refine List.ext_getElem? fun i => ?_
      by_cases hi : i < d
      · rw [hfill.first rfl i (by rw [hdim]; exact hi)]
        simp [hi]
      · have h1 : p.dirs[i]? = none := List.getElem?_eq_none_iff.2 (by rw [hfill.dirsLength]; omega)
        rw [h1]
        simp
        omega
  have hv : Variances p.cov := by
    cases cov with
    | some c => rw [hfill.covGiven c rfl]; exact (hk.cov c rfl).2
    | none => exact eye_entry hfill
  have hok : PosOk p := by
    refine ⟨hfill.dirsLength, hfill.meanLength, hfill.covLength, ?_, hfill.typesLength, ?_⟩
    · cases cov with
      | some c => rw [hfill.covGiven c rfl, hdim]; exact (hk.cov c rfl).1.2
      | none =>
        intro r hr
        obtain ⟨i, hi, rfl⟩ := List.mem_iff_getElem.1 hr
        obtain ⟨r, h1, h2, -⟩ := hfill.eye rfl i (by rw [← hfill.covLength]; exact hi)
        rw [List.getElem?_eq_getElem hi] at h1
        rw [Option.some.inj h1]
        exact h2
    · rw [hpd]; exact hk.dirsOk.sorted.imp fun h => ne_of_lt h
  obtain ⟨e2, ok⟩ := quad_init_position (factor := factor) (p := p) (nodes := nodes) (weights := weights) (hN.trans hdim.symm)
    (hW.trans hdim.symm) hNn hWn hn (by rw [hdim]; exact hs) hok (diagonal_of hv.diag) (by rw [hpd]; exact hk.dirsOk)
    (by rw [hpd]; exact hk.factor) mean cov dirs none
  refine ⟨_, ?_, ⟨ok, hdim, hNn, hfill, rfl⟩, hv, rfl, rfl, ?_⟩
  · rw [← e2, quad_init, quad_init, hN]
    simp only [initPosition, e]
  · intro f hf
    obtain ⟨t, ht, rfl⟩ := List.mem_map.1 hf
    obtain ⟨i, hi, rfl⟩ := List.mem_iff_getElem.1 ht
    have := hfill.hermite rfl i (by rw [← hfill.typesLength]; exact hi)
    simp only [List.getElem?_eq_getElem hi, Option.some.injEq] at this
    simp [this]

/-! ## Gauss-Hermite -/

theorem poly_separated {n : ℕ} (hn : 0 < n) {dirs : List ℕ} {g : (ℕ → ℝ) → ℝ} (h : PolyBelow n dirs g) :
    ∃ (m : ℕ) (a : ℕ → ℝ) (k : ℕ → ℕ → ℕ), (∀ t i, k t i < n) ∧ Separated m dirs a (fun t i y => y ^ k t i) g := by
  classical
  obtain ⟨P, hd, hP⟩ := h
  refine ⟨P.support.toList.length, fun t => P.coeff (P.support.toList.getD t 0),
    fun t i => if h : i < dirs.length then P.support.toList.getD t 0 ⟨i, h⟩ else 0, ?_, ?_⟩
  · intro t i
    simp only
    split
    · rename_i h
      by_cases ht : t < P.support.toList.length
      · have hm : P.support.toList.getD t 0 ∈ P.support := by
          rw [← Finset.mem_toList, List.getD_eq_getElem _ _ ht]
          exact List.getElem_mem ht
        have := MvPolynomial.monomial_le_degreeOf (⟨i, h⟩ : Fin dirs.length) hm
        exact lt_of_le_of_lt this (hd _)
      · have : P.support.toList.getD t 0 = 0 := by simp [List.getElem?_eq_none_iff.2 (not_lt.1 ht)]
        rw [this]
        simpa using hn
    · exact hn
  · intro x
    rw [hP, MvPolynomial.eval_eq']
    have e : ∀ φ : (Fin dirs.length →₀ ℕ) → ℝ, ∑ e ∈ P.support, φ e = ∑ t ∈ Finset.range P.support.toList.length, φ (P.support.toList.getD t 0) := by
      intro φ
      rw [← Finset.sum_map_toList, Finset.sum_range]
      rw [← List.sum_ofFn]
      congr 1
      apply List.ext_getElem
      · simp
      · intro i h1 h2
        have : i < P.support.toList.length := by simpa using h1
        simp [List.getElem?_eq_getElem this]
    rw [e]
    refine Finset.sum_congr rfl fun t _ => ?_
    congr 1
    refine Finset.prod_congr rfl fun i _ => ?_
    simp

/-- What `Quad.gauss_hermite` builds. -/
theorem gauss_hermite_built {hermegauss : ℕ → List ℝ × List ℝ} {n d : ℕ} (hg : GaussRule n (hermegauss n)) (hn : 0 < n)
    {n_points : Points} {dim : Option ℕ} {dirs : Option (List ℕ)} (hdim : dirs = none → ∀ k, dim = some k → k = d)
    (hpts : (n_points = .one n ∧ (dirs = none → dim = none → d = 1)) ∨ n_points = .each (List.replicate d n)) (hs : n ^ d < 2 ^ 32)
    {mean : Option (List ℝ)} {cov : Option (List (List ℝ))} {factor : FactorArg F} (hk : Keywords d mean cov dirs factor) :
    ∃ q, quad_gauss_hermite hermegauss n_points dim dirs none factor mean cov none = .ok q ∧ Built q d n mean cov dirs none factor ∧
      Variances q.position.cov ∧ q.nodes = List.replicate d (hermegauss n).1 ∧
      q.weights = List.replicate d ((hermegauss n).2.map fun w => w / √(2 * Real.pi)) ∧ ∀ f ∈ q.do_fourier, f = 0 := by
  have e1 : gaussPoints n_points dim dirs = .ok (List.replicate d n) := by
    cases dirs with
    | some ds =>
      have := hk.length ds rfl
      rcases hpts with ⟨rfl, -⟩ | rfl <;> simp [gaussPoints, npFull, this]
    | none =>
      cases dim with
      | some k =>
        have := hdim rfl k rfl
        rcases hpts with ⟨rfl, -⟩ | rfl <;> simp [gaussPoints, npFull, this]
      | none =>
        rcases hpts with ⟨rfl, h⟩ | rfl
        · simp [gaussPoints, h rfl rfl]
        · simp [gaussPoints]
  have e2 : hermegauss_nd hermegauss (List.replicate d n) = .ok (List.replicate d (hermegauss n).1,
      List.replicate d ((hermegauss n).2.map fun w => w / √(2 * Real.pi))) := by
    rw [hermegauss_nd, mapM_ok (g := fun n => ((hermegauss n).1, (hermegauss n).2.map fun w => w / √(2 * Real.pi)))]
    · simp
    · intro k hk
      rw [List.eq_of_mem_replicate hk, if_neg hn.ne']
  obtain ⟨q, e, hb, hv, hN, hW, hF⟩ := quad_init_built (nodes := List.replicate d (hermegauss n).1)
    (weights := List.replicate d ((hermegauss n).2.map fun w => w / √(2 * Real.pi))) (n := n) (by simp) (by simp)
    (by intro r hr; rw [List.eq_of_mem_replicate hr]; exact hg.nodes)
    (by intro r hr; rw [List.eq_of_mem_replicate hr]; simp [hg.weights]) hn hs hk
  refine ⟨q, ?_, hb, hv, hN, hW, hF⟩
  rw [quad_gauss_hermite, e1, Out.ok_bind, e2, Out.ok_bind, e]

/-- The rule of `Quad.gauss_hermite`. -/
theorem gauss_hermite_rule {hermegauss : ℕ → List ℝ × List ℝ} {n d : ℕ} (hg : GaussRule n (hermegauss n)) (hn : 0 < n)
    {n_points : Points} {dim : Option ℕ} {dirs : Option (List ℕ)} (hdim : dirs = none → ∀ k, dim = some k → k = d)
    (hpts : (n_points = .one n ∧ (dirs = none → dim = none → d = 1)) ∨ n_points = .each (List.replicate d n)) (hs : n ^ d < 2 ^ 32)
    {mean : Option (List ℝ)} {cov : Option (List (List ℝ))} {factor : FactorArg F} (hk : Keywords d mean cov dirs factor) :
    ∃ q, quad_gauss_hermite hermegauss n_points dim dirs none factor mean cov none = .ok q ∧ Built q d n mean cov dirs none factor ∧
      Variances q.position.cov ∧ ∀ g : (ℕ → ℝ) → ℝ, PolyBelow (2 * n) q.position.dirs g →
        quadrature q.nodes q.weights (fun _ p => g (gridPoint q.position p)) = ∫ x, g (place q.position.dirs x) ∂(normal q.position) := by
  obtain ⟨q, e, hb, hv, hN, hW, -⟩ := gauss_hermite_built hg hn hdim hpts hs hk
  refine ⟨q, e, hb, hv, ?_⟩
  · intro g hpoly
    obtain ⟨m, a, k, hkn, hsep⟩ := poly_separated (by omega) hpoly
    have hl : q.position.dirs.length = q.nodes.length := by rw [hb.ok.pos.dirs, hb.ok.dim]
    have hd' : q.position.dirs.length = d := by rw [hb.ok.pos.dirs, hb.dim]
    rw [quadrature_integral hb.ok.weights hb.ok.pos.nodup hl
      (fun i => ProbabilityTheory.gaussianReal (q.position.mean.getD i 0) (Real.toNNReal (entryOf q.position.cov i i))) hsep (fun _ => 1)
      (fun t i => integrable_pow _ (hv.nonneg i) _) ?_]
    · simp [normal]
    · intro t i
      have hi : (i : ℕ) < d := by rw [← hd']; exact i.2
      have h1 : q.nodes.getD i [] = (hermegauss n).1 := by rw [hN]; simp [hi]
      have h2 : q.weights.getD i [] = (hermegauss n).2.map fun w => w / √(2 * Real.pi) := by rw [hW]; simp [hi]
      rw [h1, h2, hg.nodes, one_mul]
      exact gauss_pow hg _ (hv.nonneg i) (hkn t i)

/-- C78. `Quad.gauss_hermite` with the same number `n` of points in each of `d` directions builds a consistent quadrature with the given
data, which integrates the polynomials of degree less than `2n` in each direction exactly against the normal distribution with the given
means and variances. (`hermegauss` is the Gauss rule for the weight `e^(-x²/2)`.) -/
theorem C78_gauss_hermite_partial [Interp F] {hermegauss : ℕ → List ℝ × List ℝ} {n d : ℕ} (hg : GaussRule n (hermegauss n)) (hn : 0 < n)
    {n_points : Points} {dim : Option ℕ} {dirs : Option (List ℕ)} (hdim : dirs = none → ∀ k, dim = some k → k = d)
    (hpts : (n_points = .one n ∧ (dirs = none → dim = none → d = 1)) ∨ n_points = .each (List.replicate d n)) (hs : n ^ d < 2 ^ 32)
    {mean : Option (List ℝ)} {cov : Option (List (List ℝ))} {factor : FactorArg F} (hk : Keywords d mean cov dirs factor) :
    ∃ q, quad_gauss_hermite hermegauss n_points dim dirs none factor mean cov none = .ok q ∧ Built q d n mean cov dirs none factor ∧
      ∀ (slack : ℕ) (eig : Eig) (f : SFn F), 1 ≤ slack → EigDiag eig → SFnOk f → f.dirs = q.position.dirs →
        PolyBelow (2 * n) q.position.dirs f.value →
        quad_integrate slack eig q f = .ok (∫ x, f.value (place q.position.dirs x) ∂(normal q.position)) := by
  obtain ⟨q, e, hb, -, hrule⟩ := gauss_hermite_rule hg hn hdim hpts hs hk
  refine ⟨q, e, hb, ?_⟩
  intro slack eig f hsl he hf hfd hpoly
  rw [quad_integrate_ok he hb.ok (fun _ => hsl) hfd hf.vars, hrule _ hpoly]

/-! ## Fourier -/

/-- What `Quad.fourier` builds. -/
theorem fourier_built {n d : ℕ} (hn : 0 < n) {n_points : Points} {bounds : Option (List (ℝ × ℝ))} {dirs : Option (List ℕ)}
    (hpts : (n_points = .one n ∧ (dirs = none → bounds = none → d = 1)) ∨ n_points = .each (List.replicate d n))
    (hb : ∀ b, bounds = some b → b.length = d ∧ ∀ x ∈ b, x.1 < x.2) (hlen : ∀ ds, dirs = some ds → ds.length = d)
    (hd : DirsOk (dirs.getD (List.range d))) (hs : n ^ d < 2 ^ 32) {factor : FactorArg F} (hf : FactorOk (dirs.getD (List.range d)) factor) :
    ∃ P b ds, b = bounds.getD (List.replicate d (-Real.pi, Real.pi)) ∧ ds = dirs.getD (List.range d) ∧ (b.length = d ∧ ∀ x ∈ b, x.1 < x.2) ∧
      ds.length = d ∧ P = ⟨d, ds, b.map fun x => x.1 / 2 + x.2 / 2, diagMat (b.map fun x => ((x.2 - x.1) / (2 * Real.pi)) ^ 2),
        List.replicate d "fourier"⟩ ∧
      quad_fourier n_points bounds none factor dirs =
        .ok ⟨(List.replicate d n).map fourierNodes, (List.replicate d n).map fourierWeights, P, ⟨P.dirs, factorTerms factor⟩⟩ ∧
      QuadOk (⟨(List.replicate d n).map fourierNodes, (List.replicate d n).map fourierWeights, P, ⟨P.dirs, factorTerms factor⟩⟩ : HQuad F) := by
  obtain ⟨b, hb0⟩ : ∃ b, b = bounds.getD (List.replicate d (-Real.pi, Real.pi)) := ⟨_, rfl⟩
  obtain ⟨ds, hds⟩ : ∃ ds, ds = dirs.getD (List.range d) := ⟨_, rfl⟩
  rw [← hds] at hd hf
  have hbl : b.length = d ∧ ∀ x ∈ b, x.1 < x.2 := by
    cases bounds with
    | some b' => rw [hb0]; exact hb b' rfl
    | none =>
      subst hb0
      refine ⟨by simp, ?_⟩
      intro x hx
      rw [List.eq_of_mem_replicate hx]
      have := Real.pi_pos
      simp only
      linarith
  have hdl : ds.length = d := by
    cases dirs with
    | some ds' => rw [hds]; exact hlen ds' rfl
    | none => rw [hds]; simp
  have e1 : fourierDim n_points bounds dirs = d := by
    cases dirs with
    | some ds' => exact hlen ds' rfl
    | none =>
      cases bounds with
      | some b' => exact (hb b' rfl).1
      | none =>
        rcases hpts with ⟨rfl, h⟩ | rfl
        · exact (h rfl rfl).symm
        · simp [fourierDim]
  obtain ⟨P, hP⟩ : ∃ P : Position, P = ⟨d, ds, b.map fun x => x.1 / 2 + x.2 / 2, diagMat (b.map fun x => ((x.2 - x.1) / (2 * Real.pi)) ^ 2),
    List.replicate d "fourier"⟩ := ⟨_, rfl⟩
  have e2 : fourierPosition d bounds none dirs = .ok P := by
    have hrow : ∀ r ∈ diagMat (b.map fun x => ((x.2 - x.1) / (2 * Real.pi)) ^ 2), r.length = d := by
      intro r hr
      rw [diagMat_row _ r hr]
      simp [hbl.1]
    rw [fourierPosition, defaultPosition]
    simp only [← hb0, ← hds]
    rw [if_neg (by simp [hbl.1, hdl]), hP]
    simp only [mkPosition, List.length_map, hbl.1, hdl, diagMat_length, Out.ok_bind, Option.any_some, List.length_replicate, ne_eq,
      not_true_eq_false, decide_false, Bool.or_self, Bool.false_eq_true, if_false, Option.getD_some]
    rw [if_pos hrow]
  have e3 : fourierPoints d n_points = List.replicate d n := by
    rcases hpts with ⟨rfl, -⟩ | rfl <;> rfl
  have hok : PosOk P := by
    subst hP
    refine ⟨hdl, by simp [hbl.1], by simp [diagMat_length, hbl.1], ?_, by simp, hd.sorted.imp fun h => ne_of_lt h⟩
    intro r hr
    rw [diagMat_row _ r hr]
    simp [hbl.1]
  have hdiag : Diagonal P := by
    subst hP
    intro i j r c hij h1 h2
    rw [diagMat_get h1 h2, if_neg hij]
  have hdimP : P.dim = d := by rw [hP]
  have hdirsP : P.dirs = ds := by rw [hP]
  obtain ⟨e4, ok⟩ := quad_init_position (nodes := (List.replicate d n).map fourierNodes) (weights := (List.replicate d n).map fourierWeights)
    (n := n) (p := P) (factor := factor) (by simp [hdimP]) (by simp [hdimP]) (by simp [fourierNodes]) (by simp [fourierWeights]) hn
    (by rw [hdimP]; exact hs) hok hdiag (by rw [hdirsP]; exact hd) (by rw [hdirsP]; exact hf) none none none none
  refine ⟨P, b, ds, hb0, hds, hbl, hdl, hP, ?_, ok⟩
  rw [quad_fourier]
  simp only [e1, e2, e3, Out.ok_bind]
  rw [if_neg, e4]
  rintro (h | h)
  · simp at h
  · rw [List.mem_replicate] at h
    omega

/-- The quadrature of the waves by the rule that `fourier` makes. -/
theorem fourier_rule {n d : ℕ} (hn : 0 < n) {n_points : Points} {bounds : Option (List (ℝ × ℝ))} {dirs : Option (List ℕ)}
    (hpts : (n_points = .one n ∧ (dirs = none → bounds = none → d = 1)) ∨ n_points = .each (List.replicate d n))
    (hb : ∀ b, bounds = some b → b.length = d ∧ ∀ x ∈ b, x.1 < x.2) (hlen : ∀ ds, dirs = some ds → ds.length = d)
    (hd : DirsOk (dirs.getD (List.range d))) (hs : n ^ d < 2 ^ 32) {factor : FactorArg F} (hf : FactorOk (dirs.getD (List.range d)) factor) :
    ∃ q, quad_fourier n_points bounds none factor dirs = .ok q ∧ QuadOk q ∧ q.position.dirs = dirs.getD (List.range d) ∧
      (∀ f ∈ q.do_fourier, f = 1) ∧ q.nodes = List.replicate d (fourierNodes n) ∧ q.weights = List.replicate d (fourierWeights n) ∧
      (∀ i < d, q.position.mean.getD i 0 = ((bounds.getD (List.replicate d (-Real.pi, Real.pi))).getD i 0).1 / 2 + ((bounds.getD (List.replicate d (-Real.pi, Real.pi))).getD i 0).2 / 2) ∧
      (∀ i < d, entryOf q.position.cov i i = ((((bounds.getD (List.replicate d (-Real.pi, Real.pi))).getD i 0).2 - ((bounds.getD (List.replicate d (-Real.pi, Real.pi))).getD i 0).1) / (2 * Real.pi)) ^ 2) ∧
      (∀ i < d, ((bounds.getD (List.replicate d (-Real.pi, Real.pi))).getD i 0).1 < ((bounds.getD (List.replicate d (-Real.pi, Real.pi))).getD i 0).2) ∧
      q.factor.terms = factorTerms factor ∧
      ∀ g : (ℕ → ℝ) → ℝ, TrigBelow n q.position.dirs (bounds.getD (List.replicate d (-Real.pi, Real.pi))) g →
        quadrature q.nodes q.weights (fun _ p => g (gridPoint q.position p)) = (∏ i ∈ Finset.range d, (2 * Real.pi /
            (((bounds.getD (List.replicate d (-Real.pi, Real.pi))).getD i 0).2 - ((bounds.getD (List.replicate d (-Real.pi, Real.pi))).getD i 0).1))) *
          ∫ x, g (place q.position.dirs x) ∂(box q.position.dirs.length (bounds.getD (List.replicate d (-Real.pi, Real.pi)))) := by
  obtain ⟨P, b, ds, hb0, hds, hbl, hdl, hP, e, ok⟩ := fourier_built hn hpts hb hlen hd hs hf
  rw [← hb0]
  rw [← hds] at hd hf ⊢
  have hdirsP : P.dirs = ds := by rw [hP]
  have h3 : ∀ i < d, P.mean.getD i 0 = (b.getD i 0).1 / 2 + (b.getD i 0).2 / 2 := by
    intro i hi
    have hib : i < b.length := by rw [hbl.1]; exact hi
    rw [hP]
    simp [hib]
  have h4 : ∀ i < d, entryOf P.cov i i = (((b.getD i 0).2 - (b.getD i 0).1) / (2 * Real.pi)) ^ 2 := by
    intro i hi
    have hib : i < b.length := by rw [hbl.1]; exact hi
    rw [hP]
    simp only
    rw [entryOf_diagMat _ (by simpa using hib) (by simpa using hib), if_pos rfl]
    simp [hib]
  have hlt : ∀ i < d, (b.getD i 0).1 < (b.getD i 0).2 := by
    intro i hi
    have hi : i < b.length := by rw [hbl.1]; exact hi
    have e : b.getD i 0 = b[i] := by simp [hi]
    rw [e]
    exact hbl.2 _ (List.getElem_mem hi)
  refine ⟨_, e, ok, hdirsP, ?_, by simp, by simp, h3, h4, hlt, rfl, ?_⟩
  · intro f hf
    obtain ⟨t, ht, rfl⟩ := List.mem_map.1 hf
    rw [hP] at ht
    rw [List.eq_of_mem_replicate ht]
    simp
  · intro g hT
    obtain ⟨m, a, k, θ, hkn, hsum⟩ := hT
    have hl : P.dirs.length = ((List.replicate d n).map fourierNodes).length := by rw [hdirsP]; simp [hdl]
    have hsep : Separated m P.dirs a (fun t i y => Real.cos (k t i * (2 * Real.pi / ((b.getD i 0).2 - (b.getD i 0).1)) * y + θ t i)) g :=
      hsum
    refine (quadrature_integral ok.weights ok.pos.nodup hl
      (fun i : Fin P.dirs.length => volume.restrict (Set.Icc (b.getD i 0).1 (b.getD i 0).2)) hsep
      (fun i => 2 * Real.pi / ((b.getD i 0).2 - (b.getD i 0).1)) ?_ ?_).trans ?_
    · intro t i
      refine Continuous.integrableOn_Icc ?_
      fun_prop
    · intro t i
      have hi : (i : ℕ) < d := by rw [← hdl, ← hdirsP]; exact i.2
      have h1 : ((List.replicate d n).map fourierNodes).getD i [] = fourierNodes n := by simp [hi]
      have h2 : ((List.replicate d n).map fourierWeights).getD i [] = fourierWeights n := by simp [hi]
      simp only at h1 h2
      rw [h1, h2, h3 i hi, h4 i hi, show (fourierNodes n).length = n by simp [fourierNodes]]
      exact fourier_direction hn (hkn t i) (θ t i) (hlt i hi)
    · rw [box]
      congr 1
      have hPl : P.dirs.length = d := by rw [hdirsP, hdl]
      rw [← hPl, Finset.prod_range]

/-- C78. `Quad.fourier` with the same number `n` of points in each direction and bounds `l < r` (by default `-π` and `π`) builds a consistent
quadrature which integrates the waves with less than `n` periods between the bounds exactly over the box, up to the factor `2π / (r - l)` for
each direction: the rule is the integral of the function rescaled to `[-π, π]`. -/
theorem C78_fourier_partial [Interp F] {n d : ℕ} (hn : 0 < n) {n_points : Points} {bounds : Option (List (ℝ × ℝ))} {dirs : Option (List ℕ)}
    (hpts : (n_points = .one n ∧ (dirs = none → bounds = none → d = 1)) ∨ n_points = .each (List.replicate d n))
    (hb : ∀ b, bounds = some b → b.length = d ∧ ∀ x ∈ b, x.1 < x.2) (hlen : ∀ ds, dirs = some ds → ds.length = d)
    (hd : DirsOk (dirs.getD (List.range d))) (hs : n ^ d < 2 ^ 32) {factor : FactorArg F} (hf : FactorOk (dirs.getD (List.range d)) factor) :
    ∃ q, quad_fourier n_points bounds none factor dirs = .ok q ∧ QuadOk q ∧ q.position.dirs = dirs.getD (List.range d) ∧
      (∀ f ∈ q.do_fourier, f = 1) ∧ (∀ r ∈ q.nodes, r.length = n) ∧ q.factor.terms = factorTerms factor ∧
      ∀ (slack : ℕ) (eig : Eig) (f : SFn F), EigDiag eig → SFnOk f → f.dirs = q.position.dirs →
        TrigBelow n q.position.dirs (bounds.getD (List.replicate d (-Real.pi, Real.pi))) f.value →
        quad_integrate slack eig q f = .ok ((∏ i ∈ Finset.range d, (2 * Real.pi /
            (((bounds.getD (List.replicate d (-Real.pi, Real.pi))).getD i 0).2 - ((bounds.getD (List.replicate d (-Real.pi, Real.pi))).getD i 0).1))) *
          ∫ x, f.value (place q.position.dirs x) ∂(box q.position.dirs.length (bounds.getD (List.replicate d (-Real.pi, Real.pi))))) := by
  obtain ⟨q, e, ok, h1, h2, h3, -, -, -, -, h4, hrule⟩ := fourier_rule hn hpts hb hlen hd hs hf
  refine ⟨q, e, ok, h1, h2, ?_, h4, ?_⟩
  · intro r hr
    rw [h3] at hr
    rw [List.eq_of_mem_replicate hr]
    simp [fourierNodes]
  · intro slack eig f he hfo hfd hT
    rw [quad_integrate_ok he ok (fun h => absurd (h2 0 h) (by simp)) hfd hfo.vars, hrule _ hT]

/-- C78 is false for positions: with `position` given and an integer number of points, the dimension of the position is overwritten by one.
The quadrature has the nodes of one direction only, -/
theorem C78_fourier_position {n : ℕ} (hn : 0 < n) {p : Position} (hd : DirsOk p.dirs) {factor : FactorArg F} (hf : FactorOk p.dirs factor) :
    quad_fourier (.one n) none (some p) factor none =
      .ok ⟨[fourierNodes n], [fourierWeights n], p, ⟨p.dirs, factorTerms factor⟩⟩ := by
  rw [quad_fourier]
  simp only [fourierPosition, Out.ok_bind]
  rw [if_neg (by simp [fourierDim, fourierPoints]; omega), quad_init, if_neg (by simp [fourierDim, fourierPoints, uniform]), initPosition,
    Out.ok_bind, (factorOf_ok hd hf).1, Out.ok_bind]
  simp [fourierDim, fourierPoints]

theorem map_point_ub {t0 t1 : ℝ} {ts : List ℝ} {dilation : List (List ℝ)} {x y : Option ℝ} :
    map_point (t0 :: t1 :: ts) dilation [x] [y] = .ub := by
  simp only [map_point, forRange, List.length_cons, List.range_succ_eq_map (n := ts.length + 1), List.foldlM_cons, List.map_cons]
  rw [List.range_succ_eq_map]
  simp only [List.map_cons, List.foldlM_cons, rd, wr, rdInit]
  simp only [List.getElem?_cons_zero, Out.ok_bind, List.length_cons, List.length_nil, zero_add, Nat.lt_one_iff, if_true, List.set_cons_zero]
  cases dilation[0]? with
  | none => rfl
  | some r =>
    simp only [Out.ok_bind]
    cases r[0]? with
    | none => rfl
    | some c =>
      simp only [Out.ok_bind]
      cases x with
      | none => rfl
      | some x =>
        simp only [Out.ok_bind, List.getElem?_cons_zero]
        cases r[1]? with
        | none => rfl
        | some c => rfl

/-- and with a position of two or more directions, all that is done with it is undefined: `discretize` writes past the ends of its buffers. -/
theorem C78_fourier_position_false [Interp F] {n : ℕ} (hn : 0 < n) (hs : n < 2 ^ 32) {p : Position} (hp : PosOk p) (h2 : 2 ≤ p.dim)
    (hd : DirsOk p.dirs) {factor : FactorArg F} (hf : FactorOk p.dirs factor) :
    ∃ q, quad_fourier (.one n) none (some p) factor none = .ok q ∧ ∀ slack eig f, quad_integrate slack eig q f = .ub := by
  refine ⟨_, C78_fourier_position hn hd hf, ?_⟩
  intro slack eig f
  obtain ⟨t0, t1, ts, ht⟩ : ∃ t0 t1 ts, p.mean = t0 :: t1 :: ts := by
    have := hp.mean
    rcases hm : p.mean with _ | ⟨t0, _ | ⟨t1, ts⟩⟩
    · rw [hm] at this; simp at this; omega
    · rw [hm] at this; simp at this; omega
    · exact ⟨t0, t1, ts, rfl⟩
  obtain ⟨k, rfl⟩ : ∃ k, n = k + 1 := ⟨n - 1, by omega⟩
  have hw : wrap32 (1 * (k + 1)) = k + 1 := by rw [one_mul, wrap32]; exact Nat.mod_eq_of_lt hs
  obtain ⟨x0, xs, hx⟩ : ∃ x0 xs, fourierNodes (k + 1) = x0 :: xs := ⟨_, _, by rw [fourierNodes, List.range_succ_eq_map, List.map_cons]⟩
  have hl : (fourierNodes (k + 1)).length = k + 1 := by simp [fourierNodes]
  have key : quad_discretize eig (⟨[fourierNodes (k + 1)], [fourierWeights (k + 1)], p, ⟨p.dirs, factorTerms factor⟩⟩ : HQuad F) f = .ub := by
    rw [quad_discretize, discretize]
    simp only [List.map_cons, List.map_nil, List.foldl_cons, List.foldl_nil, hl, hw, ht]
    rw [gridLoop, forRange, List.range_succ_eq_map, List.foldlM_cons, discretizeStep]
    have e : (mkGrid [k + 1]).multi_index = [0] := rfl
    simp only [e, forRange, List.length_cons, List.length_nil, zero_add, List.range_one, List.foldlM_cons, List.foldlM_nil, rd, wr,
      List.getElem?_cons_zero, Out.ok_bind, hx, List.length_replicate, Nat.lt_one_iff, if_true, List.replicate_one, List.set_cons_zero]
    rw [show (pure [some x0] : Out _) = .ok [some x0] from rfl, Out.ok_bind, map_point_ub]
    rfl
  rw [quad_integrate, key]
  rfl

theorem uniform_lengths {l : List ℕ} {g : ℕ → List ℝ} (hg : ∀ n ∈ l, (g n).length = n) (h : uniform (l.map g)) {a b : ℕ} (ha : a ∈ l)
    (hb : b ∈ l) : a = b := by
  have h1 := h (g a) (List.mem_map_of_mem ha)
  have h2 := h (g b) (List.mem_map_of_mem hb)
  rw [hg a ha] at h1
  rw [hg b hb] at h2
  rw [h1, h2]

/-- C78 is false for different numbers of points: the constructor raises. -/
theorem C78_fourier_points_false {l : List ℕ} {a b : ℕ} (ha : a ∈ l) (hb : b ∈ l) (hab : a ≠ b) (bounds : Option (List (ℝ × ℝ)))
    (dirs : Option (List ℕ)) {p : Position} (factor : FactorArg F) : quad_fourier (.each l) bounds (some p) factor dirs = .throws := by
  rw [quad_fourier]
  simp only [fourierPosition, Out.ok_bind]
  split
  · rfl
  · rw [fourierPoints, quad_init, if_pos]
    left
    intro h
    exact hab (uniform_lengths (fun n _ => by simp [fourierNodes]) h ha hb)

/-- And so does `gauss_hermite`, -/
theorem C78_gauss_points_false {hermegauss : ℕ → List ℝ × List ℝ} {l : List ℕ} (hg : ∀ n ∈ l, 0 < n ∧ (hermegauss n).1.length = n) {a b : ℕ}
    (ha : a ∈ l) (hb : b ∈ l) (hab : a ≠ b) (position : Option Position) (factor : FactorArg F) (mean : Option (List ℝ))
    (cov : Option (List (List ℝ))) (types : Option (List String)) :
    quad_gauss_hermite hermegauss (.each l) none none position factor mean cov types = .throws := by
  rw [quad_gauss_hermite, gaussPoints, Out.ok_bind, hermegauss_nd,
    mapM_ok (g := fun n => ((hermegauss n).1, (hermegauss n).2.map fun w => w / √(2 * Real.pi))), Out.ok_bind, Out.ok_bind, quad_init, if_pos]
  · left
    intro h
    simp only [List.map_map] at h
    exact hab (uniform_lengths (g := fun n => (hermegauss n).1) (fun n hn => (hg n hn).2) h ha hb)
  · intro n hn
    rw [if_neg (hg n hn).1.ne']

/-! ## Newton-Cotes -/

theorem newton_cotes_built {n d : ℕ} (hn : 2 ≤ n) {extrema : List ℝ} (he : extrema.length = d) (hs : n ^ d < 2 ^ 32)
    {mean : Option (List ℝ)} {cov : Option (List (List ℝ))} {dirs : Option (List ℕ)} {factor : FactorArg F}
    (hk : Keywords d mean cov dirs factor) :
    ∃ q, quad_newton_cotes (List.replicate d n) extrema none factor mean cov dirs none = .ok q ∧ Built q d n mean cov dirs none factor ∧
      q.nodes = extrema.map (fun e => linspace e n) ∧ q.weights = extrema.map fun e => trapezoidWeights e n := by
  obtain ⟨q, e, hb, hv, hN, hW, hF⟩ := quad_init_built (nodes := extrema.map fun e => linspace e n)
    (weights := extrema.map fun e => trapezoidWeights e n) (n := n) (by simp [he]) (by simp [he])
    (by intro r hr; obtain ⟨x, -, rfl⟩ := List.mem_map.1 hr; simp [linspace])
    (by intro r hr; obtain ⟨x, -, rfl⟩ := List.mem_map.1 hr; simp [trapezoidWeights]) (by omega) hs hk
  refine ⟨q, ?_, hb, hN, hW⟩
  · rw [quad_newton_cotes, mapM_ok (g := fun e : ℝ × ℕ => (linspace e.1 n, trapezoidWeights e.1 n)), Out.ok_bind, ← e]
    · congr 1
      · rw [List.map_map]
        conv_rhs => rw [← List.zipIdx_map_fst 0 extrema, List.map_map]
        rfl
      · rw [List.map_map]
        conv_rhs => rw [← List.zipIdx_map_fst 0 extrema, List.map_map]
        rfl
    · rintro ⟨x, i⟩ hx
      have hi : i < d := by
        have := List.mem_zipIdx hx
        omega
      have e0 : pyget (List.replicate d n) i = .ok n := by simp [pyget, hi]
      simp only [e0, Out.ok_bind]
      rw [if_neg (by omega)]

/-- C78. `Quad.newton_cotes` with the same number `n ≥ 2` of points in each direction builds a consistent quadrature with the given data. For
sums of products of functions of one direction it is the product of the trapezoidal rules on the intervals `[-e, e]` for the functions times
the standard normal density, in the coordinates centred at the mean and scaled by the standard deviation. -/
theorem C78_newton_cotes_partial [Interp F] {n d : ℕ} (hn : 2 ≤ n) {extrema : List ℝ} (he : extrema.length = d) (hs : n ^ d < 2 ^ 32)
    {mean : Option (List ℝ)} {cov : Option (List (List ℝ))} {dirs : Option (List ℕ)} {factor : FactorArg F}
    (hk : Keywords d mean cov dirs factor) :
    ∃ q, quad_newton_cotes (List.replicate d n) extrema none factor mean cov dirs none = .ok q ∧ Built q d n mean cov dirs none factor ∧
      ∀ (slack : ℕ) (eig : Eig) (f : SFn F), 1 ≤ slack → EigDiag eig → SFnOk f → f.dirs = q.position.dirs →
        ∀ (m : ℕ) (a : ℕ → ℝ) (u : ℕ → ℕ → ℝ → ℝ), Separated m q.position.dirs a u f.value →
        quad_integrate slack eig q f = .ok (∑ t ∈ Finset.range m, a t * ∏ i ∈ Finset.range d, trapezoidal_integral
          (fun y => u t i (q.position.mean.getD i 0 + √(entryOf q.position.cov i i) * y) * normalDensity 0 1 y) (n - 1)
          (-(extrema.getD i 0)) (extrema.getD i 0)) := by
  obtain ⟨q, e, hb, hN, hW⟩ := newton_cotes_built (F := F) hn he hs hk
  refine ⟨q, e, hb, ?_⟩
  intro slack eig f hsl heig hf hfd m a u hsep
  rw [quad_integrate_ok heig hb.ok (fun _ => hsl) hfd hf.vars]
  congr 1
  have hl : q.position.dirs.length = q.nodes.length := by rw [hb.ok.pos.dirs, hb.ok.dim]
  have hd' : q.position.dirs.length = d := by rw [hb.ok.pos.dirs, hb.dim]
  rw [quadrature_separated hb.ok.weights hb.ok.pos.nodup hl hsep]
  refine Finset.sum_congr rfl fun t _ => ?_
  congr 1
  conv_rhs => rw [← hd', Finset.prod_range]
  refine Finset.prod_congr rfl fun i _ => ?_
  have hi : (i : ℕ) < extrema.length := by rw [he, ← hd']; exact i.2
  have h1 : q.nodes.getD i [] = linspace (extrema.getD i 0) n := by rw [hN]; simp [hi]
  have h2 : q.weights.getD i [] = trapezoidWeights (extrema.getD i 0) n := by rw [hW]; simp [hi]
  rw [h1, h2, show (linspace (extrema.getD i 0) n).length = n by simp [linspace]]
  exact trapezoid_direction hn _ (fun y => u t i (q.position.mean.getD i 0 + √(entryOf q.position.cov i i) * y))

/-- C78. In one direction the result differs from the integral over `[m - σe, m + σe]` against the normal density by at most
`(2e)³ ζ / (12 (n-1)²)`, where `ζ` bounds the second derivative of the integrand. -/
theorem C78_newton_cotes_error_partial [Interp F] {n k : ℕ} (hn : 2 ≤ n) (hs : n < 2 ^ 32) {e m v : ℝ} (he : 0 ≤ e) (hv : 0 ≤ v) (hk : k < 5)
    {factor : FactorArg F} (hf : FactorOk [k] factor) :
    ∃ q, quad_newton_cotes [n] [e] none factor (some [m]) (some [[v]]) (some [k]) none = .ok q ∧ QuadOk q ∧
      ∀ (slack : ℕ) (eig : Eig) (f : SFn F), 1 ≤ slack → EigDiag eig → SFnOk f → f.dirs = [k] → ∀ g : ℝ → ℝ, (∀ x, f.value x = g (x k)) →
        ∀ ζ, ContDiffOn ℝ 2 (fun y => g (m + √v * y) * normalDensity 0 1 y) (Set.uIcc (-e) e) →
        (∀ x, |iteratedDerivWithin 2 (fun y => g (m + √v * y) * normalDensity 0 1 y) (Set.uIcc (-e) e) x| ≤ ζ) →
        ∃ I, quad_integrate slack eig q f = .ok I ∧
          |I - ∫ y in (-e)..e, g (m + √v * y) * normalDensity 0 1 y| ≤ (2 * e) ^ 3 * ζ / (12 * ((n : ℝ) - 1) ^ 2) := by
  have hvar : Variances [[v]] := by
    refine ⟨?_, ?_⟩
    · rintro (_ | i) (_ | j) h <;> simp [entryOf] at h ⊢
    · rintro (_ | i) <;> simp [entryOf, hv]
  have hkw : Keywords 1 (some [m]) (some [[v]]) (some [k]) factor :=
    ⟨by simp, by simp [hvar], by simp, ⟨by simp, by simp [hk], by simp⟩, hf⟩
  obtain ⟨q, eq, hb, hint⟩ := C78_newton_cotes_partial (F := F) hn (extrema := [e]) rfl (by simpa using hs) hkw
  refine ⟨q, by simpa using eq, hb.ok, ?_⟩
  intro slack eig f hsl heig hf hfd g hg ζ hC hζ
  have hdirs : q.position.dirs = [k] := hb.position.dirsGiven _ rfl
  have hmean : q.position.mean = [m] := hb.position.meanGiven _ rfl
  have hcov : q.position.cov = [[v]] := hb.position.covGiven _ rfl
  have hsep : Separated 1 q.position.dirs (fun _ => 1) (fun _ _ => g) f.value := by
    rw [hdirs]
    intro x
    rw [hg]
    simp
  have h := hint slack eig f hsl heig hf (hfd.trans hdirs.symm) 1 _ _ hsep
  refine ⟨_, h, ?_⟩
  simp only [Finset.sum_range_one, Finset.prod_range_one, one_mul, hmean, hcov, entryOf, List.length_singleton, Finset.prod_range_one, List.getD_cons_zero]
  have := trapezoidal_error_le_of_c2 hC hζ (N := n - 1) (by omega)
  rw [trapezoidal_error, show |e - -e| = 2 * e by rw [abs_of_nonneg (by linarith)]; ring] at this
  rw [Nat.cast_sub (by omega), Nat.cast_one] at this
  exact this

/-- `newton_cotes` raises if a direction has less than two points. -/
theorem C78_newton_cotes_rejects {n_points : List ℕ} {extrema : List ℝ} {i n : ℕ} (hi : i < extrema.length) (h : n_points[i]? = some n)
    (hn : n ≤ 1) (hall : extrema.length ≤ n_points.length) (position : Option Position) (factor : FactorArg F) (mean : Option (List ℝ))
    (cov : Option (List (List ℝ))) (dirs : Option (List ℕ)) (types : Option (List String)) :
    quad_newton_cotes n_points extrema position factor mean cov dirs types = .throws := by
  rw [quad_newton_cotes, mapM_throws]
  · rfl
  · rintro ⟨x, j⟩ hx
    have hj : j < n_points.length := by
      have := List.mem_zipIdx hx
      omega
    have e : pyget n_points j = .ok n_points[j] := by simp [pyget, hj]
    simp only [e, Out.ok_bind]
    split
    · right; rfl
    · left; exact ⟨_, rfl⟩
  · refine ⟨(extrema[i], i), ?_, ?_⟩
    · rw [List.mem_iff_getElem]
      exact ⟨i, by simpa using hi, by simp⟩
    · have e : pyget n_points i = .ok n := by simp [pyget, h]
      simp only [e, Out.ok_bind]
      rw [if_pos hn]

/-! ## Cases meeting the hypotheses -/

/-- The Gauss rule with two nodes. -/
noncomputable def gauss2 : List ℝ × List ℝ := ([-1, 1], [√(2 * Real.pi) / 2, √(2 * Real.pi) / 2])

theorem gauss2_ok : GaussRule 2 gauss2 where
  nodes := rfl
  weights := rfl
  exact := by
    intro P hP
    have hs : √(2 * Real.pi) ≠ 0 := (Real.sqrt_pos.2 (by have := Real.pi_pos; positivity)).ne'
    have e : ∫ x : ℝ, P.eval x * Real.exp (-(x ^ 2) / 2) = √(2 * Real.pi) * gE P := by
      rw [gE, ← integral_const_mul]
      congr 1
      funext x
      rw [gw]
      field_simp
    have g1 : gE Polynomial.X = 0 := by simpa [gE] using gE_stein 1
    have g2 : gE (Polynomial.X ^ 2) = 1 := by
      have := gE_stein Polynomial.X
      rwa [Polynomial.derivative_X, gE_one, ← pow_two] at this
    have g3 : gE (Polynomial.X ^ 3) = 0 := by
      have := gE_stein (Polynomial.X ^ 2)
      rw [Polynomial.derivative_X_pow, gE_C_mul] at this
      simpa [g1, ← pow_succ'] using this
    have hP' : P = Polynomial.C (P.coeff 0) * 1 + Polynomial.C (P.coeff 1) * Polynomial.X + Polynomial.C (P.coeff 2) * Polynomial.X ^ 2 +
        Polynomial.C (P.coeff 3) * Polynomial.X ^ 3 := by
      conv_lhs => rw [Polynomial.as_sum_range_C_mul_X_pow' P (show P.natDegree < 4 by omega)]
      simp [Finset.sum_range_succ]
    rw [e, hP', gE_add, gE_add, gE_add, gE_C_mul, gE_C_mul, gE_C_mul, gE_C_mul, gE_one, g1, g2, g3]
    simp [Finset.sum_range_succ, gauss2]
    ring

/-- `Quad.gauss_hermite(2, dirs=[1, 3], cov=[[2, 0], [0, 5]])`. -/
example : GaussRule 2 ((fun _ => gauss2 : ℕ → List ℝ × List ℝ) 2) ∧
    Keywords 2 none (some [[2, 0], [0, 5]]) (some [1, 3]) (FactorArg.expr {0} : FactorArg F) := by
  refine ⟨gauss2_ok, by simp, ?_, by simp, ⟨by simp, by simp, by simp⟩, by simp [FactorOk]⟩
  intro c hc
  cases hc
  refine ⟨by simp, ?_, ?_⟩
  · rintro (_ | _ | i) (_ | _ | j) h <;> simp [entryOf] at h ⊢
  · rintro (_ | _ | i) <;> simp [entryOf]

/-- The polynomial `x₁³ x₃²`. -/
example : PolyBelow (2 * 2) [1, 3] fun x => x 1 ^ 3 * x 3 ^ 2 := by
  refine ⟨MvPolynomial.X 0 ^ 3 * MvPolynomial.X 1 ^ 2, ?_, ?_⟩
  · intro i
    refine lt_of_le_of_lt (MvPolynomial.degreeOf_mul_le _ _ _) ?_
    have h0 := MvPolynomial.degreeOf_pow_le i (MvPolynomial.X (R := ℝ) (0 : Fin 2)) 3
    have h1 := MvPolynomial.degreeOf_pow_le i (MvPolynomial.X (R := ℝ) (1 : Fin 2)) 2
    have e0 := MvPolynomial.degreeOf_X (R := ℝ) i (0 : Fin 2)
    have e1 := MvPolynomial.degreeOf_X (R := ℝ) i (1 : Fin 2)
    rw [e0] at h0
    rw [e1] at h1
    change Fin 2 at i
    fin_cases i <;> simp at h0 h1 ⊢ <;> omega
  · intro x
    simp

/-- The wave `sin(2πx₀) cos(4πx₂)` for the bounds 0, 1 and 0, 1, and three points. -/
example : TrigBelow 3 [0, 2] [(0, 1), (0, 1)] fun x => Real.cos (2 * Real.pi * x 0 - Real.pi / 2) * Real.cos (4 * Real.pi * x 2) := by
  refine ⟨1, fun _ => 1, fun _ i => if i = 0 then 1 else 2, fun _ i => if i = 0 then -(Real.pi / 2) else 0, ?_, ?_⟩
  · intro t i
    simp only
    split <;> omega
  · intro x
    simp [Fin.prod_univ_two]
    congr 2
    ring

/-- A smooth integrand. -/
example : ContDiffOn ℝ 2 (fun y : ℝ => (1 + √4 * y) ^ 3 * normalDensity 0 1 y) (Set.uIcc (-5) 5) := by
  unfold normalDensity
  fun_prop

/-- The bound on the second derivative exists for smooth integrands. -/
example (h : ℝ → ℝ) {e : ℝ} (he : 0 < e) (hc : ContDiffOn ℝ 2 h (Set.uIcc (-e) e)) :
    ∃ ζ, ∀ x, |iteratedDerivWithin 2 h (Set.uIcc (-e) e) x| ≤ ζ := by
  rw [Set.uIcc_of_le (by linarith)] at hc ⊢
  have hu := uniqueDiffOn_Icc (show -e < e by linarith)
  obtain ⟨ζ, hζ⟩ := isCompact_Icc.exists_bound_of_continuousOn (hc.continuousOn_iteratedDerivWithin (m := 2) le_rfl hu)
  refine ⟨max ζ 0, fun x => ?_⟩
  by_cases hx : x ∈ Set.Icc (-e) e
  · exact le_max_of_le_left (hζ x hx)
  · rw [iteratedDerivWithin_succ, derivWithin_zero_of_notMem_closure (by rwa [isClosed_Icc.closure_eq])]
    simp

/-- A position with two directions. -/
example : PosOk ⟨2, [0, 1], [0, 0], [[1, 0], [0, 1]], ["fourier", "fourier"]⟩ ∧ DirsOk [0, 1] :=
  ⟨⟨rfl, rfl, rfl, by simp, rfl, by simp⟩, by simp, by simp, by simp⟩

end Hermipy.Props
