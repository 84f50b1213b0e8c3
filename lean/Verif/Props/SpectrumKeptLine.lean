import Verif.Props.GaussRule
import Verif.Props.SpectrumKept

/-! # C80: the Fokker-Planck operator of a harmonic potential, with terms that are dropped as negligible -/

namespace Hermipy.Props
open Hermipy Hermipy.Spec

theorem counts_hermite {fourier : List ℕ} (hF : ∀ x ∈ fourier, x = 0) (c : ℝ) : Counts fourier c ↔ 1 / 10 ^ 12 ≤ |c| := by
  rw [Counts, List.count_eq_zero_of_not_mem (fun h => by have := hF 1 h; omega), pow_zero, mul_one]

/-- The second derivative, with a constant as coefficient. -/
theorem second_entry {F : Type} [Interp F] {q : HQuad F} (hq : QuadOk q) (hv : VarPos q.position) (hdirs : q.position.dirs = [0]) (h0 : q.do_fourier.getD 0 0 = 0)
    {N : ℕ} (ho : ∀ k < q.nodes.length, ExactTo N (q.do_fourier.getD k 0) (q.nodes.getD k []) (q.weights.getD k [])) {c : ℝ} {f : (ℕ → ℝ) → ℝ}
    (hf : ∀ x, f x = c) {i j : ℕ} (hN : i + j ≤ N) :
    dformEntry q f [0, 0] [i] [j] = if i + 2 = j then c * √(j * (j - 1)) / entryOf q.position.cov 0 0 else 0 := by
  have hdim : q.position.dim = 1 := hq.pos.dirs.symm.trans (congrArg List.length hdirs)
  have hm : 0 ∈ q.position.dirs := by rw [hdirs]; simp
  have hidx : q.position.dirs.idxOf 0 = 0 := by rw [hdirs]; simp
  have hpos := hv 0 (by omega)
  have hlow : ∀ k : ℕ, dIdx 0 0 [k] = [k - 1] := fun k => by simp [dIdx, lower]
  have hco : ∀ k : ℕ, dCoef 0 0 [k] = √(k : ℝ) := fun k => by simp [dCoef]
  have hpd : ∀ x, pds [0, 0] (coordBasis q.position q.do_fourier [j]) x =
      √(j : ℝ) * √((j - 1 : ℕ) : ℝ) / entryOf q.position.cov 0 0 * coordBasis q.position q.do_fourier [j - 2] x := by
    intro x
    simp only [pds, List.foldr_cons, List.foldr_nil]
    rw [pd_pd_coordBasis hq.pos (by rw [hdim]; rfl) hm, hidx, h0, hlow, hlow, hco, hco, show j - 1 - 1 = j - 2 by omega]
    have h1 := (Real.sqrt_pos.2 hpos).ne'
    have h2 := Real.mul_self_sqrt hpos.le
    field_simp
    rw [Real.sq_sqrt hpos.le]
    try field_simp
  have e : dformEntry q f [0, 0] [i] [j] = c * (√(j : ℝ) * √((j - 1 : ℕ) : ℝ) / entryOf q.position.cov 0 0) *
      quadrature q.nodes q.weights fun _ x => basis q.nodes.length q.do_fourier [i] x * basis q.nodes.length q.do_fourier [j - 2] x := by
    rw [dformEntry, ← quadrature_smul]
    apply quadrature_congr
    intro t p _
    rw [hf, hpd, coordBasis_gridPoint hq hv]
    ring
  rw [e, basis_pair hq ho (by rw [hdim]; rfl) (by rw [hdim]; rfl) (by
    intro k hk
    obtain rfl : k = 0 := by omega
    simp only [List.getD_cons_zero]
    omega)]
  by_cases hij : i + 2 = j
  · subst hij
    rw [if_pos (by simp), if_pos rfl, ← Real.sqrt_mul (Nat.cast_nonneg _), show i + 2 - 1 = i + 1 by omega]
    push_cast
    rw [show (i : ℝ) + 2 - 1 = i + 1 by ring]
    ring
  · rw [if_neg hij]
    by_cases h2 : i = j - 2
    · have hj : j = 0 ∨ j = 1 := by omega
      rcases hj with rfl | rfl <;> simp
    · rw [if_neg (by simpa using h2), mul_zero]

open Classical in
/-- C80, whatever the temperature `1/β ≠ 0` and the variance: the Fokker-Planck operator of a harmonic potential, discretized with the quadrature of
`Quad.gauss_hermite` whose position is that of the stationary density and whose factor is this density. The second derivative is left out
if `|1/β| < 10⁻¹²` and the first if `|1/β| / √v < 10⁻¹²`. With both or none of them the matrix is diagonal; otherwise entries appear at `(j - 2, j)`. -/
theorem C80_fokker_planck_kept {hermegauss : ℕ → List ℝ × List ℝ} {n degree : ℕ} (hg : GaussRule n (hermegauss n)) (hn : degree < n)
    (hpts : n < 2 ^ 32) (hdeg : degree ≤ 250) {β m v : ℝ} (hv : 0 < v) (hβ : β ≠ 0) {s : IndexSet}
    (hs : s = .triangle ∨ s = .cube) (hz : Sized s 1 (2 * degree)) {slack : ℕ} (hsl : 1 ≤ degree ∨ 1 ≤ slack) (free : Smooth [0].length → Finset ℕ)
    {sparse : Bool} {eig : Eig} (he : EigDiag eig) :
    let _ := Smooth.interp [0]
    ∃ q V, quad_gauss_hermite hermegauss (.one n) none (some [0]) none (.expr {{([0].toFinset, gibbs β (harmonic β m v))}}) (some [m]) (some [[v]]) none =
        .ok q ∧
      quad_discretize_op (Smooth.D [0]) Smooth.inv free (List.ofFn Smooth.coord) (quad_varf sparse slack eig degree s q)
        (fun f ds => quad_varfd sparse slack eig degree s ds q f) (Smooth.fn [0]) q (gibbs β (harmonic β m v))
        (.op ⟨[0], collect (fokker_planck_1d (Smooth.D [0]) Smooth.inv (Smooth.const β) (harmonic β m v))⟩) = .ok V ∧
      VarfOk V ∧ V.is_sparse = sparse ∧ V.position = q.position ∧ V.factor = q.factor ∧ V.index_set = s ∧ SameSets s V.degree degree ∧
      ∀ i j, i ≤ degree → j ≤ degree → Entry V [i] [j]
        ((if 1 / 10 ^ 12 ≤ |1 / β| ∧ i + 2 = j then √(j * (j - 1)) / (β * v) else 0) -
          if 1 / 10 ^ 12 ≤ |1 / β| / √v then (if i = j then j / (β * v) else 0) + (if i + 2 = j then √(j * (j - 1)) / (β * v) else 0) else 0) := by
  intro inst
  obtain ⟨q, e, hq, hdim, hmean, hcov, hdirs, hfac, hF, hr⟩ := gauss_resolves (F := Smooth [0].length) (dirs := [0]) (mean := [m]) (cov := [[v]])
    (factor := .expr {{([0].toFinset, gibbs β (harmonic β m v))}}) hg hn ⟨by simp, by simp, by simp⟩ (by simpa using hpts) rfl
    (by simp) ⟨fun i j hij => by
      rcases i with _ | i <;> rcases j with _ | j <;> simp [entryOf] at hij ⊢, fun i => by rcases i with _ | i <;> simp [entryOf, hv.le]⟩
    (by intro i hi; simp at hi; subst hi; simpa [entryOf] using hv) hs (usableTo_small s (by simp) hdeg) hz hsl (by
      intro p hp a ha d hd
      rw [Multiset.mem_singleton.1 hp, Multiset.mem_singleton] at ha
      rw [ha] at hd
      exact List.mem_toFinset.1 hd)
  have hdim1 : q.position.dim = 1 := hdim
  have hc0 : entryOf q.position.cov 0 0 = v := by rw [hcov]; rfl
  have hm0 : q.position.mean.getD 0 0 = m := by rw [hmean]; rfl
  have h0 : q.do_fourier.getD 0 0 = 0 := by
    by_cases hk : 0 < q.do_fourier.length
    · rw [List.getD_eq_getElem _ _ hk]
      exact hF _ (List.getElem_mem hk)
    · simp [Nat.le_of_not_lt hk]
  obtain ⟨V, e2, v1, v2, v3, v4, v5, v6, v7⟩ := C80_mapped_kept (dirs := [0]) (sparse := sparse) (a := fun _ => 1 / (β * v)) (List.pairwise_singleton _ _)
    free he hq hdirs (value_smooth hfac) (fun x => (gibbs_pos _ _ x).ne') hr (fun i _ => one_div_ne_zero (mul_ne_zero hβ hv.ne'))
    (A := ⟨[0], collect (fokker_planck_1d (Smooth.D [0]) Smooth.inv (Smooth.const β) (harmonic β m v))⟩)
    (fokker_planck_normal hβ).1 rfl (fokker_planck_normal hβ).2 fun k hk => by
      have := fokker_planck_map hβ hv.ne' hm0 hc0 (f := q.do_fourier) (by omega) k hk
      dsimp only
      exact this
  refine ⟨q, V, e, e2, v1, v2, v3, v4, v5, v6, fun i j hi hj => ?_⟩
  have hin : ∀ k ≤ degree, InSet s q.position.dim degree [k] := by
    intro k hk
    rw [hdim1]
    rcases hs with rfl | rfl
    · exact ⟨rfl, by simpa using hk⟩
    · exact ⟨rfl, by simpa using hk⟩
  have h := v7 [i] [j] (hin i hi) (hin j hj)
  have hl : ∀ k, level 0 k = k := fun k => if_neg zero_ne_one
  have hsv := Real.sqrt_pos.2 hv
  -- the two terms
  let t2 : OpTerm (Smooth [0].length) := ⟨Smooth.const (1 / (β * v) * entryOf q.position.cov 0 0), [2]⟩
  let t1 : OpTerm (Smooth [0].length) := ⟨-(Smooth.const (1 / (β * v)) * (Smooth.X [0] 0 - Smooth.const (q.position.mean.getD 0 0))), [1]⟩
  have hgen : generator [0] q.position q.do_fourier (fun _ => 1 / (β * v)) = [t2, t1] := by
    change (List.range 1).flatMap _ = _
    rw [List.range_one, List.flatMap_singleton, if_neg (by omega)]
    rfl
  have p2 : dformEntry q (Smooth.ev [0] t2.coeff) (orderDirs q.position.dirs [2]) [i] [j] = if i + 2 = j then √(j * (j - 1)) / (β * v) else 0 := by
    have e3 : orderDirs q.position.dirs [2] = [0, 0] := by rw [hdirs]; rfl
    rw [e3, second_entry hq hr.variances hdirs h0 hr.rule (f := Smooth.ev [0] t2.coeff) (i := i) (j := j) (c := 1 / (β * v) * entryOf q.position.cov 0 0) (fun x => rfl) (by omega), hc0]
    have := hv.ne'
    congr 1
    field_simp
  have p12 : dformEntry q (Smooth.ev [0] t2.coeff) (orderDirs q.position.dirs [2]) [i] [j] +
      dformEntry q (Smooth.ev [0] t1.coeff) (orderDirs q.position.dirs [1]) [i] [j] = -if i = j then j / (β * v) else 0 := by
    have h3 := opEntry_eigen hq hr.variances hr.rule (I := [i]) (J := [j]) (ev := Smooth.ev [0]) (T := generator [0] q.position q.do_fourier fun _ => 1 / (β * v))
      (c := eigenvalue q.do_fourier (fun _ => 1 / (β * v)) [j] q.position.dim) (by rw [hdim1]; rfl) (by rw [hdim1]; rfl) (by
        intro k hk
        obtain rfl : k = 0 := by omega
        simp only [List.getD_cons_zero]
        omega) (fun x => by
        rw [hdirs]
        exact generator_eigen hq.pos hdirs hr.variances (by rw [hdim1]; rfl) x)
    rw [hgen, opEntry_terms, List.map_cons, List.map_cons, List.map_nil, List.sum_cons, List.sum_cons, List.sum_nil, add_zero, eigenvalue, hdim1,
      Finset.sum_range_one, h0, hl] at h3
    rw [h3]
    by_cases hij : i = j
    · subst hij
      simp
      ring
    · rw [if_neg (by simpa using hij), if_neg hij, neg_zero]
  have c2 : Counts q.do_fourier (1 / (β * v) * entryOf q.position.cov 0 0) ↔ 1 / 10 ^ 12 ≤ |1 / β| := by
    rw [counts_hermite hF, hc0, show 1 / (β * v) * v = 1 / β by have := hv.ne'; field_simp]
  have c1 : Counts q.do_fourier (1 / (β * v) * √(entryOf q.position.cov 0 0)) ↔ 1 / 10 ^ 12 ≤ |1 / β| / √v := by
    have : 1 / (β * v) * √v = 1 / β / √v := by
      have h1 := hsv.ne'
      have h2 := Real.mul_self_sqrt hv.le
      rw [div_mul_eq_mul_div, one_mul, div_div, div_eq_div_iff (mul_ne_zero hβ hv.ne') (mul_ne_zero hβ h1)]
      linear_combination β * h2
    rw [counts_hermite hF, hc0, this, abs_div, abs_of_pos hsv]
  have hkept : keptGenerator [0] q.position q.do_fourier (fun _ => 1 / (β * v)) =
      (if 1 / 10 ^ 12 ≤ |1 / β| then [t2] else []) ++ if 1 / 10 ^ 12 ≤ |1 / β| / √v then [t1] else [] := by
    change (List.range 1).flatMap _ = _
    rw [List.range_one, List.flatMap_singleton, if_congr c2 rfl rfl,
      if_congr (and_iff_right (by omega)) rfl rfl, if_congr c1 rfl rfl]
    rfl
  rw [hkept, opEntry_terms, List.map_append, List.sum_append] at h
  convert h using 1
  by_cases b2 : 1 / 10 ^ 12 ≤ |1 / β| <;> by_cases b1 : 1 / 10 ^ 12 ≤ |1 / β| / √v
  all_goals simp only [b2, b1, true_and, false_and, if_true, if_false, List.map_cons, List.map_nil, List.sum_cons, List.sum_nil, add_zero, zero_add]
  · linear_combination -p12
  · linear_combination -p2
  · linear_combination p2 - p12
  · ring

/-- C80 is false for small temperatures and variances: for `1/β = 10⁻¹³` and the variance `10⁻⁶` the second derivative is dropped and the first is not.
The matrix has the entry `-√2 · 10⁻⁷` at `(0, 2)`, which is as large as the eigenvalues `-j · 10⁻⁷`. -/
theorem C80_fokker_planck_false {hermegauss : ℕ → List ℝ × List ℝ} (hg : GaussRule 3 (hermegauss 3)) {eig : Eig} (he : EigDiag eig) (sparse : Bool) :
    let _ := Smooth.interp [0]
    ∃ q V, quad_gauss_hermite hermegauss (.one 3) none (some [0]) none (.expr {{([0].toFinset, gibbs (10 ^ 13) (harmonic (10 ^ 13) 0 (1 / 10 ^ 6)))}})
        (some [0]) (some [[1 / 10 ^ 6]]) none = .ok q ∧
      quad_discretize_op (Smooth.D [0]) Smooth.inv (fun _ => ∅) (List.ofFn Smooth.coord) (quad_varf sparse 0 eig 2 .triangle q)
        (fun f ds => quad_varfd sparse 0 eig 2 .triangle ds q f) (Smooth.fn [0]) q (gibbs (10 ^ 13) (harmonic (10 ^ 13) 0 (1 / 10 ^ 6)))
        (.op ⟨[0], collect (fokker_planck_1d (Smooth.D [0]) Smooth.inv (Smooth.const (10 ^ 13)) (harmonic (10 ^ 13) 0 (1 / 10 ^ 6)))⟩) = .ok V ∧
      Entry V [1] [1] (-(1 / 10 ^ 7)) ∧ Entry V [2] [2] (-(2 / 10 ^ 7)) ∧ Entry V [0] [2] (-(√2 / 10 ^ 7)) ∧ -(√2 / 10 ^ 7) ≠ 0 := by
  intro inst
  have hsq : √((1 : ℝ) / 10 ^ 6) = 1 / 10 ^ 3 := by
    rw [show (1 : ℝ) / 10 ^ 6 = (1 / 10 ^ 3) ^ 2 by norm_num, Real.sqrt_sq (by norm_num)]
  have b2 : ¬ (1 : ℝ) / 10 ^ 12 ≤ |1 / 10 ^ 13| := by
    rw [abs_of_pos (by norm_num)]
    norm_num
  have b1 : (1 : ℝ) / 10 ^ 12 ≤ |1 / 10 ^ 13| / √(1 / 10 ^ 6) := by
    rw [hsq, abs_of_pos (by norm_num)]
    norm_num
  obtain ⟨q, V, e, e2, -, -, -, -, -, -, h⟩ := C80_fokker_planck_kept (n := 3) (degree := 2) hg (by norm_num) (by norm_num) (by norm_num)
    (β := 10 ^ 13) (m := 0) (v := 1 / 10 ^ 6) (by norm_num) (by norm_num) (Or.inl rfl) (usable_small _ (by simp) (by simp) (by norm_num)).toSized
    (slack := 0) (Or.inl (by norm_num)) (fun _ => ∅) (sparse := sparse) he
  simp only [b2, b1, false_and, if_false, if_true, zero_sub] at h
  refine ⟨q, V, e, e2, ?_, ?_, ?_, ?_⟩
  · have := h 1 1 (by omega) (by omega)
    norm_num at this ⊢
    exact this
  · have := h 2 2 (by omega) (by omega)
    norm_num at this ⊢
    exact this
  · have := h 0 2 (by omega) (by omega)
    rw [if_neg (by norm_num), if_pos rfl, zero_add, show ((2 : ℕ) : ℝ) * ((2 : ℕ) - 1) = 2 by norm_num] at this
    rwa [show (10 : ℝ) ^ 13 * (1 / 10 ^ 6) = 10 ^ 7 by norm_num] at this
  · have := Real.sqrt_pos.2 (show (0 : ℝ) < 2 by norm_num)
    exact neg_ne_zero.2 (by positivity)

/-- There are such Gauss rules, hence the hypotheses of the two theorems can be met. -/
example : ∃ hermegauss : ℕ → List ℝ × List ℝ, ∀ n, GaussRule n (hermegauss n) :=
  ⟨fun n => (C83_exists_unique n).choose, fun n => (C83_exists_unique n).choose_spec.1.1⟩

/-- At the temperature `10⁻¹³` with the variance 1, both terms are dropped. -/
example {hermegauss : ℕ → List ℝ × List ℝ} (hg : GaussRule 3 (hermegauss 3)) {eig : Eig} (he : EigDiag eig) (sparse : Bool) :
    let _ := Smooth.interp [0]
    ∃ q V, quad_gauss_hermite hermegauss (.one 3) none (some [0]) none (.expr {{([0].toFinset, gibbs (10 ^ 13) (harmonic (10 ^ 13) 0 1))}})
        (some [0]) (some [[1]]) none = .ok q ∧
      quad_discretize_op (Smooth.D [0]) Smooth.inv (fun _ => ∅) (List.ofFn Smooth.coord) (quad_varf sparse 0 eig 2 .triangle q)
        (fun f ds => quad_varfd sparse 0 eig 2 .triangle ds q f) (Smooth.fn [0]) q (gibbs (10 ^ 13) (harmonic (10 ^ 13) 0 1))
        (.op ⟨[0], collect (fokker_planck_1d (Smooth.D [0]) Smooth.inv (Smooth.const (10 ^ 13)) (harmonic (10 ^ 13) 0 1))⟩) = .ok V ∧
      ∀ i j, i ≤ 2 → j ≤ 2 → Entry V [i] [j] 0 := by
  intro inst
  have b : ¬ (1 : ℝ) / 10 ^ 12 ≤ |1 / 10 ^ 13| := by
    rw [abs_of_pos (by norm_num)]
    norm_num
  obtain ⟨q, V, e, e2, -, -, -, -, -, -, h⟩ := C80_fokker_planck_kept (n := 3) (degree := 2) hg (by norm_num) (by norm_num) (by norm_num)
    (β := 10 ^ 13) (m := 0) (v := 1) (by norm_num) (by norm_num) (Or.inl rfl) (usable_small _ (by simp) (by simp) (by norm_num)).toSized
    (slack := 0) (Or.inl (by norm_num)) (fun _ => ∅) (sparse := sparse) he
  simp only [Real.sqrt_one, div_one, b, false_and, if_false, sub_zero] at h
  exact ⟨q, V, e, e2, h⟩

end Hermipy.Props
