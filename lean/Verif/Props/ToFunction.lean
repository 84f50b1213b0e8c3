import Verif.Lemmas.ToFunction
import Verif.Props.Series

/-! # C58: the function of a series -/

namespace Hermipy.Props
open Hermipy Hermipy.Spec
variable {Φ : Type}

/-- The arguments at which `to_function` evaluates the Hermite polynomials. -/
noncomputable def functionPoint (p : Position) (x : ℕ → ℝ) : List ℝ :=
  (List.range p.dim).map fun i => √(entryOf p.cov i i) * (x (p.dirs.getD i 0) - p.mean.getD i 0)

/-- **C58.** What `to_function` computes, for every series with a diagonal position: the sum of coefficients and products of Hermite
polynomials, in the arguments `√σ (x - μ)`. -/
theorem C58_value (f : HSeries Φ) (hf : SeriesOk f) (hd : f.position.is_diag) (hsorted : f.position.dirs.Pairwise (· ≤ ·))
    (h5 : ∀ d ∈ f.position.dirs, d < 5) (x : ℕ → ℝ) : ∃ L, f.index_set.s_list f.position.dim f.degree = .ok L ∧
      Lists L (Indices f) ∧ series_to_function f x = .ok (series f.position.dim [] L f.coeffs (functionPoint f.position x)) := by
  obtain ⟨L, hL, hlen⟩ := hf.list
  have hp := hf.pos
  refine ⟨L, hL.list, ⟨hL.nodup, hL.mem⟩, ?_⟩
  rw [series_to_function, if_neg (not_not.2 hd), if_neg (not_not.2 hsorted),
    mapM_ok (g := fun i => hermiteDir f.degree ((functionPoint f.position x).getD i 0)), Out.ok_bind,
    if_neg (PosOk.dim_pos hp hf.dirs), hL.list, Out.ok_bind]
  · rw [series]
    refine foldlM_range_sum fun j hj v => ?_
    have hm := (hL.mem L[j]).1 (List.getElem_mem hj)
    rw [pyget_some (List.getElem?_eq_getElem hj), Out.ok_bind, pyget_some (List.getElem?_eq_getElem (hlen ▸ hj)), Out.ok_bind]
    rw [foldlM_range_prod (g := fun k => herm (L[j].getD k 0) ((functionPoint f.position x).getD k 0))]
    · simp [basis, phi, hj, hlen ▸ hj]
    · intro k hk v
      have hk' : k < L[j].length := by rw [inSet_length hm]; exact hk
      rw [pyget_some (by rw [List.getElem?_map, List.getElem?_range (by rw [hp.dirs]; exact hk)]; rfl), Out.ok_bind,
        pyget_some (List.getElem?_eq_getElem hk'), Out.ok_bind,
        pyget_some (hermiteDir_get _ (inSet_entry_le hm _ (List.getElem_mem hk'))), Out.ok_bind]
      simp [hk']
  · intro i hi
    rw [List.mem_range] at hi
    have hi' : i < f.position.dim := by rw [← hp.dirs]; exact hi
    have hm : i < f.position.mean.length := by rw [hp.mean]; exact hi'
    have hc : i < f.position.cov.length := by rw [hp.cov]; exact hi'
    have hr : i < (f.position.cov[i]).length := by rw [hp.rows _ (List.getElem_mem hc)]; exact hi'
    rw [pyget_some (List.getElem?_eq_getElem hi), Out.ok_bind, if_neg (not_not.2 (h5 _ (List.getElem_mem hi))),
      pyget_some (List.getElem?_eq_getElem hm), Out.ok_bind, pyget_some (List.getElem?_eq_getElem hc), Out.ok_bind,
      pyget_some (List.getElem?_eq_getElem hr), Out.ok_bind]
    simp [functionPoint, hi', hm, hi, entryOf, hc, hr]

/-- **C58.** Missing for the full statement: variances other than one, Fourier directions, and factors other than one, see `C58_false`. -/
theorem C58_to_function_partial [DecidableEq Φ] [SymFn Φ] (f : HSeries Φ) (hf : SeriesOk f) (hd : Diagonal f.position)
    (hsorted : f.position.dirs.Pairwise (· ≤ ·)) (h5 : ∀ d ∈ f.position.dirs, d < 5)
    (hvar : ∀ i < f.position.dim, entryOf f.position.cov i i = 1) (htypes : ∀ t ∈ f.position.types, t = "hermite")
    (hfactor : f.factor = SymFn.one f.position.dirs) (x : ℕ → ℝ) :
    ∃ v, series_to_function f x = .ok v ∧ seriesValue f x = .ok v := by
  obtain ⟨L, h1, -, h⟩ := C58_value f hf hd.is_diag hsorted h5 x
  refine ⟨_, h, ?_⟩
  rw [seriesValue, h1, Out.ok_bind, hfactor, SymFn.value_one, one_mul]
  congr 1
  rw [series, series]
  refine Finset.sum_congr rfl fun j _ => ?_
  congr 1
  rw [basis, basis]
  refine Finset.prod_congr rfl fun k hk => ?_
  rw [Finset.mem_range] at hk
  have ht : k < f.position.types.length := by rw [hf.pos.types]; exact hk
  have := htypes _ (List.getElem_mem ht)
  simp [ht, this, functionPoint, hk, hvar k hk]

/-- A series meeting the hypotheses, of degree 3 in two directions. -/
example : ∃ f : HSeries ℕ, SeriesOk f ∧ Diagonal f.position ∧ f.position.dirs = [0, 1] ∧ (∀ i < f.position.dim, entryOf f.position.cov i i = 1) ∧
    (∀ t ∈ f.position.types, t = "hermite") ∧ f.factor = SymFn.one f.position.dirs ∧ Indices f [3, 0] := by
  obtain ⟨n, -, h⟩ := seriesOk_exists (Φ := ℕ) .triangle pos01 pos01_ok (by decide) (by decide) 0 3 (by decide)
  obtain ⟨f, -, ok, -, hp, hfac, hs, hi⟩ := h (List.replicate n 1) (by simp)
  refine ⟨f, ok, ?_, by rw [hp]; rfl, ?_, by rw [hp]; simp [pos01], hfac, (hi _).2 ⟨rfl, by decide⟩⟩
  · rw [hp]
    intro i j r c hij hr hc
    match i, j with
    | 0, 0 => exact absurd rfl hij
    | 0, 1 => simp [pos01] at hr; subst hr; simpa using hc.symm
    | 1, 0 => simp [pos01] at hr; subst hr; simpa using hc.symm
    | 1, 1 => exact absurd rfl hij
    | 0, j + 2 => simp [pos01] at hr; subst hr; simp at hc
    | 1, j + 2 => simp [pos01] at hr; subst hr; simp at hc
    | i + 2, _ => simp [pos01] at hr
  · rw [hp]
    intro i hi
    match i with
    | 0 => simp [pos01, entryOf]
    | 1 => simp [pos01, entryOf]
    | i + 2 => simp [pos01] at hi

/-- A series of degree 1 in one direction. -/
theorem linear_series (p : Position) (hp : PosOk p) (h1 : p.dim = 1) (fac : Φ) (a b : ℝ) :
    ∃ f : HSeries Φ, SeriesOk f ∧ f.coeffs = [a, b] ∧ f.position = p ∧ f.factor = fac ∧ f.index_set = .triangle ∧
      IndexSet.triangle.s_list 1 f.degree = .ok [[0], [1]] := by
  have hd : p.dirs ≠ [] := by
    intro e
    have := hp.dirs
    rw [e, h1] at this
    cases this
  have hu := usable_small .triangle (show 1 ≤ 1 by decide) (by decide) (show 1 ≤ 250 by decide)
  obtain ⟨L, hL⟩ := iterOk_exists hu.toSized.fits'
  have eL : L = [[0], [1]] := hL.runs.unique (.next rfl (.last rfl))
  rw [← h1] at hu hL
  obtain ⟨f, -, ok, e1, e2, e3, e4, e5, -⟩ := mkSeries_ok (coeffs := [a, b]) (factor := fac) hp hd hu hL (by rw [eL]; rfl)
  refine ⟨f, ok, e1, e2, e3, e4, ?_⟩
  have := e5.list
  rw [h1, eL] at this
  exact this

/-- One Hermite direction, `0`, with variance 4. -/
def pos4 : Position := ⟨1, [0], [0], [[4]], ["hermite"]⟩
theorem pos4_ok : PosOk pos4 := ⟨rfl, rfl, rfl, by simp [pos4], rfl, by decide⟩

/-- One Fourier direction, `0`, standard. -/
def posF : Position := ⟨1, [0], [0], [[1]], ["fourier"]⟩
theorem posF_ok : PosOk posF := ⟨rfl, rfl, rfl, by simp [posF], rfl, by decide⟩

theorem single_diagonal (d : ℕ) (μ σ : ℝ) (t : String) : Diagonal ⟨1, [d], [μ], [[σ]], [t]⟩ := by
  intro i j r c hij hr hc
  match i, j, hij with
  | 0, 0, h => exact absurd rfl h
  | 0, j + 1, _ => simp at hr; subst hr; simp at hc
  | i + 1, _, _ => simp at hr

/-- What `to_function` and the series itself give for a series of degree 1 in one direction. -/
theorem linear_values {f : HSeries ℕ} {μ σ a b : ℝ} {t : String} (hf : SeriesOk f) (hp : f.position = ⟨1, [0], [μ], [[σ]], [t]⟩)
    (hc : f.coeffs = [a, b]) (hs : f.index_set = .triangle) (hl : IndexSet.triangle.s_list 1 f.degree = .ok [[0], [1]]) (x : ℕ → ℝ) :
    series_to_function f x = .ok (a + b * (√σ * (x 0 - μ))) ∧
    seriesValue f x = .ok ((f.factor + 1 : ℝ) * (a * phi (if t = "fourier" then 1 else 0) 0 ((x 0 - μ) / √σ) +
      b * phi (if t = "fourier" then 1 else 0) 1 ((x 0 - μ) / √σ))) := by
  obtain ⟨L, h1, -, h⟩ := C58_value f hf (by rw [hp]; exact (single_diagonal 0 μ σ t).is_diag) (by rw [hp]; simp) (by rw [hp]; simp) x
  rw [hs, hp] at h1
  have eL : L = [[0], [1]] := Out.ok.inj (h1.symm.trans hl)
  subst eL
  constructor
  · rw [h, hp, hc]
    simp [series, basis, phi, functionPoint, herm_zero, herm_one, Finset.sum_range_succ, entryOf]
  · rw [seriesValue, hs, hp, hl, Out.ok_bind, hc]
    simp [series, basis, Finset.sum_range_succ, entryOf, SymFn.value]

/-- **C58, negation.** With variance 4, `to_function` of the first Hermite function is `2 x` instead of `x / 2`. -/
theorem C58_variance_false : ∃ f : HSeries ℕ, SeriesOk f ∧ f.position = pos4 ∧ f.factor = SymFn.one f.position.dirs ∧
    series_to_function f (fun _ => 1) = .ok 2 ∧ seriesValue f (fun _ => 1) = .ok (1 / 2) := by
  obtain ⟨f, ok, h1, h2, h3, h4, h5⟩ := linear_series pos4 pos4_ok rfl (0 : ℕ) 0 1
  obtain ⟨e1, e2⟩ := linear_values ok h2 h1 h4 h5 (fun _ => 1)
  have h : √(4 : ℝ) = 2 := by rw [show (4 : ℝ) = 2 ^ 2 by norm_num]; exact Real.sqrt_sq (by norm_num)
  refine ⟨f, ok, h2, h3, ?_, ?_⟩
  · rw [e1, h]; norm_num
  · rw [e2, h, h3]; simp [phi, herm_one]

/-- **C58, negation.** The factor 2 is ignored. -/
theorem C58_factor_false : ∃ f : HSeries ℕ, SeriesOk f ∧ f.position = pos0 ∧ (∀ x, SymFn.value f.factor x = 2) ∧
    series_to_function f (fun _ => 1) = .ok 1 ∧ seriesValue f (fun _ => 1) = .ok 2 := by
  obtain ⟨f, ok, h1, h2, h3, h4, h5⟩ := linear_series pos0 pos0_ok rfl (1 : ℕ) 0 1
  obtain ⟨e1, e2⟩ := linear_values ok h2 h1 h4 h5 (fun _ => 1)
  refine ⟨f, ok, h2, ?_, ?_, ?_⟩
  · intro x; rw [h3]; simp [SymFn.value]; norm_num
  · rw [e1]; simp
  · rw [e2, h3]; simp [phi, herm_one]; norm_num

/-- **C58, negation.** In a Fourier direction `to_function` uses Hermite polynomials: at the origin the sine vanishes, and so does the first
Hermite polynomial, but the constant function has the value `1 / √(2π)`. -/
theorem C58_fourier_false : ∃ f : HSeries ℕ, SeriesOk f ∧ f.position = posF ∧ f.factor = SymFn.one f.position.dirs ∧
    series_to_function f (fun _ => 0) = .ok 1 ∧ seriesValue f (fun _ => 0) = .ok (1 / √(2 * Real.pi)) ∧ 1 / √(2 * Real.pi) ≠ 1 := by
  obtain ⟨f, ok, h1, h2, h3, h4, h5⟩ := linear_series posF posF_ok rfl (0 : ℕ) 1 0
  obtain ⟨e1, e2⟩ := linear_values ok h2 h1 h4 h5 (fun _ => 0)
  refine ⟨f, ok, h2, h3, ?_, ?_, ?_⟩
  · rw [e1]; simp
  · rw [e2, h3]; simp [phi, trig]
  · intro h
    have h3 := Real.pi_gt_three
    have h1 : √(2 * Real.pi) = 1 := by
      have : √(2 * Real.pi) ≠ 0 := (Real.sqrt_pos.2 (by linarith)).ne'
      field_simp at h
      exact h.symm
    rw [Real.sqrt_eq_one] at h1
    linarith

end Hermipy.Props
