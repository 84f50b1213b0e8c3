import Verif.Lemmas.Streams
import Verif.Props.Plot
import Mathlib.Analysis.Calculus.MeanValue

/-! # C88: stream lines -/

namespace Hermipy.Props
open Hermipy Hermipy.Spec
variable {F : Type} [Interp F]

theorem series_streamValues [DecidableEq F] {slack : ℕ} {eig : Eig} (he : EigDiag eig) {q : HQuad F} (hq : QuadOk q) (hd : DirsOk q.position.dirs)
    {fx fy : HSeries (SFn F)} (hx : Evaluable slack q fx) (hy : Evaluable slack q fy) {factor : PlotFactor F}
    (hpf : PlotFactorOk q.position.dirs factor) :
    ∃ u v : (ℕ → ℝ) → ℝ, (∀ x, seriesValue fx x = .ok (u x)) ∧ (∀ x, seriesValue fy x = .ok (v x)) ∧
      streamValues slack eig q (.series fx) (.series fy) factor =
        .ok ((gridPoints q.nodes).map fun p => (fun x => u x * plotFactorValue factor x) (gridPoint q.position p),
          (gridPoints q.nodes).map fun p => (fun x => v x * plotFactorValue factor x) (gridPoint q.position p)) := by
  obtain ⟨u, u1, u2⟩ := plot_series_values he hq hx
  obtain ⟨v, v1, v2⟩ := plot_series_values he hq hy
  refine ⟨u, v, u1, v1, ?_⟩
  cases factor with
  | none => simp [streamValues, plotFactorValue, u2, v2]
  | array v => exact hpf.elim
  | expr g =>
    obtain ⟨e1, e2⟩ := factorOf_ok hd hpf
    rw [streamValues, e1, Out.ok_bind, quad_discretize_ok he hq rfl e2.vars, Out.ok_bind, u2, Out.ok_bind, broadcast, if_pos (by simp), Out.ok_bind,
      v2, Out.ok_bind, broadcast, if_pos (by simp), Out.ok_bind, List.zipWith_map, List.zipWith_self, List.zipWith_map, List.zipWith_self]
    rfl

/-- **C88.** For two series on the directions 0 and 1, `streamlines` draws the contours of the discrete line integral of `u dy - v dx`, where `u` and `v`
are the values of the series (times the argument `factor`), with the levels computed from the extremes. -/
theorem C88_streams [DecidableEq F] {slack : ℕ} {eig : Eig} (he : EigDiag eig) {var : ℕ → F} (hvar : ∀ d x, Interp.val {d} (var d) x = x d)
    {q : HQuad F} (hq : QuadOk q) {p : Product F} (hp : q.factor.terms = {p}) (hd : q.position.dirs = [0, 1]) (hc : ¬ Couples p.toList [0])
    {fx fy : HSeries (SFn F)} (hx : Evaluable slack q fx) (hy : Evaluable slack q fy) {factor : PlotFactor F} (hpf : PlotFactorOk [0, 1] factor) :
    ∃ u v : (ℕ → ℝ) → ℝ, (∀ x, seriesValue fx x = .ok (u x)) ∧ (∀ x, seriesValue fy x = .ok (v x)) ∧
      let at_ := fun (j i : ℕ) => at2 0 1 ((axis q 0).getD i 0) ((axis q 1).getD j 0)
      let psi := gridTable (axis q 1).length (axis q 0).length (lineIntegral (fun i => (axis q 0).getD i 0) (fun j => (axis q 1).getD j 0)
        (fun j i => u (at_ j i) * plotFactorValue factor (at_ j i)) (fun j i => v (at_ j i) * plotFactorValue factor (at_ j i)))
      ∃ low high, quad_streamlines slack eig var q (.series fx) (.series fy) factor = .ok ⟨axis q 0, axis q 1, psi, streamLevels low high⟩ ∧
        Extremes low high psi.flatten := by
  have hdo : DirsOk q.position.dirs := ⟨by simp [hd], by simp [hd], by simp [hd]⟩
  rw [← hd] at hpf
  obtain ⟨u, v, h1, h2, h3⟩ := series_streamValues he hq hdo hx hy hpf
  exact ⟨u, v, h1, h2, quad_streamlines_ok he hvar hq hp hd hc (u := fun x => u x * plotFactorValue factor x)
    (v := fun x => v x * plotFactorValue factor x) h3⟩

/-- **C88.** The stream function is zero at the first node, and its differences in the second direction are `u` times the step. Its differences in the first
direction are `-v` times the step on the whole grid if and only if the discrete divergence is zero. -/
theorem C88_differences (X Y : ℕ → ℝ) (U V : ℕ → ℕ → ℝ) :
    lineIntegral X Y U V 0 0 = 0 ∧
    (∀ j i, lineIntegral X Y U V (j + 1) i - lineIntegral X Y U V j i = U (j + 1) i * (Y (j + 1) - Y j)) ∧
    ∀ m n, (∀ j ≤ m, ∀ i < n, lineIntegral X Y U V j (i + 1) - lineIntegral X Y U V j i = -(V j (i + 1) * (X (i + 1) - X i))) ↔
      ∀ j < m, ∀ i < n, (U (j + 1) (i + 1) - U (j + 1) i) * (Y (j + 1) - Y j) + (V (j + 1) (i + 1) - V j (i + 1)) * (X (i + 1) - X i) = 0 := by
  have hy : ∀ j i, lineIntegral X Y U V (j + 1) i - lineIntegral X Y U V j i = U (j + 1) i * (Y (j + 1) - Y j) := by
    intro j i
    rw [lineIntegral, lineIntegral, Finset.sum_range_succ]
    ring
  refine ⟨by simp [lineIntegral], hy, fun m n => ⟨fun h j hj i hi => ?_, fun h j hj i hi => ?_⟩⟩
  · have h1 := h j hj.le i hi
    have h2 := h (j + 1) hj i hi
    have h3 := hy j i
    have h4 := hy j (i + 1)
    linear_combination h3 - h4 + h2 - h1
  · induction j with
    | zero =>
      simp only [lineIntegral, Finset.sum_range_succ, Finset.range_zero, Finset.sum_empty]
      ring
    | succ j ih =>
      have h1 := ih (by omega)
      have h2 := h j (by omega) i hi
      have h3 := hy j i
      have h4 := hy j (i + 1)
      linear_combination h4 - h3 + h1 + h2

theorem step_error {g g' : ℝ → ℝ} {K : ℝ} (hK : 0 ≤ K) (hg : ∀ t, HasDerivAt g (g' t) t) (hl : ∀ s t, |g' s - g' t| ≤ K * |s - t|) (a b : ℝ) :
    |g b - g a - g' b * (b - a)| ≤ K * (b - a) ^ 2 := by
  have h := (convex_uIcc a b).norm_image_sub_le_of_norm_hasDerivWithin_le (f := fun t => g t - g' b * t) (f' := fun t => g' t - g' b)
    (C := K * |b - a|) (fun t _ => (((hg t).sub ((hasDerivAt_id t).const_mul (g' b))).congr_deriv (by simp)).hasDerivWithinAt) (fun t ht => by
      refine (hl t b).trans (mul_le_mul_of_nonneg_left ?_ hK)
      rw [abs_sub_comm t b, abs_sub_comm b a]
      rcases le_total a b with hab | hab
      · rw [Set.uIcc_of_le hab] at ht
        rw [abs_of_nonneg (by linarith [ht.2]), abs_of_nonpos (by linarith)]
        linarith [ht.1]
      · rw [Set.uIcc_of_ge hab] at ht
        rw [abs_of_nonpos (by linarith [ht.1]), abs_of_nonneg (by linarith)]
        linarith [ht.2]) Set.left_mem_uIcc Set.right_mem_uIcc
  have e : g b - g a - g' b * (b - a) = g b - g' b * b - (g a - g' b * a) := by ring
  rw [e]
  refine h.trans (le_of_eq ?_)
  rw [Real.norm_eq_abs, mul_assoc, ← pow_two, sq_abs]

/-- **C88.** If the field has a stream function `Ψ`, so that `u = ∂Ψ/∂y` and `v = -∂Ψ/∂x`, with Lipschitz constant `K` for `u` in `y` and `v` in `x`, then
what is drawn is the difference of `Ψ` to its value at the first node up to `K` times the sum of the squares of the steps. -/
theorem C88_accuracy {Ψ u v : ℝ → ℝ → ℝ} {K : ℝ} (hK : 0 ≤ K) (hu : ∀ x y, HasDerivAt (fun y => Ψ x y) (u x y) y)
    (hv : ∀ x y, HasDerivAt (fun x => Ψ x y) (-v x y) x) (hlu : ∀ x s t, |u x s - u x t| ≤ K * |s - t|)
    (hlv : ∀ y s t, |v s y - v t y| ≤ K * |s - t|) (X Y : ℕ → ℝ) (j i : ℕ) :
    |lineIntegral X Y (fun j i => u (X i) (Y j)) (fun j i => v (X i) (Y j)) j i - (Ψ (X i) (Y j) - Ψ (X 0) (Y 0))| ≤
      K * (∑ l ∈ Finset.range j, (Y (l + 1) - Y l) ^ 2 + ∑ l ∈ Finset.range i, (X (l + 1) - X l) ^ 2) := by
  have e1 : Ψ (X i) (Y j) - Ψ (X 0) (Y 0) = ∑ l ∈ Finset.range j, (Ψ (X i) (Y (l + 1)) - Ψ (X i) (Y l)) +
      ∑ l ∈ Finset.range i, (Ψ (X (l + 1)) (Y 0) - Ψ (X l) (Y 0)) := by
    rw [Finset.sum_range_sub (fun l => Ψ (X i) (Y l)), Finset.sum_range_sub (fun l => Ψ (X l) (Y 0))]
    ring
  have e2 : lineIntegral X Y (fun j i => u (X i) (Y j)) (fun j i => v (X i) (Y j)) j i - (Ψ (X i) (Y j) - Ψ (X 0) (Y 0)) =
      -(∑ l ∈ Finset.range j, (Ψ (X i) (Y (l + 1)) - Ψ (X i) (Y l) - u (X i) (Y (l + 1)) * (Y (l + 1) - Y l)) +
        ∑ l ∈ Finset.range i, (Ψ (X (l + 1)) (Y 0) - Ψ (X l) (Y 0) - -v (X (l + 1)) (Y 0) * (X (l + 1) - X l))) := by
    rw [e1, lineIntegral]
    simp only [Finset.sum_sub_distrib, neg_mul, Finset.sum_neg_distrib]
    ring
  rw [e2, abs_neg, mul_add, Finset.mul_sum, Finset.mul_sum]
  refine (abs_add_le _ _).trans (add_le_add ?_ ?_)
  · exact (Finset.abs_sum_le_sum_abs _ _).trans (Finset.sum_le_sum fun l _ =>
      step_error hK (hu (X i)) (hlu (X i)) (Y l) (Y (l + 1)))
  · refine (Finset.abs_sum_le_sum_abs _ _).trans (Finset.sum_le_sum fun l _ =>
      step_error hK (fun t => hv t (Y 0)) (fun s t => ?_) (X l) (X (l + 1)))
    rw [neg_sub_neg, abs_sub_comm]
    exact hlv (Y 0) s t

/-- **C88.** If the stream function is not constant, the ten levels are strictly increasing and between its extremes, and neither end is within a tenth
of the range of zero. -/
theorem C88_levels {low high : ℝ} (h : low < high) : (streamLevels low high).length = 10 ∧ (streamLevels low high).Pairwise (· < ·) ∧
    (∀ c ∈ streamLevels low high, low ≤ c ∧ c ≤ high) ∧ 1 / 10 * (high - low) ≤ |(streamLevels low high).getD 0 0| := by
  obtain ⟨a, b, hab, ha, hb, h0, e⟩ : ∃ a b, a < b ∧ low ≤ a ∧ b ≤ high ∧ 1 / 10 * (high - low) ≤ |a| ∧
      streamLevels low high = (List.range 10).map fun (i : ℕ) => a + i * ((b - a) / 9) := by
    refine ⟨_, _, ?_, ?_, ?_, ?_, rfl⟩
    · by_cases h1 : |low| < 1 / 10 * (high - low)
      · rw [if_pos h1]
        obtain ⟨h2, h3⟩ := abs_lt.1 h1
        rw [if_neg]
        · linarith
        · rw [not_lt, abs_of_nonneg (by linarith)]
          linarith
      · rw [if_neg h1]
        by_cases h2 : |high| < 1 / 10 * (high - low)
        · rw [if_pos h2]
          obtain ⟨h3, h4⟩ := abs_lt.1 h2
          linarith
        · rwa [if_neg h2]
    · split
      · rename_i h1
        linarith [(abs_lt.1 h1).1, (abs_lt.1 h1).2, h]
      · exact le_refl _
    · by_cases hh : |high| < 1 / 10 * (high - if |low| < 1 / 10 * (high - low) then 1 / 10 * (high - low) else low)
      · rw [if_pos hh]
        linarith [(abs_lt.1 hh).1]
      · rw [if_neg hh]
    · split
      · rename_i h1
        exact le_abs_self _
      · rename_i h1
        exact not_lt.1 h1
  have hs : 0 < (b - a) / 9 := by linarith
  refine ⟨by simp [streamLevels], ?_, ?_, ?_⟩
  · rw [e, List.pairwise_map]
    refine List.pairwise_lt_range.imp fun {i j} hij => ?_
    have : (i : ℝ) < j := by exact_mod_cast hij
    nlinarith
  · intro c hc
    rw [e] at hc
    obtain ⟨i, hi, rfl⟩ := List.mem_map.1 hc
    have hi : (i : ℝ) ≤ 9 := by exact_mod_cast Nat.le_of_lt_succ (List.mem_range.1 hi)
    have h1 : 0 ≤ (i : ℝ) * ((b - a) / 9) := by positivity
    have h2 : (i : ℝ) * ((b - a) / 9) ≤ 9 * ((b - a) / 9) := mul_le_mul_of_nonneg_right hi hs.le
    constructor <;> linarith
  · rw [e]
    simpa [List.range_succ] using h0

/-- The claim on the levels is false for constant stream functions: the ten levels are the same number. (`contour` then raises an exception, since levels must
be increasing.) -/
theorem C88_levels_false (c : ℝ) : streamLevels c c = List.replicate 10 c := by
  have h : ¬ |c| < 0 := not_lt.2 (abs_nonneg c)
  simp [streamLevels, h, List.range_succ]

/-- **C88** is false for expressions and functions: nothing is drawn. (Their values are assigned to `fx`, `fy`, but `sx`, `sy` are used.) Neither is with
an array as `factor`. -/
theorem C88_functions_false (slack : ℕ) (eig : Eig) (var : ℕ → F) (q : HQuad F) (fx fy : FactorArg F) (sx sy : HSeries (SFn F)) (factor : PlotFactor F)
    (a : List ℝ) (r : Streams) : quad_streamlines slack eig var q (.fn fx) (.fn fy) factor ≠ .ok r ∧
      quad_streamlines slack eig var q (.series sx) (.series sy) (.array a) ≠ .ok r := by
  constructor <;> intro e <;> rw [quad_streamlines] at e <;> split at e
  · cases e
  · obtain ⟨s, e, -⟩ := Out.bind_ok e
    rw [streamValues] at e
    obtain ⟨_, -, e⟩ := Out.bind_ok e
    obtain ⟨_, -, e⟩ := Out.bind_ok e
    cases factor with
    | none =>
      obtain ⟨_, -, e⟩ := Out.bind_ok e
      obtain ⟨_, -, e⟩ := Out.bind_ok e
      cases e
    | array _ => cases e
    | expr _ => cases e
  · cases e
  · obtain ⟨s, e, -⟩ := Out.bind_ok e
    cases e

/-- **C88** is false for other directions than 0 and 1, even if the quadrature has two of them: the axes are found by projecting on the directions 0 and 1. -/
theorem C88_directions_false (slack : ℕ) (eig : Eig) (var : ℕ → F) {q : HQuad F} (hq : QuadOk q) (hd : q.position.dirs ≠ [0, 1]) (fx fy : PlotArg F)
    (factor : PlotFactor F) (r : Streams) : quad_streamlines slack eig var q fx fy factor ≠ .ok r := by
  intro e
  rw [quad_streamlines] at e
  split at e
  · cases e
  rename_i h2
  rw [not_or, not_not, not_not] at h2
  obtain ⟨s, -, e⟩ := Out.bind_ok e
  obtain ⟨ns, e, -⟩ := Out.bind_ok e
  have hmem : ∀ i < 2, i ∈ q.position.dirs := by
    intro i hi
    by_contra hn
    have hp : ∀ d, ∀ r, axisNodes eig var q i d ≠ .ok r := by
      intro d r e
      rw [axisNodes] at e
      split at e
      · cases e
      obtain ⟨p, e, -⟩ := Out.bind_ok e
      rw [quad_project] at e
      obtain ⟨f, -, e⟩ := Out.bind_ok e
      rw [(pos_project_spec hq.pos h2.1 (by simp)).2 ⟨i, by simp, hn⟩] at e
      cases e
    have hr : List.range 2 = [0, 1] := rfl
    rw [h2.2, hr, List.mapM_cons] at e
    obtain ⟨a, e0, e⟩ := Out.bind_ok e
    obtain ⟨b, e1, -⟩ := Out.bind_ok e
    rw [List.mapM_cons] at e1
    obtain ⟨c, e1, -⟩ := Out.bind_ok e1
    obtain ⟨d, -, e0⟩ := Out.bind_ok e0
    obtain ⟨d', -, e1⟩ := Out.bind_ok e1
    interval_cases i
    · exact hp _ _ e0
    · exact hp _ _ e1
  have hl : q.position.dirs.length = 2 := by rw [hq.pos.dirs, h2.2]
  obtain ⟨d, e', hde⟩ := List.length_eq_two.1 hl
  have hs := hq.sorted
  have h0 := hmem 0 (by omega)
  have h1 := hmem 1 (by omega)
  rw [hde] at hs h0 h1 hd
  simp at hs h0 h1 hd
  omega

/-! ## Cases meeting the hypotheses -/

/-- The field `(y, -x)` with the stream function `(x² + y²) / 2`. -/
example (X Y : ℕ → ℝ) (j i : ℕ) : |lineIntegral X Y (fun j _ => Y j) (fun _ i => -X i) j i - ((X i ^ 2 + Y j ^ 2) / 2 - (X 0 ^ 2 + Y 0 ^ 2) / 2)| ≤
    1 * (∑ l ∈ Finset.range j, (Y (l + 1) - Y l) ^ 2 + ∑ l ∈ Finset.range i, (X (l + 1) - X l) ^ 2) :=
  C88_accuracy (Ψ := fun x y => (x ^ 2 + y ^ 2) / 2) (u := fun _ y => y) (v := fun x _ => -x) zero_le_one
    (fun x y => ((((hasDerivAt_pow 2 y).const_add (x ^ 2)).div_const 2).congr_deriv (by simp)))
    (fun x y => ((((hasDerivAt_pow 2 x).add_const (y ^ 2)).div_const 2).congr_deriv (by simp)))
    (fun _ s t => by simp) (fun _ s t => by rw [one_mul, neg_sub_neg, abs_sub_comm]) X Y j i

/-- Its discrete divergence is zero. -/
example (X Y : ℕ → ℝ) (j i : ℕ) : (Y (j + 1) - Y (j + 1)) * (Y (j + 1) - Y j) + (-X (i + 1) - -X (i + 1)) * (X (i + 1) - X i) = 0 := by ring

example : streamLevels (-3) 6 = (List.range 10).map fun (i : ℕ) => (-3 : ℝ) + i * ((6 - -3) / 9) := by
  have h1 : ¬ |(-3 : ℝ)| < 1 / 10 * (6 - -3) := by norm_num
  have h2 : ¬ |(6 : ℝ)| < 1 / 10 * (6 - -3) := by norm_num
  simp only [streamLevels, if_neg h1, if_neg h2]

/-- Directions 0 and 1, means 5 and 0, variances 4 and 1, constant factor. -/
noncomputable def plane88 : HQuad ℝ :=
  ⟨[[-1, 1], [0, 3]], [[1 / 2, 1 / 2], [1 / 2, 1 / 2]], ⟨2, [0, 1], [5, 0], diagMat [4, 1], ["hermite", "hermite"]⟩, ⟨[0, 1], {{(∅, 7)}}⟩⟩

theorem plane88_ok : QuadOk plane88 where
  pos := ⟨rfl, rfl, rfl, by simp [plane88, diagMat], rfl, by simp [plane88]⟩
  diag := (plane87_ok (terms := 0) (by simp)).diag
  dim := rfl
  grid := ⟨by simp [plane88], by simp [plane88], ⟨rfl, by simp [plane88, HQuad.do_fourier]⟩, by simp [plane88, gridPoints, cartesian]⟩
  weights := rfl
  uniform := by intro r hr; simp [plane88] at hr ⊢; rcases hr with rfl | rfl <;> rfl
  factor := ⟨by simp [plane88], by simp [plane88]⟩
  factorDirs := rfl

/-- Two series as in `C88_streams`: the Hermite functions of degrees 1 and 0, and 0 and 2. -/
example : QuadOk plane88 ∧ plane88.factor.terms = {{(∅, 7)}} ∧ plane88.position.dirs = [0, 1] ∧
    ¬ Couples (Multiset.toList ({(∅, 7)} : Product ℝ)) [0] ∧ ∃ fx fy : HSeries (SFn ℝ), fx.degree = 1 ∧ fy.degree = 2 ∧ Evaluable 0 plane88 fx ∧
      Evaluable 0 plane88 fy := by
  classical
  let _ : Interp ℝ := ⟨fun s c x => c + ∑ d ∈ s, x d, fun s c x y h => by rw [Finset.sum_congr rfl h]⟩
  refine ⟨plane88_ok, rfl, rfl, ?_, ?_⟩
  · rintro ⟨f, hf, ⟨x, hx, -⟩, -⟩
    simp at hf
    subst hf
    simp at hx
  have hv : ∀ i < plane88.position.dim, 0 < entryOf plane88.position.cov i i := by
    intro i hi
    have : i < 2 := hi
    interval_cases i <;> simp [plane88, entryOf, diagMat]
  obtain ⟨_, _, fx, -, -, -, -, ok, e4, e5, e6, e7, -⟩ := hf_series plane88_ok (m := [1, 0]) rfl (usable_small _ (by simp [plane88]) (by simp [plane88]) (by simp))
  obtain ⟨_, _, fy, -, -, -, -, ok', e4', e5', e6', e7', -⟩ := hf_series plane88_ok (m := [0, 2]) rfl (usable_small _ (by simp [plane88]) (by simp [plane88]) (by simp))
  exact ⟨fx, fy, e7, e7', hf_evaluable plane88_ok hv ok e4 e5 e6 e7 ⟨by simp [plane88, HQuad.do_fourier], by simp, by simp⟩,
    hf_evaluable plane88_ok hv ok' e4' e5' e6' e7' ⟨by simp, by simp, by simp⟩⟩

/-- Directions 0 and 2, as in `C88_directions_false`. -/
example : QuadOk (plane87 {{(∅, 7)}}) ∧ (plane87 {{(∅, 7)}}).position.dirs ≠ [0, 1] := ⟨plane87_ok (by simp), by simp [plane87]⟩

end Hermipy.Props
