import Verif.Lemmas.Plot
import Verif.Lemmas.HermiteFunction
import Verif.Props.QuadEval
import Verif.Props.QuadConstructors
import Verif.Props.Core
import Verif.Props.GaussRule
import Verif.Props.Function

/-! # C87: what plots show -/

namespace Hermipy.Props
open Hermipy Hermipy.Spec
variable {F : Type} [Interp F]

theorem fn_plotValues {slack : ℕ} {eig : Eig} (he : EigDiag eig) {q : HQuad F} (hq : QuadOk q) (hd : DirsOk q.position.dirs) {f : FactorArg F}
    (hf : FactorOk q.position.dirs f) : plotValues slack eig q (.fn f) .none =
      .ok ((gridPoints q.nodes).map fun p => (fun x => ((factorTerms f).map fun p => productValue p x).sum) (gridPoint q.position p)) := by
  obtain ⟨h1, h2⟩ := factorOf_ok hd hf
  rw [plotValues, h1, Out.ok_bind]
  exact quad_discretize_ok he hq rfl h2.vars

/-- **C87.** In one direction, `plot` of an expression or a function draws its values at the coordinates of the nodes, and the title has the least
and the greatest of the values. -/
theorem C87_function_curve (slack : ℕ) {eig : Eig} (he : EigDiag eig) {var : ℕ → F} (hvar : ∀ d x, Interp.val {d} (var d) x = x d) {q : HQuad F}
    (hq : QuadOk q) {p : Product F} (hp : q.factor.terms = {p}) {d : ℕ} (hd : q.position.dirs = [d]) (h5 : d < 5) {f : FactorArg F}
    (hf : FactorOk [d] f) (bounds : Bool) :
    let y := (axis q 0).map fun x => ((factorTerms f).map fun p => productValue p (at1 d x)).sum
    ∃ low high, quad_plot slack eig var q (.fn f) .none bounds = .ok ⟨.curve (axis q 0) y, [], [], low, high⟩ ∧ Extremes low high y := by
  have hdo : DirsOk q.position.dirs := ⟨by simp [hd], by simp [hd, h5], by simp [hd]⟩
  rw [← hd] at hf
  exact quad_plot_one he hvar hq hp hd h5 (lines := ([], []))
    (h := fun x => ((factorTerms f).map fun p => productValue p x).sum) rfl (fn_plotValues he hq hdo hf)

/-- **C87.** In two directions, `plot` of an expression or a function draws at the coordinates of the nodes `x[i]`, `y[j]` the value for these
coordinates. -/
theorem C87_function_surface (slack : ℕ) {eig : Eig} (he : EigDiag eig) {var : ℕ → F} (hvar : ∀ d x, Interp.val {d} (var d) x = x d)
    {q : HQuad F} (hq : QuadOk q) {p : Product F} (hp : q.factor.terms = {p}) {d e : ℕ} (hd : q.position.dirs = [d, e]) (h5 : e < 5)
    (hc : ¬ Couples p.toList [d]) {f : FactorArg F} (hf : FactorOk [d, e] f) (bounds : Bool) :
    let z := (axis q 1).map fun y => (axis q 0).map fun x => ((factorTerms f).map fun p => productValue p (at2 d e x y)).sum
    ∃ low high, quad_plot slack eig var q (.fn f) .none bounds = .ok ⟨.surface (axis q 0) (axis q 1) z, [], [], low, high⟩ ∧
      Extremes low high z.flatten := by
  have hs := hq.sorted
  have hde : d < e := by simpa [hd] using hs
  have hdo : DirsOk q.position.dirs := ⟨hs, by simp [hd]; omega, by simp [hd]⟩
  rw [← hd] at hf
  exact quad_plot_two he hvar hq hp hd h5 hc (lines := ([], []))
    (h := fun x => ((factorTerms f).map fun p => productValue p x).sum) rfl (fn_plotValues he hq hdo hf)

/-! ## Series -/

variable [DecidableEq F]

theorem plot_series_values {slack : ℕ} {eig : Eig} (he : EigDiag eig) {q : HQuad F} (hq : QuadOk q) {f : HSeries (SFn F)} (hf : Evaluable slack q f) :
    ∃ h : (ℕ → ℝ) → ℝ, (∀ x, seriesValue f x = .ok (h x)) ∧
      quad_eval slack eig q f = .ok ((gridPoints q.nodes).map fun p => h (gridPoint q.position p)) := by
  obtain ⟨L, hL, hlen⟩ := hf.ok.list
  refine ⟨fun x => f.factor.value x * series f.position.dim (f.position.types.map fun t => if t = "fourier" then 1 else 0) L f.coeffs
      ((List.range f.position.dim).map fun i => (x (f.position.dirs.getD i 0) - f.position.mean.getD i 0) / √(entryOf f.position.cov i i)),
    fun x => ?_, (quad_eval_ok he hq hf.ok hf.diag hf.dirs hf.variances hf.factorDirs hf.factor.vars hf.degree hL hlen).trans ?_⟩
  · rw [seriesValue, hL.list, Out.ok_bind]
    rfl
  · congr 1
    apply List.map_congr_left
    intro p _
    rw [hf.types, mul_comm]
    rfl

theorem series_plotValues {slack : ℕ} {eig : Eig} (he : EigDiag eig) {q : HQuad F} (hq : QuadOk q) (hd : DirsOk q.position.dirs)
    {f : HSeries (SFn F)} (hf : Evaluable slack q f) {factor : PlotFactor F} (hpf : PlotFactorOk q.position.dirs factor) :
    ∃ h : (ℕ → ℝ) → ℝ, (∀ x, seriesValue f x = .ok (h x)) ∧ plotValues slack eig q (.series f) factor =
      .ok ((gridPoints q.nodes).map fun p => (fun x => h x * plotFactorValue factor x) (gridPoint q.position p)) := by
  obtain ⟨h, h1, h2⟩ := plot_series_values he hq hf
  refine ⟨h, h1, ?_⟩
  cases factor with
  | none => simpa [plotValues, plotFactorValue] using h2
  | array v => exact hpf.elim
  | expr g =>
    obtain ⟨e1, e2⟩ := factorOf_ok hd hpf
    rw [plotValues, e1, Out.ok_bind, quad_discretize_ok he hq rfl e2.vars, Out.ok_bind, h2, Out.ok_bind, broadcast, if_pos (by simp),
      List.zipWith_map, List.zipWith_self]
    rfl

omit [Interp F] [DecidableEq F] in
theorem plotBounds_ok {p : Position} (hp : PosOk p) {i : ℕ} (hi : i < p.dim) (n : ℕ) :
    ∃ b, plotBounds p i n = .ok b ∧ [b.1, b.2] = turning p i n := by
  have hm : i < p.mean.length := by rw [hp.mean]; exact hi
  have hc : i < p.cov.length := by rw [hp.cov]; exact hi
  have hr : i < p.cov[i].length := by rw [hp.rows _ (List.getElem_mem hc)]; exact hi
  have e : √(2 : ℝ) * √(2 * n + 1) = √(4 * n + 2) := by
    rw [← Real.sqrt_mul (by norm_num)]
    congr 1
    ring
  refine ⟨_, by
    rw [plotBounds, pyget_some (List.getElem?_eq_getElem hm), Out.ok_bind, pyget_some (List.getElem?_eq_getElem hc), Out.ok_bind,
      pyget_some (List.getElem?_eq_getElem hr), Out.ok_bind, e], ?_⟩
  simp [turning, entryOf, hm, hc, hr]

omit [Interp F] [DecidableEq F] in
theorem seriesLines_one {slack : ℕ} {q : HQuad F} (hq : QuadOk q) {d : ℕ} (hd : q.position.dirs = [d]) {f : HSeries (SFn F)}
    (hf : Evaluable slack q f) (bounds : Bool) :
    seriesLines q (.series f) bounds = .ok (if bounds then turning f.position 0 f.degree else [], []) := by
  have h1 : q.position.dim = 1 := by rw [← hq.pos.dirs, hd]; rfl
  have h2 : f.position.dim = 1 := by rw [← hf.ok.pos.dirs, hf.dirs, hd]; rfl
  cases bounds with
  | false => rfl
  | true =>
    obtain ⟨b, e1, e2⟩ := plotBounds_ok hf.ok.pos (i := 0) (by omega) f.degree
    have e : (List.range f.position.dim).mapM (fun i => plotBounds f.position i f.degree) = .ok [b] := by
      rw [h2, List.range_one, List.mapM_cons, e1]
      rfl
    rw [seriesLines, if_pos rfl, e, h1, ← e2]
    rfl

omit [Interp F] [DecidableEq F] in
theorem seriesLines_two {slack : ℕ} {q : HQuad F} (hq : QuadOk q) {d e : ℕ} (hd : q.position.dirs = [d, e]) {f : HSeries (SFn F)}
    (hf : Evaluable slack q f) (bounds : Bool) :
    seriesLines q (.series f) bounds =
      .ok (if bounds then turning f.position 0 f.degree else [], if bounds then turning f.position 1 f.degree else []) := by
  have h1 : q.position.dim = 2 := by rw [← hq.pos.dirs, hd]; rfl
  have h2 : f.position.dim = 2 := by rw [← hf.ok.pos.dirs, hf.dirs, hd]; rfl
  cases bounds with
  | false => rfl
  | true =>
    obtain ⟨b, e1, e2⟩ := plotBounds_ok hf.ok.pos (i := 0) (by omega) f.degree
    obtain ⟨c, g1, g2⟩ := plotBounds_ok hf.ok.pos (i := 1) (by omega) f.degree
    have e : (List.range f.position.dim).mapM (fun i => plotBounds f.position i f.degree) = .ok [b, c] := by
      have : List.range 2 = [0, 1] := rfl
      rw [h2, this, List.mapM_cons, e1, Out.ok_bind, List.mapM_cons, g1]
      rfl
    rw [seriesLines, if_pos rfl, e, h1, ← e2, ← g2]
    rfl

/-- **C87.** In one direction, `plot` of a series draws the values of the series (times the argument `factor`, if any) at the coordinates of the
nodes. With `bounds` it draws lines at `√(4n + 2)` standard deviations from the mean of the series, where `n` is its degree. -/
theorem C87_series_curve {slack : ℕ} {eig : Eig} (he : EigDiag eig) {var : ℕ → F} (hvar : ∀ d x, Interp.val {d} (var d) x = x d) {q : HQuad F}
    (hq : QuadOk q) {p : Product F} (hp : q.factor.terms = {p}) {d : ℕ} (hd : q.position.dirs = [d]) (h5 : d < 5) {f : HSeries (SFn F)}
    (hf : Evaluable slack q f) {factor : PlotFactor F} (hpf : PlotFactorOk [d] factor) (bounds : Bool) :
    ∃ h : (ℕ → ℝ) → ℝ, (∀ x, seriesValue f x = .ok (h x)) ∧ ∃ low high,
      quad_plot slack eig var q (.series f) factor bounds = .ok ⟨.curve (axis q 0) ((axis q 0).map fun x => h (at1 d x) *
        plotFactorValue factor (at1 d x)), if bounds then turning f.position 0 f.degree else [], [], low, high⟩ ∧
      Extremes low high ((axis q 0).map fun x => h (at1 d x) * plotFactorValue factor (at1 d x)) := by
  have hdo : DirsOk q.position.dirs := ⟨by simp [hd], by simp [hd, h5], by simp [hd]⟩
  rw [← hd] at hpf
  obtain ⟨h, h1, h2⟩ := series_plotValues he hq hdo hf hpf
  exact ⟨h, h1, quad_plot_one he hvar hq hp hd h5 (h := fun x => h x * plotFactorValue factor x) (seriesLines_one hq hd hf bounds) h2⟩

/-- **C87.** In two directions, `plot` of a series draws at `(x[i], y[j])` the value of the series (times the argument `factor`, if any), and lines
for its degree in both directions. -/
theorem C87_series_surface {slack : ℕ} {eig : Eig} (he : EigDiag eig) {var : ℕ → F} (hvar : ∀ d x, Interp.val {d} (var d) x = x d)
    {q : HQuad F} (hq : QuadOk q) {p : Product F} (hp : q.factor.terms = {p}) {d e : ℕ} (hd : q.position.dirs = [d, e]) (h5 : e < 5)
    (hc : ¬ Couples p.toList [d]) {f : HSeries (SFn F)} (hf : Evaluable slack q f) {factor : PlotFactor F} (hpf : PlotFactorOk [d, e] factor)
    (bounds : Bool) :
    ∃ h : (ℕ → ℝ) → ℝ, (∀ x, seriesValue f x = .ok (h x)) ∧
      let z := (axis q 1).map fun y => (axis q 0).map fun x => h (at2 d e x y) * plotFactorValue factor (at2 d e x y)
      ∃ low high, quad_plot slack eig var q (.series f) factor bounds = .ok ⟨.surface (axis q 0) (axis q 1) z,
          if bounds then turning f.position 0 f.degree else [], if bounds then turning f.position 1 f.degree else [], low, high⟩ ∧
        Extremes low high z.flatten := by
  have hs := hq.sorted
  have hde : d < e := by simpa [hd] using hs
  have hdo : DirsOk q.position.dirs := ⟨hs, by simp [hd]; omega, by simp [hd]⟩
  rw [← hd] at hpf
  obtain ⟨h, h1, h2⟩ := series_plotValues he hq hdo hf hpf
  exact ⟨h, h1, quad_plot_two he hvar hq hp hd h5 hc (h := fun x => h x * plotFactorValue factor x) (seriesLines_two hq hd hf bounds) h2⟩

/-! ## Hermite functions -/

/-- The coefficients of `plot_hf`. -/
theorem hf_series {q : HQuad F} (hq : QuadOk q)
    {m : List ℕ} (hm : m.length = q.position.dim) (hu : Usable .triangle q.position.dim m.sum) :
    ∃ (n k : ℕ) (S : HSeries (SFn F)), Core.iterator_size m.length m.sum "triangle" = .ok n ∧ Core.iterator_index m "triangle" = .ok k ∧ k < n ∧
      quad_series q ((List.replicate n 0).set k 1) .triangle = .ok S ∧ SeriesOk S ∧ S.position = q.position ∧ S.factor = q.factor ∧
      S.index_set = .triangle ∧ S.degree = m.sum ∧ ∀ x, seriesValue S x =
        .ok (q.factor.value x * basis q.position.dim q.do_fourier m ((List.range q.position.dim).map fun i =>
          (x (q.position.dirs.getD i 0) - q.position.mean.getD i 0) / √(entryOf q.position.cov i i))) := by
  have hd : q.position.dirs ≠ [] := hq.dirs_ne
  have h1 : 1 ≤ q.position.dim := Nat.one_le_iff_ne_zero.2 (PosOk.dim_pos hq.pos hd)
  obtain ⟨L, hL⟩ := iterOk_exists hu.toSized.fits'
  have hsmall : L.length < 2 ^ 32 := by
    obtain ⟨L', e, h⟩ := hu.toSized.small
    rw [hL.list] at e
    exact Out.ok.inj e ▸ h
  have hmL : m ∈ L := (hL.mem m).2 ⟨hm, le_refl _⟩
  obtain ⟨k, hk⟩ := List.getElem?_of_mem hmL
  obtain ⟨hkl, hke⟩ := List.getElem?_eq_some_iff.1 hk
  have hlen : ((List.replicate L.length (0 : ℝ)).set k 1).length = L.length := by simp
  have hmk := mkSeries_small (factor := q.factor) hq.pos hd hu hL hlen
  obtain ⟨S, e1, e2, e3, e4, e5, e6, e7, -⟩ := mkSeries_ok (factor := q.factor) hq.pos hd hu hL hlen
  have hS : S.degree = m.sum := by
    have := Out.ok.inj (e1.symm.trans hmk)
    rw [this]
    simp [recDegree]
  refine ⟨L.length, k, S, ?_, ?_, hkl, e1, e2, e4, e5, e6, hS, fun x => ?_⟩
  · rw [hm]
    exact (C84_iterators .triangle _ _).2.1.trans (IterOk.size h1 hL hsmall)
  · exact hL.index_triangle hk (hkl.trans hsmall)
  · rw [seriesValue, e6, e4, hS, hL.list, Out.ok_bind, e5, e3]
    have : series q.position.dim (q.position.types.map fun t => if t = "fourier" then 1 else 0) L ((List.replicate L.length (0 : ℝ)).set k 1) =
        basis q.position.dim q.do_fourier m := by
      funext y
      rw [series, Finset.sum_eq_single k]
      · rw [List.getD_eq_getElem _ _ hkl, hke]
        simp [hkl]
        rfl
      · intro j hj hjk
        have hj := Finset.mem_range.1 hj
        rw [List.getD_eq_getElem _ _ (by simpa using hj), List.getElem_set_ne (Ne.symm hjk)]
        simp
      · intro h
        exact absurd (Finset.mem_range.2 hkl) h
    rw [this]
    rfl

omit [Interp F] [DecidableEq F] in
theorem hf_evaluable {slack : ℕ} {q : HQuad F} (hq : QuadOk q) (hvar : ∀ i < q.position.dim, 0 < entryOf q.position.cov i i) {S : HSeries (SFn F)}
    (ok : SeriesOk S) (e4 : S.position = q.position) (e5 : S.factor = q.factor) {s : IndexSet} (e6 : S.index_set = s) {n : ℕ} (e7 : S.degree = n)
    (hdeg : DegreeOk slack s n q.do_fourier) : Evaluable slack q S :=
  ⟨ok, by rw [e4]; exact hq.diag, by rw [e4], by rw [e4], by rw [e4]; exact hvar, by rw [e5]; exact hq.factor, by rw [e5, hq.factorDirs], by
    rw [e6, e7]; exact hdeg⟩

/-- **C87.** In one direction, `plot_hf([n])` draws the `n`-th basis function times the factor of the quadrature (and the argument `factor`), and
with `bounds` lines at `√(4n + 2)` standard deviations from the mean. -/
theorem C87_hf_curve {slack : ℕ} {eig : Eig} (he : EigDiag eig) {var : ℕ → F} (hvar : ∀ d x, Interp.val {d} (var d) x = x d) {q : HQuad F}
    (hq : QuadOk q) {p : Product F} (hp : q.factor.terms = {p}) {d : ℕ} (hd : q.position.dirs = [d]) (h5 : d < 5)
    (hv : 0 < entryOf q.position.cov 0 0) {n : ℕ} (hn : n ≤ 250) (hdeg : DegreeOk slack .triangle n q.do_fourier) {factor : PlotFactor F}
    (hpf : PlotFactorOk [d] factor) (bounds : Bool) :
    let y := (axis q 0).map fun x => q.factor.value (at1 d x) *
      phi (q.do_fourier.getD 0 0) n ((x - q.position.mean.getD 0 0) / √(entryOf q.position.cov 0 0)) * plotFactorValue factor (at1 d x)
    ∃ low high, quad_plot_hf slack eig var q [n] factor bounds =
        .ok ⟨.curve (axis q 0) y, if bounds then turning q.position 0 n else [], [], low, high⟩ ∧ Extremes low high y := by
  have h1 : q.position.dim = 1 := by rw [← hq.pos.dirs, hd]; rfl
  obtain ⟨N, k, S, e1, e2, hk, e3, ok, e4, e5, e6, e7, hval⟩ := hf_series (m := [n]) hq (by simp [h1]) (usable_small _ (by omega) (by omega) (by simpa using hn))
  have hS : Evaluable slack q S := hf_evaluable hq (fun i hi => by
    obtain rfl : i = 0 := by omega
    exact hv) ok e4 e5 e6 e7 (by simpa using hdeg)
  obtain ⟨h, g1, low, high, g2, g3⟩ := C87_series_curve he hvar hq hp hd h5 hS hpf false
  have eh : ∀ x, h (at1 d x) = q.factor.value (at1 d x) *
      phi (q.do_fourier.getD 0 0) n ((x - q.position.mean.getD 0 0) / √(entryOf q.position.cov 0 0)) := by
    intro x
    have := Out.ok.inj ((g1 (at1 d x)).symm.trans (hval (at1 d x)))
    rw [this, basis, h1, hd]
    simp [at1]
  simp only [eh] at g2 g3
  refine ⟨low, high, ?_, g3⟩
  obtain ⟨b, c1, c2⟩ := plotBounds_ok hq.pos (i := 0) (by omega) n
  rw [quad_plot_hf, if_neg (by simp [h1]), e1, Out.ok_bind, e2, Out.ok_bind, if_neg (by omega), e3, Out.ok_bind, g2, Out.ok_bind]
  cases bounds with
  | false => rfl
  | true =>
    have e : (List.range [n].length).mapM (fun i => do
        let d ← pyget [n] i
        plotBounds q.position i d) = .ok [b] := by
      show (do let r ← plotBounds q.position 0 n; let rs ← Out.ok []; Out.ok (r :: rs)) = _
      rw [c1]
      rfl
    rw [if_pos rfl, e, if_pos rfl, ← c2]
    rfl

/-- **C87.** In two directions, `plot_hf([m, n])` draws the product of the basis functions times the factor of the quadrature, and with `bounds` lines
for `m` and `n`. -/
theorem C87_hf_surface {slack : ℕ} {eig : Eig} (he : EigDiag eig) {var : ℕ → F} (hvar : ∀ d x, Interp.val {d} (var d) x = x d)
    {q : HQuad F} (hq : QuadOk q) {p : Product F} (hp : q.factor.terms = {p}) {d e : ℕ} (hd : q.position.dirs = [d, e]) (h5 : e < 5)
    (hc : ¬ Couples p.toList [d]) (hv : ∀ i < 2, 0 < entryOf q.position.cov i i) {m n : ℕ} (hn : m + n ≤ 250)
    (hdeg : DegreeOk slack .triangle (m + n) q.do_fourier) {factor : PlotFactor F} (hpf : PlotFactorOk [d, e] factor) (bounds : Bool) :
    let z := (axis q 1).map fun y => (axis q 0).map fun x => q.factor.value (at2 d e x y) *
      (phi (q.do_fourier.getD 0 0) m ((x - q.position.mean.getD 0 0) / √(entryOf q.position.cov 0 0)) *
        phi (q.do_fourier.getD 1 0) n ((y - q.position.mean.getD 1 0) / √(entryOf q.position.cov 1 1))) * plotFactorValue factor (at2 d e x y)
    ∃ low high, quad_plot_hf slack eig var q [m, n] factor bounds = .ok ⟨.surface (axis q 0) (axis q 1) z,
        if bounds then turning q.position 0 m else [], if bounds then turning q.position 1 n else [], low, high⟩ ∧ Extremes low high z.flatten := by
  have h1 : q.position.dim = 2 := by rw [← hq.pos.dirs, hd]; rfl
  have hde : d < e := by simpa [hd] using hq.sorted
  obtain ⟨N, k, S, e1, e2, hk, e3, ok, e4, e5, e6, e7, hval⟩ := hf_series (m := [m, n]) hq (by simp [h1]) (usable_small _ (by omega) (by omega) (by simpa using hn))
  have hS : Evaluable slack q S := hf_evaluable hq (by rw [h1]; exact hv) ok e4 e5 e6 e7 (by simpa using hdeg)
  obtain ⟨h, g1, low, high, g2, g3⟩ := C87_series_surface he hvar hq hp hd h5 hc hS hpf false
  have eh : ∀ x y, h (at2 d e x y) = q.factor.value (at2 d e x y) *
      (phi (q.do_fourier.getD 0 0) m ((x - q.position.mean.getD 0 0) / √(entryOf q.position.cov 0 0)) *
        phi (q.do_fourier.getD 1 0) n ((y - q.position.mean.getD 1 0) / √(entryOf q.position.cov 1 1))) := by
    intro x y
    have := Out.ok.inj ((g1 (at2 d e x y)).symm.trans (hval (at2 d e x y)))
    rw [this, basis, h1, hd]
    have : e ≠ d := by omega
    simp [at2, Finset.prod_range_succ, List.range_succ, this]
  simp only [eh] at g2 g3
  refine ⟨low, high, ?_, g3⟩
  obtain ⟨b, c1, c2⟩ := plotBounds_ok hq.pos (i := 0) (by omega) m
  obtain ⟨b', c1', c2'⟩ := plotBounds_ok hq.pos (i := 1) (by omega) n
  rw [quad_plot_hf, if_neg (by simp [h1]), e1, Out.ok_bind, e2, Out.ok_bind, if_neg (by omega), e3, Out.ok_bind, g2, Out.ok_bind]
  cases bounds with
  | false => rfl
  | true =>
    have e : (List.range [m, n].length).mapM (fun i => do
        let d ← pyget [m, n] i
        plotBounds q.position i d) = .ok [b, b'] := by
      have e0 : List.range [m, n].length = [0, 1] := rfl
      have p0 : pyget [m, n] 0 = .ok m := rfl
      have p1 : pyget [m, n] 1 = .ok n := rfl
      simp only [e0, List.mapM_cons, p0, p1, Out.ok_bind, c1, c1']
      rfl
    rw [if_pos rfl, e, if_pos rfl, if_pos rfl, ← c2, ← c2']
    rfl

omit [Interp F] [DecidableEq F] in
/-- **C87.** The lines are what they should be: beyond them, the Hermite function (with the square root of the density as factor) has no zeros, and its
absolute value decreases to zero. -/
theorem C87_turning (p : Position) (i n : ℕ) (hv : 0 < entryOf p.cov i i) :
    ∃ a b, turning p i n = [a, b] ∧
      (∀ x, x ≤ a ∨ b ≤ x → hermiteFunction n ((x - p.mean.getD i 0) / √(entryOf p.cov i i)) ≠ 0) ∧
      StrictMonoOn (fun x => |hermiteFunction n ((x - p.mean.getD i 0) / √(entryOf p.cov i i))|) (Set.Iic a) ∧
      StrictAntiOn (fun x => |hermiteFunction n ((x - p.mean.getD i 0) / √(entryOf p.cov i i))|) (Set.Ici b) ∧
      Filter.Tendsto (fun x => hermiteFunction n ((x - p.mean.getD i 0) / √(entryOf p.cov i i))) Filter.atTop (nhds 0) := by
  refine ⟨_, _, rfl, ?_⟩
  set σ := √(entryOf p.cov i i) with hσ
  set μ := p.mean.getD i 0
  have hs : 0 < σ := Real.sqrt_pos.2 hv
  set a := √(4 * (n : ℝ) + 2) with ha
  have ha0 : 0 ≤ a := Real.sqrt_nonneg _
  have ha2 : 4 * (n : ℝ) + 2 ≤ a ^ 2 := by rw [ha, Real.sq_sqrt (by positivity)]
  obtain ⟨h1, h2⟩ := psi_abs_strict n ha0 ha2
  have hf : 0 < √(n.factorial : ℝ) := by positivity
  have e : ∀ x, hermiteFunction n x = psi n x / √(n.factorial : ℝ) := fun x => hermiteFunction_psi n x
  have hneg : ∀ x, |hermiteFunction n (-x)| = |hermiteFunction n x| := by
    intro x
    rw [hermiteFunction, hermiteFunction, herm_neg, neg_sq, mul_assoc, abs_mul, abs_pow, abs_neg, abs_one, one_pow, one_mul]
  have n1 : ∀ x, a ≤ x → hermiteFunction n x ≠ 0 := fun x hx => by
    rw [e]; exact div_ne_zero (h1 x hx) hf.ne'
  have n2 : ∀ x y, a ≤ x → x < y → |hermiteFunction n y| < |hermiteFunction n x| := fun x y hx hy => by
    rw [e, e, abs_div, abs_div]
    exact div_lt_div_of_pos_right (h2 hx (Set.mem_Ici.2 (hx.trans hy.le)) hy) (abs_pos.2 hf.ne')
  have hr : ∀ x, μ + a * σ ≤ x → a ≤ (x - μ) / σ := fun x hx => by rw [le_div_iff₀ hs]; linarith
  have hl : ∀ x, x ≤ μ - a * σ → a ≤ -((x - μ) / σ) := fun x hx => by rw [← neg_div, le_div_iff₀ hs]; linarith
  refine ⟨?_, ?_, ?_, ?_⟩
  · rintro x (hx | hx)
    · have := n1 _ (hl x hx)
      rw [← abs_ne_zero, hneg] at this
      exact abs_ne_zero.1 this
    · exact n1 _ (hr x hx)
  · intro x hx y hy hxy
    have := n2 (-((y - μ) / σ)) (-((x - μ) / σ)) (hl y hy) (neg_lt_neg (div_lt_div_of_pos_right (by linarith) hs))
    rwa [hneg, hneg] at this
  · intro x hx y hy hxy
    exact n2 _ _ (hr x hx) (div_lt_div_of_pos_right (by linarith) hs)
  · have h := ((psi_limit n).div_const (√(n.factorial : ℝ)))
    rw [zero_div] at h
    have h' : Filter.Tendsto (hermiteFunction n) Filter.atTop (nhds 0) := h.congr fun x => (e x).symm
    refine h'.comp (Filter.Tendsto.atTop_div_const hs (Filter.tendsto_atTop_add_const_right _ (-μ) Filter.tendsto_id |>.congr fun x => ?_))
    simp [sub_eq_add_neg]

/-! ## Where plots fail -/

omit [DecidableEq F] in
theorem axisNodes_throws {eig : Eig} {var : ℕ → F} {q : HQuad F} {d : ℕ} (h : fn_project q.factor.toFn [d] = .throws) :
    axisNodes eig var q d d = .throws := by
  rw [axisNodes]
  split
  · rfl
  · rw [quad_project, h]
    rfl

omit [DecidableEq F] in
theorem plot_throws {slack : ℕ} {eig : Eig} {var : ℕ → F} {q : HQuad F} (hq : QuadOk q) {arg : PlotArg F} {factor : PlotFactor F} {bounds : Bool}
    {v : List ℝ} (hv : plotValues slack eig q arg factor = .ok v) {lines : List ℝ × List ℝ} (hl : seriesLines q arg bounds = .ok lines)
    {d : ℕ} {ds : List ℕ} (hd : q.position.dirs = d :: ds) (h : fn_project q.factor.toFn [d] = .throws) :
    quad_plot slack eig var q arg factor bounds = .throws := by
  rw [quad_plot, if_neg (not_not.2 (is_diag_of hq)), hv, Out.ok_bind, hl, Out.ok_bind, hd, List.mapM_cons, axisNodes_throws h]
  rfl

omit [DecidableEq F] in
/-- The claims of C87 for quadratures whose factor is a sum are false: the axes are found by projecting the quadrature, which raises an
exception for the factor. -/
theorem C87_sum_false (slack : ℕ) {eig : Eig} (he : EigDiag eig) (var : ℕ → F) {q : HQuad F} (hq : QuadOk q) (hd : DirsOk q.position.dirs)
    (hp : q.factor.terms.card ≠ 1) {f : FactorArg F} (hf : FactorOk q.position.dirs f) (bounds : Bool) :
    quad_plot slack eig var q (.fn f) .none bounds = .throws := by
  obtain ⟨d, ds, hd'⟩ := List.exists_cons_of_ne_nil hd.ne
  refine plot_throws hq (fn_plotValues he hq hd hf) (lines := ([], [])) rfl hd' ?_
  have hl : q.factor.toFn.terms.length ≠ 1 := by simpa [SFn.toFn] using hp
  rw [fn_project, split_ok hq.factor.fnOk, Out.ok_bind]
  match h : q.factor.toFn.terms.map fun args => asFunctions (splitTerm q.factor.toFn.dirs args) with
  | [] => rfl
  | [_] =>
    have := congrArg List.length h
    simp at this
    exact absurd this hl
  | _ :: _ :: _ => rfl

omit [DecidableEq F] in
/-- The claims of C87 for quadratures with a factor that couples the first direction to the others are false. -/
theorem C87_coupled_false (slack : ℕ) {eig : Eig} (he : EigDiag eig) (var : ℕ → F) {q : HQuad F} (hq : QuadOk q) (hd : DirsOk q.position.dirs)
    {p : Product F} (hp : q.factor.terms = {p}) {d : ℕ} {ds : List ℕ} (hd' : q.position.dirs = d :: ds) (hc : Couples p.toList [d])
    {f : FactorArg F} (hf : FactorOk q.position.dirs f) (bounds : Bool) : quad_plot slack eig var q (.fn f) .none bounds = .throws := by
  refine plot_throws hq (fn_plotValues he hq hd hf) (lines := ([], [])) rfl hd' ?_
  have h := C51_single hq.factor.fnOk (args := p.toList) (by rw [toFn_single hp]) (d0 := d) (ds := ds)
    (by rw [← hd', ← hq.factorDirs]; rfl) d
  exact h.2 hc

omit [DecidableEq F] in
theorem mapM_length {α β : Type} {f : α → Out β} : ∀ {l : List α} {r : List β}, l.mapM f = .ok r → r.length = l.length
  | [], r, h => by
    rw [List.mapM_nil] at h
    rw [← Out.ok.inj h]
    rfl
  | a :: l, r, h => by
    rw [List.mapM_cons] at h
    obtain ⟨b, -, h⟩ := Out.bind_ok h
    obtain ⟨bs, hb, h⟩ := Out.bind_ok h
    rw [← Out.ok.inj h, List.length_cons, List.length_cons, mapM_length hb]

omit [DecidableEq F] in
/-- Nothing is plotted in three or more directions: `plot` never returns. -/
theorem C87_dimension (slack : ℕ) (eig : Eig) (var : ℕ → F) (q : HQuad F) (arg : PlotArg F) (factor : PlotFactor F) (bounds : Bool)
    (h : q.position.dirs.length ≠ 1 ∧ q.position.dirs.length ≠ 2) (r : Plot) : quad_plot slack eig var q arg factor bounds ≠ .ok r := by
  intro e
  rw [quad_plot] at e
  split at e
  · cases e
  obtain ⟨v, -, e⟩ := Out.bind_ok e
  obtain ⟨l, -, e⟩ := Out.bind_ok e
  obtain ⟨x, hx, e⟩ := Out.bind_ok e
  have hl := mapM_length hx
  match x, q.nodes.map List.length, hl, e with
  | [], _, _, e => cases e
  | [_], _, hl, e => simp at hl; omega
  | [_, _], _, hl, e => simp at hl; omega
  | _ :: _ :: _ :: _, _, hl, e => cases e

/-- The claim on `plot_hf` is false for multi-indices of odd sum when there is a Fourier direction: nothing is plotted. -/
theorem C87_hf_odd_false (slack : ℕ) {eig : Eig} (he : EigDiag eig) (var : ℕ → F) {q : HQuad F} (hq : QuadOk q)
    (hvar : ∀ i < q.position.dim, 0 < entryOf q.position.cov i i) (ht : "fourier" ∈ q.position.types) {m : List ℕ}
    (hm : m.length = q.position.dim) (hu : Usable .triangle q.position.dim m.sum) (hodd : m.sum % 2 = 1) (bounds : Bool) (r : Plot) :
    quad_plot_hf slack eig var q m .none bounds ≠ .ok r := by
  intro e
  obtain ⟨N, k, S, e1, e2, hk, e3, ok, e4, e5, e6, e7, -⟩ := hf_series hq hm hu
  rw [quad_plot_hf, if_neg (by simp [hm]), e1, Out.ok_bind, e2, Out.ok_bind, if_neg (by omega), e3, Out.ok_bind] at e
  obtain ⟨plot, e, -⟩ := Out.bind_ok e
  rw [quad_plot, if_neg (not_not.2 (is_diag_of hq))] at e
  obtain ⟨v, e, -⟩ := Out.bind_ok e
  rw [show plotValues slack eig q (.series S) .none = quad_eval slack eig q S from rfl,
    quad_eval_eq he hq ok.pos (by rw [e4]; exact hq.diag) (by rw [e4]) (by rw [e4]; exact hvar) (by rw [e5, hq.factorDirs])
      (by rw [e5]; exact hq.factor.vars)] at e
  obtain ⟨w, e, -⟩ := Out.bind_ok e
  obtain ⟨i, hi⟩ := List.getElem?_of_mem ht
  have hil : i < q.position.types.length := (List.getElem?_eq_some_iff.1 hi).1
  have hin : i < q.nodes.length := by rw [hq.dim, ← hq.pos.types]; exact hil
  refine C32_transform_odd slack _ _ (by rw [e7]; exact hodd) _ _ _ _ _ i (by rw [HQuad.do_fourier, List.getElem?_map, hi]; rfl) ?_ w e
  refine (evalNodes_grid hq S.position).nodes_pos _ ?_
  rw [List.getD_eq_getElem _ _ (by simpa using hin)]
  exact List.getElem_mem _

omit [DecidableEq F] in
/-- The argument `factor` is of use for series only, and not as an array: in the other cases an exception is raised. -/
theorem C87_factor_false (slack : ℕ) (eig : Eig) (var : ℕ → F) (q : HQuad F) (s : HSeries (SFn F)) (f : FactorArg F) (g : PlotFactor F)
    (hg : g ≠ .none) (v : List ℝ) (bounds : Bool) (r : Plot) :
    quad_plot slack eig var q (.series s) (.array v) bounds = .throws ∧ quad_plot slack eig var q (.fn f) g bounds ≠ .ok r := by
  constructor
  · rw [quad_plot]
    split
    · rfl
    · rfl
  · intro e
    rw [quad_plot] at e
    split at e
    · cases e
    obtain ⟨v, e, -⟩ := Out.bind_ok e
    rw [plotValues] at e
    obtain ⟨f, -, e⟩ := Out.bind_ok e
    cases g with
    | none => exact hg rfl
    | array _ => cases e
    | expr _ => cases e

/-! ## Cases meeting the hypotheses -/

/-- Factors for the examples: a constant plus the sum of the variables. -/
noncomputable local instance interp87 : Interp ℝ where
  val s c x := c + ∑ d ∈ s, x d
  val_local s c x y h := by rw [Finset.sum_congr rfl h]

noncomputable local instance : DecidableEq ℝ := Classical.decEq ℝ

theorem var87 (d : ℕ) (x : ℕ → ℝ) : Interp.val {d} (0 : ℝ) x = x d := by simp [Interp.val]

/-- Direction 3 with mean 5 and variance 4; the factor is `x_3`. -/
noncomputable def quad87 : HQuad ℝ := ⟨[[-1, 1]], [[1 / 2, 1 / 2]], ⟨1, [3], [5], diagMat [4], ["hermite"]⟩, ⟨[3], {{({3}, 0)}}⟩⟩

theorem quad87_ok : QuadOk quad87 where
  pos := ⟨rfl, rfl, rfl, by simp [quad87, diagMat], rfl, by simp [quad87]⟩
  diag := by
    have := single_diagonal 3 5 4 "hermite"
    simpa [quad87, diagMat] using this
  dim := rfl
  grid := ⟨by simp [quad87], by simp [quad87], ⟨rfl, by simp [quad87, HQuad.do_fourier]⟩, by simp [quad87, gridPoints, cartesian]⟩
  weights := rfl
  uniform := by intro r hr; simp [quad87] at hr ⊢; simp [hr]
  factor := ⟨by simp [quad87], by simp [quad87]⟩
  factorDirs := rfl

theorem sqrt_four : √(4 : ℝ) = 2 := by rw [show (4 : ℝ) = 2 ^ 2 by norm_num]; exact Real.sqrt_sq (by norm_num)

theorem axis87 : axis quad87 0 = [3, 7] := by
  simp [axis, quad87, entryOf, diagMat, sqrt_four]
  norm_num

/-- The curve of `x_3 (x_3 + 1) + 2`. -/
example {eig : Eig} (he : EigDiag eig) : ∃ low high, quad_plot 0 eig (fun _ => (0 : ℝ)) quad87 (.fn (.expr {{({3}, 0), ({3}, 1)}, {(∅, 2)}})) .none false =
    .ok ⟨.curve [3, 7] [14, 58], [], [], low, high⟩ ∧ Extremes low high [14, 58] := by
  have h := C87_function_curve 0 he var87 quad87_ok (p := {({3}, 0)}) rfl (d := 3) rfl (by norm_num)
    (f := .expr {{({3}, 0), ({3}, 1)}, {(∅, 2)}}) (by
      simp only [FactorOk, Multiset.insert_eq_cons, Multiset.mem_cons, Multiset.mem_singleton]
      rintro p (rfl | rfl) a ha d hd
      · simp only [Multiset.mem_cons, Multiset.mem_singleton] at ha
        rcases ha with rfl | rfl <;> simpa using hd
      · rw [Multiset.mem_singleton] at ha
        subst ha
        simp at hd) false
  simp only [axis87, factorTerms] at h
  convert h using 5 <;> simp [productValue, Interp.val, at1] <;> norm_num

/-- The Hermite function of degree 1. -/
example {eig : Eig} (he : EigDiag eig) : ∃ low high, quad_plot_hf 0 eig (fun _ => (0 : ℝ)) quad87 [1] .none true =
    .ok ⟨.curve [3, 7] [-3, 7], [5 - √6 * 2, 5 + √6 * 2], [], low, high⟩ ∧ Extremes low high [-3, 7] := by
  have h := C87_hf_curve (slack := 0) he var87 quad87_ok (p := {({3}, 0)}) rfl (d := 3) rfl (by norm_num) (by simp [quad87, entryOf, diagMat])
    (n := 1) (by norm_num) ⟨by simp [quad87, HQuad.do_fourier], by simp, by simp⟩ (factor := .none) trivial true
  have e6 : (4 : ℝ) * (1 : ℕ) + 2 = 6 := by norm_num
  simp only [axis87, turning, e6] at h
  have e : (fun x => quad87.factor.value (at1 3 x) * phi (quad87.do_fourier.getD 0 0) 1 ((x - quad87.position.mean.getD 0 0) /
      √(entryOf quad87.position.cov 0 0)) * plotFactorValue (PlotFactor.none : PlotFactor ℝ) (at1 3 x)) = fun x => x * ((x - 5) / 2) := by
    funext x
    simp [quad87, SFn.value, productValue, Interp.val, at1, phi, HQuad.do_fourier, entryOf, diagMat, sqrt_four, plotFactorValue, herm_one]
  simp only [e] at h
  have e' : ([3, 7].map fun x : ℝ => x * ((x - 5) / 2)) = [-3, 7] := by
    norm_num
  rw [e'] at h
  simpa [quad87, entryOf, diagMat, sqrt_four] using h

/-- A series that can be evaluated. -/
example {eig : Eig} (he : EigDiag eig) : ∃ f : HSeries (SFn ℝ), f.coeffs = [2, 1] ∧ ∃ low high,
    quad_plot 0 eig (fun _ => (0 : ℝ)) quad87 (.series f) (.expr (.expr {{({3}, 1)}})) false = .ok ⟨.curve [3, 7] [12, 168], [], [], low, high⟩ := by
  obtain ⟨f, ok, h1, h2, h3, h4, h5⟩ := linear_series quad87.position quad87_ok.pos rfl quad87.factor 2 1
  obtain ⟨L, hL, hlen⟩ := ok.list
  have hdim : quad87.position.dim = 1 := rfl
  have eL : L = [[0], [1]] := by
    have := hL.list
    rw [h4, h2, hdim] at this
    exact Out.ok.inj (this.symm.trans h5)
  have hdeg : 1 ≤ f.degree := by
    have := ((hL.mem [1]).1 (by rw [eL]; simp))
    rw [h4] at this
    simpa using this.2
  have hf := hf_evaluable (slack := 0) quad87_ok (by rw [hdim]; simp [quad87, entryOf, diagMat]) ok h2 h3 h4 rfl
    ⟨by simp [quad87, HQuad.do_fourier], fun _ => Or.inl hdeg, by simp⟩
  obtain ⟨h, g1, low, high, g2, -⟩ := C87_series_curve he var87 quad87_ok (p := {({3}, 0)}) rfl (d := 3) rfl (by norm_num) hf
    (factor := .expr (.expr {{({3}, 1)}})) (by simp [PlotFactorOk, FactorOk]) false
  refine ⟨f, h1, low, high, g2.trans ?_⟩
  have e : ∀ x, h (at1 3 x) = x * (2 + (x - 5) / 2) := by
    intro x
    have := (g1 (at1 3 x)).symm
    rw [seriesValue, hL.list, Out.ok_bind, eL, h1, h2, h3, hdim] at this
    rw [Out.ok.inj this]
    simp [quad87, series, basis, SymFn.value, SFn.value, productValue, Interp.val, at1, phi, entryOf, diagMat, sqrt_four, Finset.sum_range_succ,
      herm_one, herm_zero]
  simp only [axis87, e]
  simp [plotFactorValue, factorTerms, productValue, Interp.val, at1]
  norm_num

/-- Directions 0 and 2 with the given factor. -/
noncomputable def plane87 (terms : Multiset (Product ℝ)) : HQuad ℝ :=
  ⟨[[-1, 1], [0, 3]], [[1 / 2, 1 / 2], [1 / 2, 1 / 2]], ⟨2, [0, 2], [5, 0], diagMat [4, 1], ["hermite", "hermite"]⟩, ⟨[0, 2], terms⟩⟩

theorem plane87_ok {terms : Multiset (Product ℝ)} (h : ∀ p ∈ terms, ∀ a ∈ p, ∀ d ∈ a.1, d ∈ [0, 2]) : QuadOk (plane87 terms) where
  pos := ⟨rfl, rfl, rfl, by simp [plane87, diagMat], rfl, by simp [plane87]⟩
  diag := by
    intro i j r c hij h1 h2
    simp only [plane87, diagMat, List.length_cons, List.length_nil, List.getElem?_map] at h1
    rcases i with _ | _ | i <;> simp at h1
    · subst h1
      rcases j with _ | _ | j <;> simp at h2 hij ⊢
      exact h2.symm
    · subst h1
      rcases j with _ | _ | j <;> simp at h2 hij ⊢
      exact h2.symm
  dim := rfl
  grid := ⟨by simp [plane87], by simp [plane87], ⟨rfl, by simp [plane87, HQuad.do_fourier]⟩, by simp [plane87, gridPoints, cartesian]⟩
  weights := rfl
  uniform := by intro r hr; simp [plane87] at hr ⊢; rcases hr with rfl | rfl <;> rfl
  factor := ⟨by simp [plane87], h⟩
  factorDirs := rfl

theorem plane87_dirs (terms : Multiset (Product ℝ)) : DirsOk (plane87 terms).position.dirs := ⟨by simp [plane87], by simp [plane87], by simp [plane87]⟩

/-- The surface of `x_0 + x_2 + 1`. -/
example {eig : Eig} (he : EigDiag eig) : ∃ low high, quad_plot 0 eig (fun _ => (0 : ℝ)) (plane87 {{({0}, 0), ({2}, 7)}}) (.fn (.expr {{({0, 2}, 1)}})) .none
    false = .ok ⟨.surface [3, 7] [0, 3] [[4, 8], [7, 11]], [], [], low, high⟩ := by
  have hc : ¬ Couples (Multiset.toList ({({0}, 0), ({2}, 7)} : Product ℝ)) [0] := by
    rintro ⟨f, hf, ⟨x, hx, hx'⟩, y, hy, hy'⟩
    simp only [Multiset.mem_toList, Multiset.insert_eq_cons, Multiset.mem_cons, Multiset.mem_singleton] at hf
    rcases hf with rfl | rfl <;> simp_all
  obtain ⟨low, high, h, -⟩ := C87_function_surface 0 he var87 (plane87_ok (terms := {{({0}, 0), ({2}, 7)}}) (by
    simp only [Multiset.mem_singleton]
    rintro p rfl a ha d hd
    simp only [Multiset.insert_eq_cons, Multiset.mem_cons, Multiset.mem_singleton] at ha
    rcases ha with rfl | rfl <;> simp_all)) rfl rfl (by norm_num) hc (f := .expr {{({0, 2}, 1)}}) (by simp [FactorOk]) false
  refine ⟨low, high, h.trans ?_⟩
  have e0 : axis (plane87 {{({0}, 0), ({2}, 7)}}) 0 = [3, 7] := by
    simp [axis, plane87, entryOf, diagMat, sqrt_four]
    norm_num
  have e1 : axis (plane87 {{({0}, 0), ({2}, 7)}}) 1 = [0, 3] := by
    simp [axis, plane87, entryOf, diagMat]
  rw [e0, e1]
  simp [factorTerms, productValue, Interp.val, at2]
  norm_num

/-- A sum and a factor that couples the directions. -/
example {eig : Eig} (he : EigDiag eig) : quad_plot 0 eig (fun _ => (0 : ℝ)) (plane87 {{({0}, 0)}, {({2}, 7)}}) (.fn (.expr {{({0, 2}, 1)}})) .none
      false = .throws ∧
    quad_plot 0 eig (fun _ => (0 : ℝ)) (plane87 {{({0, 2}, 0)}}) (.fn (.expr {{({0, 2}, 1)}})) .none false = .throws := by
  constructor
  · refine C87_sum_false 0 he _ (plane87_ok ?_) (plane87_dirs _) (by simp [plane87]) (f := .expr {{({0, 2}, 1)}}) (by simp [FactorOk, plane87]) false
    simp only [Multiset.insert_eq_cons, Multiset.mem_cons, Multiset.mem_singleton]
    rintro p (rfl | rfl) a ha d hd <;> rw [Multiset.mem_singleton] at ha <;> subst ha <;> simp_all
  · refine C87_coupled_false 0 he _ (plane87_ok ?_) (plane87_dirs _) (p := {({0, 2}, 0)}) rfl (d := 0) (ds := [2]) rfl ?_ (f := .expr {{({0, 2}, 1)}})
      (by simp [FactorOk, plane87]) false
    · simp
    · exact ⟨({0, 2}, 0), by simp, ⟨0, by simp, by simp⟩, 2, by simp, by simp⟩

end Hermipy.Props
