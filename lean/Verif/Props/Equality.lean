import Verif.Lemmas.Equality
import Verif.Props.Arithmetic
import Verif.Props.QuadIntegrate
import Mathlib.Algebra.BigOperators.Group.Finset.Basic
import Mathlib.Algebra.Order.BigOperators.Ring.Finset
import Mathlib.Analysis.CStarAlgebra.Matrix

/-! # C81: comparison of objects -/

namespace Hermipy.Props
open Hermipy Hermipy.Spec
variable {Φ : Type} {F : Type}

/-! ## Positions -/

/-- **C81.** Positions which compare equal have the same directions and types, and no entry of the means and covariances differs by
1e-10. -/
theorem C81_position {p q : Position} (hp : PosOk p) (hq : PosOk q) (h : pos_eq p q) : p.dirs = q.dirs ∧ p.types = q.types ∧
    (∀ i < p.dim, |p.mean.getD i 0 - q.mean.getD i 0| < 1 / 10 ^ 10) ∧
    ∀ i < p.dim, ∀ j < p.dim, |entryOf p.cov i j - entryOf q.cov i j| < 1 / 10 ^ 10 := by
  have hdim := dim_of_dirs hp hq h.1
  refine ⟨h.1, h.2.2.2, fun i hi => ?_, fun i hi j hj => ?_⟩
  · have hm : i < p.mean.length := by rw [hp.mean]; exact hi
    have hm' : i < q.mean.length := by rw [hq.mean, ← hdim]; exact hi
    refine (abs_le_npNorm (v := List.zipWith (· - ·) p.mean q.mean) ?_).trans_lt h.2.1
    rw [List.getD_eq_getElem _ _ hm, List.getD_eq_getElem _ _ hm']
    refine List.mem_iff_getElem.2 ⟨i, by simp [hm, hm'], by simp⟩
  · set M : Matrix (Fin p.dim) (Fin p.dim) ℝ := Matrix.of fun i j => entryOf p.cov i j - entryOf q.cov i j with hM
    have h1 := (Matrix.toEuclideanCLM (n := Fin p.dim) (𝕜 := ℝ) M).le_opNorm (EuclideanSpace.single ⟨j, hj⟩ (1 : ℝ))
    rw [EuclideanSpace.norm_single, norm_one, mul_one] at h1
    have h2 := EuclideanSpace.norm_eq (Matrix.toEuclideanCLM (n := Fin p.dim) (𝕜 := ℝ) M (EuclideanSpace.single ⟨j, hj⟩ (1 : ℝ)))
    have h3 : (Matrix.toEuclideanCLM (n := Fin p.dim) (𝕜 := ℝ) M (EuclideanSpace.single ⟨j, hj⟩ (1 : ℝ))) ⟨i, hi⟩ =
        entryOf p.cov i j - entryOf q.cov i j := by
      rw [Matrix.ofLp_toEuclideanCLM]
      simp [hM, Matrix.mulVec_single]
    refine lt_of_le_of_lt ?_ h.2.2.1
    refine le_trans ?_ h1
    rw [h2, ← h3, ← Real.norm_eq_abs]
    refine Real.le_sqrt_of_sq_le ?_
    exact Finset.single_le_sum (f := fun k => ‖(Matrix.toEuclideanCLM (n := Fin p.dim) (𝕜 := ℝ) M (EuclideanSpace.single ⟨j, hj⟩ (1 : ℝ))) k‖ ^ 2)
      (fun k _ => by positivity) (Finset.mem_univ (⟨i, hi⟩ : Fin p.dim))

/-! ## Every comparison is reflexive and symmetric -/

/-- **C81.** Every series, form and quadrature compares equal to itself. -/
theorem C81_reflexive [DecidableEq Φ] [DecidableEq F] (f : HSeries Φ) (A : HVarf Φ) (q : HQuad F) :
    series_eq f f = .ok true ∧ varf_eq A A = .ok true ∧ quad_eq q q = .ok true := by
  refine ⟨?_, ?_, ?_⟩
  · rw [series_eq, if_neg (not_not.2 (pos_eq_self _)), if_neg (by simp), broadcast, if_pos rfl, Out.ok_bind,
      verySmall_zero (zipWith_sub_self _)]
  · have : matSub A A = .ok (List.zipWith (List.zipWith (· - ·)) A.matrix A.matrix) := by
      rw [matSub]
      split
      · rw [if_pos rfl]
      · exact broadcast2_same rfl _
    rw [varf_eq, if_neg (not_not.2 (pos_eq_self _)), this, Out.ok_bind, verySmall_zero (zipWith2_sub_self _)]
  · rw [quad_eq, if_neg (not_not.2 (pos_eq_self _)), if_neg (by simp), broadcast2_same rfl, Out.ok_bind,
      verySmall_zero (zipWith2_sub_self _), if_neg (by simp), broadcast2_same rfl, Out.ok_bind, verySmall_zero (zipWith2_sub_self _)]

/-- **C81.** Comparison of series does not depend on the order of the operands, also when it raises. -/
theorem C81_series_symmetric [DecidableEq Φ] {f g : HSeries Φ} (hf : PosOk f.position) (hg : PosOk g.position) :
    series_eq g f = series_eq f g := by
  rw [series_eq, series_eq]
  by_cases hp : pos_eq f.position g.position
  · rw [if_neg (not_not.2 hp), if_neg (not_not.2 (pos_eq_symm hf hg hp))]
    by_cases hF : f.factor = g.factor
    · rw [if_neg (not_not.2 hF), if_neg (not_not.2 hF.symm), broadcast_swap]
      cases broadcast (· - ·) f.coeffs g.coeffs with
      | stop s => rfl
      | diverge => rfl
      | ok d => simp only [Out.ok_bind, verySmall_neg]
    · rw [if_pos hF, if_pos (Ne.symm hF)]
  · rw [if_pos hp, if_pos (fun h => hp (pos_eq_symm hg hf h))]

/-- **C81.** Comparison of forms does not depend on the order of the operands. -/
theorem C81_varf_symmetric {A B : HVarf Φ} (hA : PosOk A.position) (hB : PosOk B.position) : varf_eq B A = varf_eq A B := by
  have key : matSub B A = matSub A B >>= fun D => .ok (D.map fun r => r.map fun x => -x) := by
    rw [matSub, matSub, Bool.or_comm]
    split
    · by_cases h : A.matrix.map List.length = B.matrix.map List.length
      · rw [if_pos h, if_pos h.symm, Out.ok_bind, List.map_zipWith, List.zipWith_comm]
        congr 2
        funext r s
        exact zipWith_sub_swap _ _
      · rw [if_neg h, if_neg (Ne.symm h)]
        rfl
    · exact broadcast2_swap _ _
  rw [varf_eq, varf_eq]
  by_cases hp : pos_eq A.position B.position
  · rw [if_neg (not_not.2 hp), if_neg (not_not.2 (pos_eq_symm hA hB hp)), key]
    cases matSub A B with
    | stop s => rfl
    | diverge => rfl
    | ok d => simp only [Out.ok_bind, verySmall_flatten_neg]
  · rw [if_pos hp, if_pos (fun h => hp (pos_eq_symm hB hA h))]

/-- **C81.** Comparison of quadratures does not depend on the order of the operands. -/
theorem C81_quad_symmetric [DecidableEq F] {q r : HQuad F} (hq : PosOk q.position) (hr : PosOk r.position) : quad_eq r q = quad_eq q r := by
  rw [quad_eq, quad_eq]
  by_cases hp : pos_eq q.position r.position
  · rw [if_neg (not_not.2 hp), if_neg (not_not.2 (pos_eq_symm hq hr hp))]
    by_cases hF : q.factor = r.factor
    · rw [if_neg (not_not.2 hF), if_neg (not_not.2 hF.symm), broadcast2_swap q.nodes, broadcast2_swap q.weights]
      cases broadcast2 (· - ·) q.nodes r.nodes with
      | stop s => rfl
      | diverge => rfl
      | ok N =>
        simp only [Out.ok_bind, verySmall_flatten_neg]
        split
        · rfl
        · cases broadcast2 (· - ·) q.weights r.weights with
          | stop s => rfl
          | diverge => rfl
          | ok W => simp only [Out.ok_bind, verySmall_flatten_neg]
    · rw [if_pos hF, if_pos (Ne.symm hF)]
  · rw [if_pos hp, if_pos (fun h => hp (pos_eq_symm hr hq h))]

/-! ## Series -/

section series
variable [DecidableEq Φ]

/-- **C81.** Series of the same degree and index set compare equal exactly if their positions compare equal, they have the same factor,
and the Euclidean norm of the differences of the coefficients at each multi-index is less than 1e-10. Missing for the full statement:
the index sets are not compared (`C81_index_set_false`), and neither are the degrees (`C81_series_degrees`, `C81_broadcast_false`). -/
theorem C81_series_partial {f g : HSeries Φ} (hf : SeriesOk f) (hg : SeriesOk g) (hs : f.index_set = g.index_set) (hdeg : f.degree = g.degree)
    {S : Finset (List ℕ)} (hS : ∀ m, m ∈ S ↔ Indices f m) {c d : List ℕ → ℝ} (hc : ∀ m ∈ S, Coef f m (c m)) (hd : ∀ m ∈ S, Coef g m (d m)) :
    ∃ b, series_eq f g = .ok b ∧
      (b = true ↔ pos_eq f.position g.position ∧ f.factor = g.factor ∧ √(∑ m ∈ S, (c m - d m) ^ 2) < 1 / 10 ^ 10) := by
  classical
  rw [series_eq]
  by_cases hp : pos_eq f.position g.position
  swap
  · exact ⟨false, by rw [if_pos hp], by simp [hp]⟩
  rw [if_neg (not_not.2 hp)]
  by_cases hF : f.factor = g.factor
  swap
  · exact ⟨false, by rw [if_pos hF], by simp [hF]⟩
  rw [if_neg (not_not.2 hF)]
  obtain ⟨L, hL, hlen⟩ := hf.list
  obtain ⟨L', hL', hlen'⟩ := hg.list
  have hdim := dim_of_dirs hf.pos hg.pos hp.1
  have : L' = L := by
    rw [← hs, ← hdeg, ← hdim] at hL'
    exact hL'.unique hL
  subst this
  have hSL : S = L'.toFinset := by
    ext m
    rw [hS, List.mem_toFinset, hL.mem]
    rfl
  have hcoef : List.zipWith (· - ·) f.coeffs g.coeffs = L'.map fun m => c m - d m := by
    refine List.ext_getElem (by simp [hlen, hlen']) fun k h1 h2 => ?_
    simp only [List.length_map] at h2
    have hm : L'[k] ∈ S := by rw [hSL]; simp
    rw [List.getElem_zipWith, List.getElem_map]
    rw [hf.coef.2 _ _ _ ((coef_iff hL.list _ _).2 ⟨k, by simp, List.getElem?_eq_getElem (by omega)⟩) (hc _ hm),
      hg.coef.2 _ _ _ ((coef_iff hL'.list _ _).2 ⟨k, by simp, List.getElem?_eq_getElem (by omega)⟩) (hd _ hm)]
  refine ⟨_, by rw [broadcast, if_pos (by omega), Out.ok_bind], ?_⟩
  rw [verySmall_iff, hcoef, npNorm, List.map_map, hSL, List.sum_toFinset _ hL.nodup]
  simp only [Function.comp_def]
  exact ⟨fun h => ⟨hp, hF, h⟩, fun h => h.2.2⟩

/-- **C81.** Series of the same degree and index set which compare equal have the same factor, and no coefficient differs by 1e-10. -/
theorem C81_series_coef {f g : HSeries Φ} (hf : SeriesOk f) (hg : SeriesOk g) (hs : f.index_set = g.index_set) (hdeg : f.degree = g.degree)
    (h : series_eq f g = .ok true) : pos_eq f.position g.position ∧ f.factor = g.factor ∧
      ∀ m a b, Coef f m a → Coef g m b → |a - b| < 1 / 10 ^ 10 := by
  classical
  obtain ⟨L, hL, -⟩ := hf.list
  have hS : ∀ m, m ∈ L.toFinset ↔ Indices f m := fun m => by rw [List.mem_toFinset, hL.mem]; rfl
  have hp : pos_eq f.position g.position := by
    by_contra hp
    rw [series_eq, if_pos hp] at h
    cases h
  have hdim := dim_of_dirs hf.pos hg.pos hp.1
  have hig : ∀ m, Indices f m → Indices g m := fun m hm => by rw [Indices, ← hs, ← hdeg, ← hdim]; exact hm
  choose! c hc using fun m (hm : m ∈ L.toFinset) => (hf.coef.1 m).1 ((hS m).1 hm)
  choose! d hd using fun m (hm : m ∈ L.toFinset) => (hg.coef.1 m).1 (hig m ((hS m).1 hm))
  obtain ⟨b, e, hb⟩ := C81_series_partial hf hg hs hdeg hS hc hd
  rw [h] at e
  obtain ⟨-, hF, hn⟩ := hb.1 (Out.ok.inj e).symm
  refine ⟨hp, hF, fun m x y hx hy => ?_⟩
  have hm : m ∈ L.toFinset := (hS m).2 ((hf.coef.1 m).2 ⟨x, hx⟩)
  rw [hf.coef.2 _ _ _ hx (hc m hm), hg.coef.2 _ _ _ hy (hd m hm)]
  refine lt_of_le_of_lt ?_ hn
  rw [← Real.sqrt_sq_eq_abs]
  exact Real.sqrt_le_sqrt (Finset.single_le_sum (f := fun m => (c m - d m) ^ 2) (fun k _ => by positivity) hm)

/-- **C81.** Series of the same degree, index set and position which compare equal stand for functions which are close to each other: at
every point the difference of the values is at most 1e-10 times the factor times the norm of the values of the basis functions. -/
theorem C81_series_value [SymFn Φ] {f g : HSeries Φ} (hf : SeriesOk f) (hg : SeriesOk g) (hpos : f.position = g.position)
    (hs : f.index_set = g.index_set) (hdeg : f.degree = g.degree) (h : series_eq f g = .ok true) {L : List (List ℕ)}
    (hL : f.index_set.s_list f.position.dim f.degree = .ok L) {x : ℕ → ℝ} {y : List ℝ}
    (hy : y = (List.range f.position.dim).map fun i => (x (f.position.dirs.getD i 0) - f.position.mean.getD i 0) / √(entryOf f.position.cov i i)) :
    ∃ v w, seriesValue f x = .ok v ∧ seriesValue g x = .ok w ∧ |v - w| ≤ 1 / 10 ^ 10 * |SymFn.value f.factor x| *
      √(∑ j ∈ Finset.range L.length,
        basis f.position.dim (f.position.types.map fun t => if t = "fourier" then 1 else 0) (L.getD j []) y ^ 2) := by
  have hpe : pos_eq f.position g.position := by rw [hpos]; exact pos_eq_self _
  have hF : f.factor = g.factor := (C81_series_coef hf hg hs hdeg h).2.1
  obtain ⟨L0, hL0, hlen⟩ := hf.list
  obtain ⟨L', hL', hlen'⟩ := hg.list
  obtain rfl : L0 = L := Out.ok.inj (hL0.list.symm.trans hL)
  have : L' = L0 := by
    rw [← hs, ← hdeg, ← hpos] at hL'
    exact hL'.unique hL0
  subst this
  have hLg : g.index_set.s_list g.position.dim g.degree = .ok L' := hL'.list
  refine ⟨_, _, by rw [seriesValue, hL, Out.ok_bind], by rw [seriesValue, hLg, Out.ok_bind], ?_⟩
  rw [← hpos, ← hF, ← hy, ← mul_sub, abs_mul, mul_comm (1 / 10 ^ 10), mul_assoc]
  refine mul_le_mul_of_nonneg_left ?_ (abs_nonneg _)
  rw [series, series, ← Finset.sum_sub_distrib]
  have hn : √(∑ j ∈ Finset.range L'.length, (f.coeffs.getD j 0 - g.coeffs.getD j 0) ^ 2) ≤ 1 / 10 ^ 10 := by
    rw [series_eq, if_neg (not_not.2 hpe), if_neg (not_not.2 hF), broadcast, if_pos (by omega), Out.ok_bind] at h
    have h := (verySmall_iff _).1 (Out.ok.inj h)
    refine le_of_eq_of_le ?_ h.le
    rw [npNorm]
    congr 1
    have : (List.zipWith (· - ·) f.coeffs g.coeffs).map (· ^ 2) =
        (List.range L'.length).map fun j => (f.coeffs.getD j 0 - g.coeffs.getD j 0) ^ 2 := by
      refine List.ext_getElem (by simp [hlen, hlen']) fun k h1 h2 => ?_
      simp only [List.length_map, List.length_range] at h2
      simp only [List.getElem_map, List.getElem_zipWith, List.getElem_range]
      rw [List.getD_eq_getElem _ _ (by omega), List.getD_eq_getElem _ _ (by omega)]
    rw [this, Finset.sum_range, ← List.sum_ofFn]
    congr 1
    refine List.ext_getElem (by simp) fun k h1 h2 => by simp
  refine le_trans ?_ (mul_le_mul_of_nonneg_right hn (Real.sqrt_nonneg _))
  rw [← Real.sqrt_mul (Finset.sum_nonneg fun _ _ => by positivity)]
  refine Real.le_sqrt_of_sq_le ?_
  rw [sq_abs]
  refine le_trans (le_of_eq ?_) (Finset.sum_mul_sq_le_sq_mul_sq _ _ _)
  congr 1
  exact Finset.sum_congr rfl fun _ _ => by ring

/-- **C81.** Series of different degrees, none of them with a single coefficient: the comparison raises, unless it is decided by positions and
factors. -/
theorem C81_series_degrees {f g : HSeries Φ} (hf : SeriesOk f) (hg : SeriesOk g) (hs : f.index_set = g.index_set) (hdeg : f.degree ≠ g.degree)
    (hp : pos_eq f.position g.position) (hF : f.factor = g.factor) (h1 : f.coeffs.length ≠ 1) (h2 : g.coeffs.length ≠ 1) :
    series_eq f g = .throws := by
  rw [series_eq, if_neg (not_not.2 hp), if_neg (not_not.2 hF), broadcast, if_neg (lengths_ne f g hf hg hp hs hdeg), if_neg h2, if_neg h1]
  rfl

end series

/-! ## Forms -/

/-- **C81.** Forms of the same degree and index set compare equal exactly if their positions compare equal and the Frobenius norm of the
differences of the entries is less than 1e-10; for dense and sparse matrices. Missing for the full statement: the factors are not compared
(`C81_factor_false`), nor are the index sets. -/
theorem C81_varf_partial {A B : HVarf Φ} (hA : VarfOk A) (hB : VarfOk B) (hs : A.index_set = B.index_set) (hdeg : A.degree = B.degree)
    {S : Finset (List ℕ)} (hS : ∀ m, m ∈ S ↔ InSet A.index_set A.position.dim A.degree m) {a b : List ℕ → List ℕ → ℝ}
    (ha : ∀ I ∈ S, ∀ J ∈ S, Entry A I J (a I J)) (hb : ∀ I ∈ S, ∀ J ∈ S, Entry B I J (b I J)) :
    ∃ r, varf_eq A B = .ok r ∧
      (r = true ↔ pos_eq A.position B.position ∧ √(∑ I ∈ S, ∑ J ∈ S, (a I J - b I J) ^ 2) < 1 / 10 ^ 10) := by
  classical
  rw [varf_eq]
  by_cases hp : pos_eq A.position B.position
  swap
  · exact ⟨false, by rw [if_pos hp], by simp [hp]⟩
  rw [if_neg (not_not.2 hp)]
  obtain ⟨L, hL, hlen⟩ := hA.list
  obtain ⟨L', hL', hlen'⟩ := hB.list
  have hdim := dim_of_dirs hA.pos hB.pos hp.1
  have : L' = L := by
    rw [← hs, ← hdeg, ← hdim] at hL'
    exact hL'.unique hL
  subst this
  have hSL : S = L'.toFinset := by
    ext m
    rw [hS, List.mem_toFinset, hL.mem]
  have hrow : ∀ (i : ℕ) (h : i < A.matrix.length), A.matrix[i].length = L'.length := fun i h => by
    rw [hA.square _ (List.getElem_mem h), hlen]
  have hrow' : ∀ (i : ℕ) (h : i < B.matrix.length), B.matrix[i].length = L'.length := fun i h => by
    rw [hB.square _ (List.getElem_mem h), hlen']
  have hshape : A.matrix.map List.length = B.matrix.map List.length := by
    refine List.ext_getElem (by simp [hlen, hlen']) fun i h1 h2 => ?_
    rw [List.getElem_map, List.getElem_map, hrow, hrow']
  have hsub : matSub A B = .ok (List.zipWith (List.zipWith (· - ·)) A.matrix B.matrix) := by
    rw [matSub, if_pos hshape, broadcast2_same hshape, ite_self]
  have hent : List.zipWith (List.zipWith (· - ·)) A.matrix B.matrix = L'.map fun I => L'.map fun J => a I J - b I J := by
    refine List.ext_getElem (by simp [hlen, hlen']) fun i h1 h2 => ?_
    simp only [List.length_map] at h2
    have hi : i < A.matrix.length := by omega
    have hi' : i < B.matrix.length := by omega
    rw [List.getElem_zipWith, List.getElem_map]
    refine List.ext_getElem (by simp [hrow i hi, hrow' i hi']) fun j h3 h4 => ?_
    simp only [List.length_map] at h4
    have hj : j < A.matrix[i].length := by rw [hrow]; exact h4
    have hj' : j < B.matrix[i].length := by rw [hrow']; exact h4
    have hI : L'[i] ∈ S := by rw [hSL]; simp
    have hJ : L'[j] ∈ S := by rw [hSL]; simp
    rw [List.getElem_zipWith, List.getElem_map]
    rw [hA.entry.2 _ _ _ _ ((entry_iff hL.list _ _ _).2 ⟨i, j, _, by simp, by simp, List.getElem?_eq_getElem hi, List.getElem?_eq_getElem hj⟩)
        (ha _ hI _ hJ),
      hB.entry.2 _ _ _ _ ((entry_iff hL'.list _ _ _).2 ⟨i, j, _, by simp, by simp, List.getElem?_eq_getElem hi', List.getElem?_eq_getElem hj'⟩)
        (hb _ hI _ hJ)]
  refine ⟨_, by rw [hsub, Out.ok_bind], ?_⟩
  rw [verySmall_iff, hent, npNorm, List.map_flatten, List.sum_flatten, List.map_map, List.map_map, hSL, List.sum_toFinset _ hL.nodup]
  have : ∀ I, ∑ J ∈ L'.toFinset, (a I J - b I J) ^ 2 = (L'.map fun J => (a I J - b I J) ^ 2).sum :=
    fun I => List.sum_toFinset _ hL.nodup
  simp only [this, Function.comp_def, List.map_map]
  exact ⟨fun h => ⟨hp, h⟩, fun h => h.2⟩

/-- **C81.** Forms of different degrees, one of them sparse or none of them a 1 x 1 matrix: the comparison raises, unless the positions
differ. -/
theorem C81_varf_degrees {A B : HVarf Φ} (hA : VarfOk A) (hB : VarfOk B) (hs : A.index_set = B.index_set) (hdeg : A.degree ≠ B.degree)
    (hp : pos_eq A.position B.position)
    (h : A.is_sparse = true ∨ B.is_sparse = true ∨ (A.matrix.length ≠ 1 ∧ B.matrix.length ≠ 1)) : varf_eq A B = .throws := by
  have hne : A.matrix.length ≠ B.matrix.length := by
    intro e
    have h1 := hA.degree
    have h2 := hB.degree
    rw [e, dim_of_dirs hA.pos hB.pos hp.1, hs, h2] at h1
    exact hdeg (Out.ok.inj h1).symm
  rw [varf_eq, if_neg (not_not.2 hp), matSub]
  split
  · rw [if_neg]
    · rfl
    · intro e
      have := congrArg List.length e
      simp at this
      exact hne this
  · rename_i h'
    have : A.matrix.length ≠ 1 ∧ B.matrix.length ≠ 1 := by
      rcases h with h | h | h
      · simp [h] at h'
      · simp [h] at h'
      · exact h
    rw [broadcast2, if_neg hne, if_neg this.2, if_neg this.1]
    rfl

/-! ## Quadratures -/

/-- The Frobenius norm of the difference of two arrays with `d` rows and `n` columns. -/
noncomputable def arrayDist (d n : ℕ) (A B : List (List ℝ)) : ℝ :=
  √(∑ k ∈ Finset.range d, ∑ i ∈ Finset.range n, ((A.getD k []).getD i 0 - (B.getD k []).getD i 0) ^ 2)

theorem npNorm_array {d n : ℕ} {A B : List (List ℝ)} (hA : A.length = d) (hB : B.length = d) (hA' : ∀ r ∈ A, r.length = n)
    (hB' : ∀ r ∈ B, r.length = n) : npNorm (List.zipWith (List.zipWith (· - ·)) A B).flatten = arrayDist d n A B := by
  have : List.zipWith (List.zipWith (· - ·)) A B =
      (List.range d).map fun k => (List.range n).map fun i => (A.getD k []).getD i 0 - (B.getD k []).getD i 0 := by
    refine List.ext_getElem (by simp [hA, hB]) fun k h1 h2 => ?_
    simp only [List.length_map, List.length_range] at h2
    have hk : k < A.length := by omega
    have hk' : k < B.length := by omega
    have e1 := hA' _ (List.getElem_mem hk)
    have e2 := hB' _ (List.getElem_mem hk')
    rw [List.getElem_zipWith, List.getElem_map, List.getElem_range, List.getD_eq_getElem _ _ hk, List.getD_eq_getElem _ _ hk']
    refine List.ext_getElem (by simp [e1, e2]) fun i h3 h4 => ?_
    simp only [List.length_map, List.length_range] at h4
    rw [List.getElem_zipWith, List.getElem_map, List.getElem_range, List.getD_eq_getElem _ _ (by omega), List.getD_eq_getElem _ _ (by omega)]
  rw [this, npNorm, arrayDist, List.map_flatten, List.sum_flatten, List.map_map, List.map_map, Finset.sum_range, ← List.sum_ofFn]
  congr 2
  refine List.ext_getElem (by simp) fun k h1 h2 => ?_
  simp only [List.getElem_map, List.getElem_range, Function.comp_def, List.getElem_ofFn, List.map_map]
  rw [Finset.sum_range, ← List.sum_ofFn]
  congr 1
  exact List.ext_getElem (by simp) fun i h3 h4 => by simp

/-- The numbers of points of the directions of a quadrature. -/
theorem quad_shape {q : HQuad F} (hq : QuadOk q) : ∃ n, ∀ r ∈ q.nodes, r.length = n := ⟨_, hq.uniform⟩

theorem weights_rows {q : HQuad F} (hq : QuadOk q) {n : ℕ} (hn : ∀ r ∈ q.nodes, r.length = n) : ∀ r ∈ q.weights, r.length = n := by
  intro r hr
  have : r.length ∈ q.weights.map List.length := List.mem_map_of_mem hr
  rw [hq.weights] at this
  obtain ⟨s, hs, e⟩ := List.mem_map.1 this
  rw [← e]
  exact hn s hs

variable [DecidableEq F]

/-- **C81.** Quadratures with the same number of points in each direction compare equal exactly if their positions compare equal, they have
the same factor, and the Frobenius norms of the differences of nodes and weights are less than 1e-10. Missing for the full statement:
different numbers of points, see `C81_quad_points` and `C81_quad_false`. -/
theorem C81_quad_partial {q r : HQuad F} (hq : QuadOk q) (hr : QuadOk r) {n : ℕ} (hn : ∀ l ∈ q.nodes, l.length = n)
    (hn' : ∀ l ∈ r.nodes, l.length = n) : ∃ b, quad_eq q r = .ok b ∧
      (b = true ↔ pos_eq q.position r.position ∧ q.factor = r.factor ∧ arrayDist q.position.dim n q.nodes r.nodes < 1 / 10 ^ 10 ∧
        arrayDist q.position.dim n q.weights r.weights < 1 / 10 ^ 10) := by
  rw [quad_eq]
  by_cases hp : pos_eq q.position r.position
  swap
  · exact ⟨false, by rw [if_pos hp], by simp [hp]⟩
  rw [if_neg (not_not.2 hp)]
  by_cases hF : q.factor = r.factor
  swap
  · exact ⟨false, by rw [if_pos hF], by simp [hF]⟩
  rw [if_neg (not_not.2 hF)]
  have hdim := dim_of_dirs hq.pos hr.pos hp.1
  have shape : ∀ {A B : List (List ℝ)}, A.length = q.position.dim → B.length = q.position.dim → (∀ l ∈ A, l.length = n) →
      (∀ l ∈ B, l.length = n) → A.map List.length = B.map List.length := by
    intro A B h1 h2 h3 h4
    have : ∀ {A : List (List ℝ)}, A.length = q.position.dim → (∀ l ∈ A, l.length = n) → A.map List.length = List.replicate q.position.dim n :=
      fun h h' => List.eq_replicate_iff.2 ⟨by simp [h], fun x hx => by obtain ⟨l, hl, rfl⟩ := List.mem_map.1 hx; exact h' l hl⟩
    rw [this h1 h3, this h2 h4]
  have lw : q.weights.length = q.position.dim := by
    have := congrArg List.length hq.weights
    simpa [hq.dim] using this
  have lw' : r.weights.length = q.position.dim := by
    have := congrArg List.length hr.weights
    simpa [hr.dim, ← hdim] using this
  have ln' : r.nodes.length = q.position.dim := by rw [hr.dim, hdim]
  have wn := weights_rows hq hn
  have wn' := weights_rows hr hn'
  rw [broadcast2_same (shape hq.dim ln' hn hn'), Out.ok_bind, broadcast2_same (shape lw lw' wn wn'), Out.ok_bind]
  have e1 := verySmall_iff (List.zipWith (List.zipWith (· - ·)) q.nodes r.nodes).flatten
  have e2 := verySmall_iff (List.zipWith (List.zipWith (· - ·)) q.weights r.weights).flatten
  rw [npNorm_array hq.dim ln' hn hn'] at e1
  rw [npNorm_array lw lw' wn wn'] at e2
  split
  · rename_i h
    refine ⟨false, rfl, ?_⟩
    rw [e1] at h
    exact ⟨fun e => (Bool.false_ne_true e).elim, fun e => (h e.2.2.1).elim⟩
  · rename_i h
    rw [not_not, e1] at h
    refine ⟨_, rfl, ?_⟩
    rw [e2]
    exact ⟨fun h' => ⟨hp, hF, h, h'⟩, fun h' => h'.2.2.2⟩

/-- **C81.** Quadratures with different numbers of points, none of them 1: the comparison raises, unless it is decided by positions and
factors. -/
theorem C81_quad_points {q r : HQuad F} (hq : QuadOk q) (hr : QuadOk r) {n m : ℕ} (hn : ∀ l ∈ q.nodes, l.length = n)
    (hm : ∀ l ∈ r.nodes, l.length = m) (hnm : n ≠ m) (h1 : n ≠ 1) (h2 : m ≠ 1) (hp : pos_eq q.position r.position) (hF : q.factor = r.factor) :
    quad_eq q r = .throws := by
  have hdim := dim_of_dirs hq.pos hr.pos hp.1
  have hpos := hq.grid.dim_pos
  have ln' : r.nodes.length = q.nodes.length := by rw [hr.dim, hq.dim, hdim]
  rw [quad_eq, if_neg (not_not.2 hp), if_neg (not_not.2 hF), broadcast2, if_pos ln'.symm]
  cases hA : q.nodes with
  | nil => rw [hA] at hpos; simp at hpos
  | cons a A =>
    cases hB : r.nodes with
    | nil => rw [hA, hB] at ln'; simp at ln'
    | cons b B =>
      have ha := hn a (by rw [hA]; simp)
      have hb := hm b (by rw [hB]; simp)
      rw [List.zip_cons_cons, List.mapM_cons, broadcast, if_neg (by rw [ha, hb]; exact hnm), if_neg (by rw [hb]; exact h2),
        if_neg (by rw [ha]; exact h1)]
      rfl

/-! ## What the comparisons do not see -/

theorem series1 {coeffs : List ℝ} {d : ℕ} (hd : d ≤ 1) (h : coeffs.length = d + 1) (factor : ℕ) : ∃ f : HSeries ℕ, SeriesOk f ∧ f.coeffs = coeffs ∧
    f.position = pos0 ∧ f.factor = factor ∧ f.index_set = .triangle ∧ (∀ m, Indices f m ↔ InSet .triangle 1 d m) ∧
    (∀ c, coeffs[1]? = some c → Coef f [1] c) ∧ ∀ c, coeffs[0]? = some c → Coef f [0] c := by
  have hu := usable_small .triangle (show 1 ≤ pos0.dim by decide) (by decide) (show d ≤ 250 by omega)
  obtain ⟨L, hL⟩ := iterOk_exists hu.toSized.fits'
  have e : L = (List.range (d + 1)).map fun i => [i] := by
    rcases d with _ | _ | d
    · exact hL.runs.unique (.last rfl)
    · exact hL.runs.unique (.next rfl (.last rfl))
    · omega
  obtain ⟨f, -, okf, f1, f2, f3, f4, f5, f6⟩ := mkSeries_ok (coeffs := coeffs) (factor := factor) pos0_ok (by decide) hu hL (by rw [e, h]; simp)
  refine ⟨f, okf, f1, f2, f3, f4, fun m => ?_, fun c hc => ?_, fun c hc => ?_⟩
  · rw [Indices, f2, f4]; exact f6 _ _
  · refine (coef_iff (by rw [f2, f4]; exact f5.list) _ _).2 ⟨1, ?_, by rw [f1]; exact hc⟩
    obtain ⟨hk, -⟩ := List.getElem?_eq_some_iff.1 hc
    have : d = 1 := by omega
    rw [e, this]
    rfl
  · refine (coef_iff (by rw [f2, f4]; exact f5.list) _ _).2 ⟨0, ?_, by rw [f1]; exact hc⟩
    rw [e]
    simp

/-- **C81, negation.** A series with a single coefficient compares equal to a series of degree 1 with this coefficient twice. -/
theorem C81_broadcast_false : ∃ f g : HSeries ℕ, SeriesOk f ∧ SeriesOk g ∧ f.position = g.position ∧ f.factor = g.factor ∧
    f.index_set = g.index_set ∧ Coef f [1] 1 ∧ ¬ Indices g [1] ∧ series_eq f g = .ok true := by
  obtain ⟨f, okf, f1, f2, f3, f4, f5, f6, -⟩ := series1 (coeffs := [1, 1]) (d := 1) le_rfl rfl 0
  obtain ⟨g, okg, g1, g2, g3, g4, g5, -⟩ := series1 (coeffs := [1]) (d := 0) (by omega) rfl 0
  refine ⟨f, g, okf, okg, by rw [f2, g2], by rw [f3, g3], by rw [f4, g4], f6 1 rfl, ?_, ?_⟩
  · rw [g5]
    intro h
    exact absurd h.2 (by decide)
  · rw [series_eq, if_neg (not_not.2 (by rw [f2, g2]; exact pos_eq_self _)), if_neg (by rw [f3, g3]; simp), f1, g1]
    simp only [broadcast, List.length_cons, List.length_nil]
    simp only [Nat.reduceAdd, OfNat.ofNat_ne_one, if_false, if_true, Out.ok_bind]
    rw [verySmall_zero]
    simp

/-- **C81, negation.** The index sets are not compared: a series for the triangle of degree 7 compares equal to a series for the cube of
degree 5, which has the same number of coefficients. Only the former has a coefficient at `(7, 0)`. -/
theorem C81_index_set_false : ∃ f g : HSeries ℕ, SeriesOk f ∧ SeriesOk g ∧ f.position = g.position ∧ f.factor = g.factor ∧
    (∃ c, Coef f [7, 0] c ∧ c = 1) ∧ ¬ Indices g [7, 0] ∧ series_eq f g = .ok true := by
  have hut := usable_small .triangle (show 1 ≤ pos01.dim by decide) (by decide) (show 7 ≤ 250 by decide)
  have huc := usable_small .cube (show 1 ≤ pos01.dim by decide) (by decide) (show 5 ≤ 250 by decide)
  obtain ⟨L, hL⟩ := iterOk_exists hut.toSized.fits'
  obtain ⟨M, hM⟩ := iterOk_exists huc.toSized.fits'
  have eL : L.length = 36 := hL.length_triangle
  have eM : M.length = 36 := hM.length_cube
  obtain ⟨f, -, okf, f1, f2, f3, f4, f5, f6⟩ := mkSeries_ok (coeffs := List.replicate 36 1) (factor := (0 : ℕ)) pos01_ok (by decide) hut hL
    (by simp [eL])
  obtain ⟨g, -, okg, g1, g2, g3, g4, g5, g6⟩ := mkSeries_ok (coeffs := List.replicate 36 1) (factor := (0 : ℕ)) pos01_ok (by decide) huc hM
    (by simp [eM])
  refine ⟨f, g, okf, okg, by rw [f2, g2], by rw [f3, g3], ?_, ?_, ?_⟩
  · have hi : Indices f [7, 0] := by rw [Indices, f2, f4]; exact (f6 _ _).2 ⟨rfl, by decide⟩
    obtain ⟨c, hc⟩ := (okf.coef.1 _).1 hi
    refine ⟨c, hc, ?_⟩
    obtain ⟨_, k, -, -, h⟩ := hc
    rw [f1] at h
    exact (List.mem_replicate.1 (List.mem_of_getElem? h)).2
  · intro h
    rw [Indices, g2, g4] at h
    have := ((g6 _ _).1 h).2
    exact absurd this (by decide)
  · rw [series_eq, if_neg (not_not.2 (by rw [f2, g2]; exact pos_eq_self _)), if_neg (by rw [f3, g3]; simp), f1, g1, broadcast, if_pos rfl,
      Out.ok_bind, verySmall_zero (zipWith_sub_self _)]

/-- **C81, negation.** The comparison of series is not transitive. -/
theorem C81_transitive_false : ∃ f g h : HSeries ℕ, SeriesOk f ∧ SeriesOk g ∧ SeriesOk h ∧ series_eq f g = .ok true ∧ series_eq g h = .ok true ∧
    series_eq f h = .ok false := by
  obtain ⟨f, okf, f1, f2, f3, -⟩ := series1 (coeffs := [0]) (d := 0) (by omega) rfl 0
  obtain ⟨g, okg, g1, g2, g3, -⟩ := series1 (coeffs := [6 / 10 ^ 11]) (d := 0) (by omega) rfl 0
  obtain ⟨h, okh, h1, h2, h3, -⟩ := series1 (coeffs := [12 / 10 ^ 11]) (d := 0) (by omega) rfl 0
  have key : ∀ {f g : HSeries ℕ} {x y : ℝ}, f.coeffs = [x] → g.coeffs = [y] → f.position = g.position → f.factor = g.factor →
      series_eq f g = .ok (verySmall [x - y]) := by
    intro f g x y e1 e2 e3 e4
    rw [series_eq, if_neg (not_not.2 (by rw [e3]; exact pos_eq_self _)), if_neg (by rw [e4]; simp), e1, e2, broadcast, if_pos (by rfl), Out.ok_bind]
    rfl
  have abs1 : ∀ x : ℝ, npNorm [x] = |x| := fun x => by simp [npNorm, Real.sqrt_sq_eq_abs]
  refine ⟨f, g, h, okf, okg, okh, ?_, ?_, ?_⟩
  · rw [key f1 g1 (by rw [f2, g2]) (by rw [f3, g3]), (verySmall_iff _).2]
    rw [abs1, abs_lt]
    norm_num
  · rw [key g1 h1 (by rw [g2, h2]) (by rw [g3, h3]), (verySmall_iff _).2]
    rw [abs1, abs_lt]
    norm_num
  · rw [key f1 h1 (by rw [f2, h2]) (by rw [f3, h3])]
    congr 1
    rw [← Bool.not_eq_true, verySmall_iff, abs1, not_lt, le_abs]
    norm_num

/-- **C81, negation.** The factors of forms are not compared. -/
theorem C81_factor_false : ∃ A B : HVarf ℕ, VarfOk A ∧ VarfOk B ∧ A.position = B.position ∧ A.index_set = B.index_set ∧
    (∀ x, SymFn.value A.factor x = 1) ∧ (∀ x, SymFn.value B.factor x = 2) ∧ varf_eq A B = .ok true := by
  have hu0 := usable_small .triangle (show 1 ≤ pos0.dim by decide) (by decide) (show 0 ≤ 250 by decide)
  obtain ⟨L0, hL0⟩ := iterOk_exists hu0.toSized.fits'
  have e0 : L0 = [[0]] := hL0.runs.unique (.last rfl)
  obtain ⟨A, -, okA, a0, a1, a2, a3, a4, -⟩ := mkVarf_ok (b := false) (M := [[1]]) (factor := (0 : ℕ)) pos0_ok (by decide) hu0 hL0 (by rw [e0]; rfl)
    (by simp)
  obtain ⟨B, -, okB, b0, b1, b2, b3, b4, -⟩ := mkVarf_ok (b := false) (M := [[1]]) (factor := (1 : ℕ)) pos0_ok (by decide) hu0 hL0 (by rw [e0]; rfl)
    (by simp)
  refine ⟨A, B, okA, okB, by rw [a2, b2], by rw [a4, b4], ?_, ?_, ?_⟩
  · intro x
    rw [a3]
    show ((0 : ℕ) : ℝ) + 1 = 1
    norm_num
  · intro x
    rw [b3]
    show ((1 : ℕ) : ℝ) + 1 = 2
    norm_num
  · rw [varf_eq, if_neg (not_not.2 (by rw [a2, b2]; exact pos_eq_self _)), matSub, a0, b0, a1, b1, if_neg (by simp), broadcast2_same rfl,
      Out.ok_bind, verySmall_zero (zipWith2_sub_self _)]

/-- `n` times the node `0` with weight 1. -/
noncomputable def quadPts (n : ℕ) : HQuad ℝ := ⟨[List.replicate n 0], [List.replicate n 1], pos0, ⟨[0], {0}⟩⟩

theorem quadPts_ok {n : ℕ} (h : 0 < n) (h' : n < 2 ^ 32) : QuadOk (quadPts n) where
  pos := pos0_ok
  diag := pos0_diagonal
  dim := rfl
  grid := ⟨by simp [quadPts], by simp [quadPts]; omega, ⟨rfl, by simp [quadPts, HQuad.do_fourier, pos0]⟩,
    by simpa [quadPts, gridPoints, cartesian] using h'⟩
  weights := by simp [quadPts]
  uniform := by simp [quadPts, uniform]
  factor := ⟨by simp [quadPts], by simp [quadPts]⟩
  factorDirs := rfl

/-- **C81, negation.** A quadrature with one point compares equal to a quadrature with two copies of this point, although the integrals of
the constant function differ. -/
theorem C81_quad_false [Interp ℝ] {eig : Eig} (he : EigDiag eig) : ∃ q r : HQuad ℝ, QuadOk q ∧ QuadOk r ∧ quad_eq q r = .ok true ∧
    quad_integrate 1 eig q one0 = .ok 1 ∧ quad_integrate 1 eig r one0 = .ok 2 := by
  have h1 := quadPts_ok (n := 1) (by norm_num) (by norm_num)
  have h2 := quadPts_ok (n := 2) (by norm_num) (by norm_num)
  refine ⟨quadPts 1, quadPts 2, h1, h2, ?_, ?_, ?_⟩
  · rw [quad_eq, if_neg (not_not.2 (show pos_eq (quadPts 1).position (quadPts 2).position from pos_eq_self pos0)), if_neg (by simp [quadPts])]
    have e : ∀ x : ℝ, broadcast2 (· - ·) [List.replicate 1 x] [List.replicate 2 x] = .ok [[x - x, x - x]] := fun x => by
      rw [broadcast2, if_pos (by rfl), List.zip_cons_cons, List.zip_nil_right, List.mapM_cons, List.mapM_nil, broadcast,
        if_neg (by simp), if_neg (by simp), if_pos (by simp)]
      rfl
    show (broadcast2 _ [List.replicate 1 (0 : ℝ)] [List.replicate 2 0] >>= _) = _
    rw [e, Out.ok_bind, verySmall_zero (by simp), if_neg (by simp)]
    show (broadcast2 _ [List.replicate 1 (1 : ℝ)] [List.replicate 2 1] >>= _) = _
    rw [e, Out.ok_bind, verySmall_zero (by simp)]
  · rw [C64_direct he h1 (fun _ => le_refl 1) one0_ok (by simp [one0, quadPts, pos0])]
    simp [quadrature, quadPts, gridPoints, gridWeights, cartesian, SFn.value, productValue, one0]
  · rw [C64_direct he h2 (fun _ => le_refl 1) one0_ok (by simp [one0, quadPts, pos0])]
    simp [quadrature, quadPts, gridPoints, gridWeights, cartesian, SFn.value, productValue, one0, Finset.sum_range_succ, List.replicate_succ]
    norm_num

/-! ## The hypotheses can be met -/

/-- Two different positions which compare equal: the means differ by 1e-11. -/
example : ∃ p q : Position, PosOk p ∧ PosOk q ∧ p.mean ≠ q.mean ∧ pos_eq p q := by
  refine ⟨pos0, { pos0 with mean := [1 / 10 ^ 11] }, pos0_ok, ⟨rfl, rfl, rfl, by simp [pos0], rfl, by decide⟩, ?_, rfl, ?_, ?_, rfl⟩
  · intro h
    have h : (0 : ℝ) = 1 / 10 ^ 11 := (List.cons.inj h).1
    norm_num at h
  · have : (1 : ℝ) / 10 ^ 11 < 1 / 10 ^ 10 := by norm_num
    simpa [pos0, Real.sqrt_sq_eq_abs] using this
  · exact (pos_eq_self pos0).2.2.1

/-- Two series of degree 1 whose comparison gives `True`, and two whose comparison gives `False`, with the coefficients at the multi-indices as
functions. -/
example : ∃ f g h : HSeries ℕ, SeriesOk f ∧ SeriesOk g ∧ SeriesOk h ∧ f.index_set = g.index_set ∧ f.degree = g.degree ∧
    series_eq f g = .ok true ∧ series_eq f h = .ok false := by
  obtain ⟨f, okf, f1, f2, f3, f4, f5, -⟩ := series1 (coeffs := [3, 4]) (d := 1) (by omega) rfl 0
  obtain ⟨h, okh, h1, h2, h3, h4, h5, -⟩ := series1 (coeffs := [3, 5]) (d := 1) (by omega) rfl 0
  refine ⟨f, f, h, okf, okf, okh, rfl, rfl, (C81_reflexive (F := ℕ) f ⟨false, [], pos0, 0, 0, .cube⟩ ⟨[], [], pos0, ⟨[], 0⟩⟩).1, ?_⟩
  rw [series_eq, if_neg (not_not.2 (by rw [f2, h2]; exact pos_eq_self _)), if_neg (by rw [f3, h3]; simp), f1, h1, broadcast, if_pos (by rfl),
    Out.ok_bind]
  congr 1
  rw [← Bool.not_eq_true, verySmall_iff]
  norm_num [npNorm]

/-- A comparison which raises: degrees 0, 1 and 2 in two dimensions have 1, 3 and 6 coefficients. -/
example : ∃ f g : HSeries ℕ, SeriesOk f ∧ SeriesOk g ∧ f.index_set = g.index_set ∧ pos_eq f.position g.position ∧ f.factor = g.factor ∧
    series_eq f g = .throws := by
  have hu1 := usable_small .triangle (show 1 ≤ pos01.dim by decide) (by decide) (show 1 ≤ 250 by decide)
  have hu2 := usable_small .triangle (show 1 ≤ pos01.dim by decide) (by decide) (show 2 ≤ 250 by decide)
  obtain ⟨L, hL⟩ := iterOk_exists hu1.toSized.fits'
  obtain ⟨M, hM⟩ := iterOk_exists hu2.toSized.fits'
  have eL : L.length = 3 := hL.length_triangle
  have eM : M.length = 6 := hM.length_triangle
  obtain ⟨f, -, okf, f1, f2, f3, f4, f5, f6⟩ := mkSeries_ok (coeffs := List.replicate 3 1) (factor := (0 : ℕ)) pos01_ok (by decide) hu1 hL
    (by simp [eL])
  obtain ⟨g, -, okg, g1, g2, g3, g4, g5, g6⟩ := mkSeries_ok (coeffs := List.replicate 6 1) (factor := (0 : ℕ)) pos01_ok (by decide) hu2 hM
    (by simp [eM])
  have hp : pos_eq f.position g.position := by rw [f2, g2]; exact pos_eq_self _
  have hdeg : f.degree ≠ g.degree := by
    intro e
    rw [← e] at g5
    have := congrArg List.length (g5.unique f5)
    omega
  exact ⟨f, g, okf, okg, by rw [f4, g4], hp, by rw [f3, g3],
    C81_series_degrees okf okg (by rw [f4, g4]) hdeg hp (by rw [f3, g3]) (by simp [f1]) (by simp [g1])⟩

/-- Quadratures with two and three points. -/
example : quad_eq (quadPts 2) (quadPts 3) = .throws :=
  C81_quad_points (n := 2) (m := 3) (quadPts_ok (by norm_num) (by norm_num)) (quadPts_ok (by norm_num) (by norm_num)) (by simp [quadPts]) (by simp [quadPts])
    (by norm_num) (by norm_num) (by norm_num) (pos_eq_self _) rfl

/-- Quadratures whose weights differ by 1e-11 compare equal. -/
example : quad_eq (quadW 1) (quadW (1 + 1 / 10 ^ 11)) = .ok true := by
  obtain ⟨b, e, h⟩ := C81_quad_partial (n := 1) (quadW_ok 1) (quadW_ok (1 + 1 / 10 ^ 11)) (by simp [quadW]) (by simp [quadW])
  rw [e, h.2]
  refine ⟨pos_eq_self _, rfl, ?_, ?_⟩
  · simp [arrayDist, quadW]
  · have : (1 : ℝ) / 10 ^ 11 < 1 / 10 ^ 10 := by norm_num
    simpa [arrayDist, quadW, Finset.sum_range_succ, Real.sqrt_sq_eq_abs] using this

end Hermipy.Props
