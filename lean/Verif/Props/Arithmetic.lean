import Verif.Lemmas.Arithmetic
import Verif.Props.Series

/-! # C60, C61: arithmetic of series and forms, application of a form -/

namespace Hermipy.Props
open Hermipy Hermipy.Spec
variable {Φ : Type} [DecidableEq Φ]

/-! ## Series -/

/-- The result `h` of an operation has the attributes of `f`. -/
structure Alike (f h : HSeries Φ) : Prop where
  ok : SeriesOk h
  position : h.position = f.position
  degree : h.degree = f.degree
  factor : h.factor = f.factor
  index_set : h.index_set = f.index_set

theorem series_map_ok (f : HSeries Φ) (hf : SeriesOk f) (φ : ℝ → ℝ) :
    ∃ h, mkSeries (f.coeffs.map φ) f.position f.factor f.index_set = .ok h ∧ Alike f h ∧ ∀ m c, Coef h m c ↔ ∃ a, Coef f m a ∧ c = φ a := by
  obtain ⟨L, hL, hlen⟩ := hf.list
  obtain ⟨e, ok⟩ := remake_series (coeffs := f.coeffs.map φ) (factor := f.factor) hf.pos hf.dirs hf.usable hL (by simp [hlen])
    (by rw [← hlen]; exact hf.degree)
  exact ⟨_, e, ⟨ok, rfl, rfl, rfl, rfl⟩, coef_map φ⟩

/-- **C60.** Operations with a number act on each coefficient. (Adding a number adds it to all the coefficients.) -/
theorem C60_series_scalar (f : HSeries Φ) (hf : SeriesOk f) (c : ℝ) :
    (∃ h, series_mul_scalar f c = .ok h ∧ Alike f h ∧ ∀ m y, Coef h m y ↔ ∃ a, Coef f m a ∧ y = a * c) ∧
    (∃ h, series_add_scalar f c = .ok h ∧ Alike f h ∧ ∀ m y, Coef h m y ↔ ∃ a, Coef f m a ∧ y = a + c) ∧
    (∃ h, series_neg f = .ok h ∧ Alike f h ∧ ∀ m y, Coef h m y ↔ ∃ a, Coef f m a ∧ y = -a) ∧
    (∃ h, series_div f c = .ok h ∧ Alike f h ∧ ∀ m y, Coef h m y ↔ ∃ a, Coef f m a ∧ y = a / c) := by
  refine ⟨series_map_ok f hf _, series_map_ok f hf _, ?_, series_map_ok f hf _⟩
  obtain ⟨h, e, h1, h2⟩ := series_map_ok f hf (· * -1)
  exact ⟨h, e, h1, fun m y => by rw [h2]; simp⟩

/-- Two series of the same degree: the coefficients are combined. -/
theorem series_add_ok (f g : HSeries Φ) (hf : SeriesOk f) (hg : SeriesOk g) (hp : pos_eq f.position g.position)
    (hs : f.index_set = g.index_set) (hfac : f.factor = g.factor) (hdeg : f.degree = g.degree) :
    ∃ h, series_add f g = .ok h ∧ Alike f h ∧ ∀ m y, Coef h m y ↔ ∃ a b, Coef f m a ∧ Coef g m b ∧ y = a + b := by
  obtain ⟨L, hL, hlen⟩ := hf.list
  obtain ⟨L', hL', hlen'⟩ := hg.list
  have hdim := dim_of_dirs hf.pos hg.pos hp.1
  have : L' = L := by
    rw [← hs, ← hdeg, ← hdim] at hL'
    exact hL'.unique hL
  subst this
  have hcl : f.coeffs.length = g.coeffs.length := by omega
  obtain ⟨e, ok⟩ := remake_series (coeffs := List.zipWith (· + ·) f.coeffs g.coeffs) (factor := f.factor) hf.pos hf.dirs hf.usable hL
    (by simp [hlen, hlen']) (by rw [← hlen]; exact hf.degree)
  refine ⟨_, ?_, ⟨ok, rfl, rfl, rfl, rfl⟩, ?_⟩
  · rw [series_add, if_neg (by tauto), broadcast, if_pos hcl, Out.ok_bind, e]
  · intro m y
    rw [coef_iff (by exact hL.list), ]
    constructor
    · rintro ⟨k, h1, h2⟩
      have h2 : (List.zipWith (· + ·) f.coeffs g.coeffs)[k]? = some y := h2
      rw [List.getElem?_zipWith] at h2
      obtain ⟨hk, -⟩ := List.getElem?_eq_some_iff.1 h1
      rw [List.getElem?_eq_getElem (by omega), List.getElem?_eq_getElem (by omega)] at h2
      exact ⟨_, _, (coef_iff hL.list _ _).2 ⟨k, h1, List.getElem?_eq_getElem (by omega)⟩,
        (coef_iff hL'.list _ _).2 ⟨k, h1, List.getElem?_eq_getElem (by omega)⟩, (Option.some.inj h2).symm⟩
    · rintro ⟨a, b, ha, hb, rfl⟩
      obtain ⟨k, h1, h2⟩ := (coef_iff hL.list _ _).1 ha
      obtain ⟨k', h1', h2'⟩ := (coef_iff hL'.list _ _).1 hb
      have : k' = k := by
        obtain ⟨hk, e⟩ := List.getElem?_eq_some_iff.1 h1
        obtain ⟨hk', e'⟩ := List.getElem?_eq_some_iff.1 h1'
        exact (hL.nodup.getElem_inj_iff).1 (e'.trans e.symm)
      subst this
      refine ⟨k', h1, ?_⟩
      show (List.zipWith (· + ·) f.coeffs g.coeffs)[k']? = _
      rw [List.getElem?_zipWith, h2, h2']

/-- **C60.** Sums and differences of two series of the same degree are coefficientwise. Missing for the full statement: series of
different degrees are not always rejected, see `C60_degrees`. -/
theorem C60_series_partial (f g : HSeries Φ) (hf : SeriesOk f) (hg : SeriesOk g) (hp : pos_eq f.position g.position)
    (hs : f.index_set = g.index_set) (hfac : f.factor = g.factor) (hdeg : f.degree = g.degree) :
    (∃ h, series_add f g = .ok h ∧ Alike f h ∧ ∀ m y, Coef h m y ↔ ∃ a b, Coef f m a ∧ Coef g m b ∧ y = a + b) ∧
    (∃ h, series_sub f g = .ok h ∧ Alike f h ∧ ∀ m y, Coef h m y ↔ ∃ a b, Coef f m a ∧ Coef g m b ∧ y = a - b) := by
  refine ⟨series_add_ok f g hf hg hp hs hfac hdeg, ?_⟩
  obtain ⟨g', e, h1, h2⟩ := series_map_ok g hg (· * -1)
  obtain ⟨h, e', h3, h4⟩ := series_add_ok f g' hf h1.ok (by rw [h1.position]; exact hp) (by rw [h1.index_set]; exact hs)
    (by rw [h1.factor]; exact hfac) (by rw [h1.degree]; exact hdeg)
  refine ⟨h, ?_, h3, ?_⟩
  · rw [series_sub, series_mul_scalar, e, Out.ok_bind, e']
  · intro m y
    rw [h4]
    constructor
    · rintro ⟨a, b', ha, hb, rfl⟩
      obtain ⟨b, hb', rfl⟩ := (h2 _ _).1 hb
      exact ⟨a, b, ha, hb', by ring⟩
    · rintro ⟨a, b, ha, hb, rfl⟩
      exact ⟨a, _, ha, (h2 _ _).2 ⟨b, hb, rfl⟩, by ring⟩

/-- **C60.** Series with different positions, index sets or factors are rejected. -/
theorem C60_series_rejects (f g : HSeries Φ) (hg : SeriesOk g)
    (h : ¬ pos_eq f.position g.position ∨ f.index_set ≠ g.index_set ∨ f.factor ≠ g.factor) :
    series_add f g = .throws ∧ series_sub f g = .throws := by
  constructor
  · rw [series_add, if_pos h]
  · obtain ⟨g', e, h1, h2⟩ := series_map_ok g hg (· * -1)
    rw [series_sub, series_mul_scalar, e, Out.ok_bind, series_add, if_pos]
    rw [h1.position, h1.index_set, h1.factor]
    exact h

omit [DecidableEq Φ] in
/-- The degree of a series determines the number of its coefficients, and conversely. -/
theorem lengths_ne (f g : HSeries Φ) (hf : SeriesOk f) (hg : SeriesOk g) (hp : pos_eq f.position g.position)
    (hs : f.index_set = g.index_set) (hdeg : f.degree ≠ g.degree) : f.coeffs.length ≠ g.coeffs.length := by
  intro e
  have h1 := hf.degree
  have h2 := hg.degree
  rw [e, dim_of_dirs hf.pos hg.pos hp.1, hs, h2] at h1
  exact hdeg (Out.ok.inj h1).symm

/-- **C60.** Series of different degrees: the sum is rejected exactly if none of the two has a single coefficient. Otherwise the single
coefficient is added to every coefficient of the other one. -/
theorem C60_degrees (f g : HSeries Φ) (hf : SeriesOk f) (hg : SeriesOk g) (hp : pos_eq f.position g.position)
    (hs : f.index_set = g.index_set) (hfac : f.factor = g.factor) (hdeg : f.degree ≠ g.degree) :
    (f.coeffs.length ≠ 1 → g.coeffs.length ≠ 1 → series_add f g = .throws) ∧
    (∀ c, g.coeffs = [c] → ∃ h, series_add f g = .ok h ∧ Alike f h ∧ ∀ m y, Coef h m y ↔ ∃ a, Coef f m a ∧ y = a + c) := by
  have hne := lengths_ne f g hf hg hp hs hdeg
  constructor
  · intro h1 h2
    rw [series_add, if_neg (by tauto), broadcast, if_neg hne, if_neg h2, if_neg h1]
    rfl
  · intro c hc
    obtain ⟨h, e, h1, h2⟩ := series_map_ok f hf (· + c)
    refine ⟨h, ?_, h1, h2⟩
    rw [series_add, if_neg (by tauto), broadcast, if_neg hne, if_pos (by rw [hc]; rfl), Out.ok_bind, hc, ← e]
    rfl

/-- A position is equal to itself. -/
theorem pos_eq_self (p : Position) : pos_eq p p := by
  refine ⟨rfl, ?_, ?_, rfl⟩
  · have : (List.zipWith (· - ·) p.mean p.mean).map (· ^ 2) = List.replicate p.mean.length (0 : ℝ) := by
      rw [List.eq_replicate_iff]
      refine ⟨by simp, ?_⟩
      intro b hb
      obtain ⟨a, ha, rfl⟩ := List.mem_map.1 hb
      obtain ⟨i, hi, rfl⟩ := List.getElem_of_mem ha
      simp
    rw [this]
    simp
  · simp only [sub_self]
    rw [show (Matrix.of fun (_ _ : Fin p.dim) => (0 : ℝ)) = 0 from rfl, map_zero, norm_zero]
    norm_num

/-- **C60, negation.** A series of degree 0 is not rejected: its coefficient is added to both coefficients of a series of degree 1. -/
theorem C60_false : ∃ f g h : HSeries ℕ, SeriesOk f ∧ SeriesOk g ∧ f.position = g.position ∧ f.index_set = g.index_set ∧
    f.factor = g.factor ∧ Indices f [1] ∧ ¬ Indices g [1] ∧ series_add f g = .ok h ∧ Coef f [1] 0 ∧ Coef g [0] 5 ∧ Coef h [1] 5 := by
  have hu1 := usable_small .triangle (show 1 ≤ pos0.dim by decide) (by decide) (show 1 ≤ 250 by decide)
  have hu0 := usable_small .triangle (show 1 ≤ pos0.dim by decide) (by decide) (show 0 ≤ 250 by decide)
  obtain ⟨L1, hL1⟩ := iterOk_exists hu1.toSized.fits'
  obtain ⟨L0, hL0⟩ := iterOk_exists hu0.toSized.fits'
  have e1 : L1 = [[0], [1]] := hL1.runs.unique (.next rfl (.last rfl))
  have e0 : L0 = [[0]] := hL0.runs.unique (.last rfl)
  obtain ⟨f, -, okf, f1, f2, f3, f4, f5, f6⟩ := mkSeries_ok (coeffs := [0, 0]) (factor := (0 : ℕ)) pos0_ok (by decide) hu1 hL1 (by rw [e1]; rfl)
  obtain ⟨g, -, okg, g1, g2, g3, g4, g5, g6⟩ := mkSeries_ok (coeffs := [5]) (factor := (0 : ℕ)) pos0_ok (by decide) hu0 hL0 (by rw [e0]; rfl)
  have hif : Indices f [1] := by rw [Indices, f2, f4]; exact (f6 _ _).2 ⟨rfl, by decide⟩
  have hig : ¬ Indices g [1] := by rw [Indices, g2, g4]; intro h; exact absurd ((g6 _ _).1 h).2 (by decide)
  have hcf : Coef f [1] 0 := (coef_iff (by rw [f2, f4]; exact f5.list) _ _).2 ⟨1, by rw [e1]; rfl, by rw [f1]; rfl⟩
  have hcg : Coef g [0] 5 := (coef_iff (by rw [g2, g4]; exact g5.list) _ _).2 ⟨0, by rw [e0]; rfl, by rw [g1]; rfl⟩
  obtain ⟨-, h2⟩ := C60_degrees f g okf okg (by rw [f2, g2]; exact pos_eq_self _) (by rw [f4, g4]) (by rw [f3, g3]) (by
    intro e
    rw [Indices, e, f2, f4, ← g2, ← g4] at hif
    exact hig hif)
  obtain ⟨h, e, -, h3⟩ := h2 5 g1
  exact ⟨f, g, h, okf, okg, by rw [f2, g2], by rw [f4, g4], by rw [f3, g3], hif, hig, e, hcf, hcg, (h3 _ _).2 ⟨0, hcf, by norm_num⟩⟩

/-! ## Forms -/

/-- The result `B` of an operation has the attributes of `A`. -/
structure AlikeVarf (A B : HVarf Φ) : Prop where
  ok : VarfOk B
  position : B.position = A.position
  degree : B.degree = A.degree
  factor : B.factor = A.factor
  index_set : B.index_set = A.index_set

theorem varf_map_ok (A : HVarf Φ) (hA : VarfOk A) (φ : ℝ → ℝ) :
    ∃ B, mkVarf A.is_sparse (A.matrix.map fun r => r.map φ) A.position A.factor A.index_set = .ok B ∧ AlikeVarf A B ∧
      B.is_sparse = A.is_sparse ∧ ∀ I J c, Entry B I J c ↔ ∃ a, Entry A I J a ∧ c = φ a := by
  obtain ⟨L, hL, hlen⟩ := hA.list
  obtain ⟨e, ok⟩ := remake_varf (b := A.is_sparse) (M := A.matrix.map fun r => r.map φ) (factor := A.factor) hA.pos hA.dirs hA.usable hL
    (by simp [hlen]) (by
      intro r hr
      obtain ⟨r, hr', rfl⟩ := List.mem_map.1 hr
      simpa using hA.square r hr') (by rw [← hlen]; exact hA.degree)
  exact ⟨_, e, ⟨ok, rfl, rfl, rfl, rfl⟩, rfl, entry_map φ⟩

/-- **C60.** Operations with a number act on each entry; a nonzero number cannot be added to a sparse form. -/
theorem C60_varf_scalar (A : HVarf Φ) (hA : VarfOk A) (c : ℝ) :
    (∃ B, varf_mul_scalar A c = .ok B ∧ AlikeVarf A B ∧ ∀ I J y, Entry B I J y ↔ ∃ a, Entry A I J a ∧ y = a * c) ∧
    (A.is_sparse = false → ∃ B, varf_add_scalar A c = .ok B ∧ AlikeVarf A B ∧ ∀ I J y, Entry B I J y ↔ ∃ a, Entry A I J a ∧ y = a + c) ∧
    (A.is_sparse = true → c ≠ 0 → varf_add_scalar A c = .throws) := by
  refine ⟨?_, fun h => ?_, fun h hc => ?_⟩
  · obtain ⟨B, e, h1, -, h2⟩ := varf_map_ok A hA (· * c)
    exact ⟨B, e, h1, h2⟩
  · obtain ⟨B, e, h1, -, h2⟩ := varf_map_ok A hA (· + c)
    refine ⟨B, ?_, h1, h2⟩
    rw [varf_add_scalar, if_neg (by simp [h]), e]
  · rw [varf_add_scalar, if_pos ⟨h, hc⟩]

theorem varf_add_ok (A B : HVarf Φ) (hA : VarfOk A) (hB : VarfOk B) (hp : pos_eq A.position B.position)
    (hs : A.index_set = B.index_set) (hfac : A.factor = B.factor) (hdeg : A.degree = B.degree) :
    ∃ C, varf_add A B = .ok C ∧ AlikeVarf A C ∧ C.is_sparse = (A.is_sparse && B.is_sparse) ∧
      ∀ I J y, Entry C I J y ↔ ∃ a b, Entry A I J a ∧ Entry B I J b ∧ y = a + b := by
  obtain ⟨L, hL, hlen⟩ := hA.list
  obtain ⟨L', hL', hlen'⟩ := hB.list
  have hdim := dim_of_dirs hA.pos hB.pos hp.1
  have : L' = L := by
    rw [← hs, ← hdeg, ← hdim] at hL'
    exact hL'.unique hL
  subst this
  have hrow : ∀ (i : ℕ) (h : i < A.matrix.length), A.matrix[i].length = L'.length := fun i h => by
    rw [hA.square _ (List.getElem_mem h), hlen]
  have hrow' : ∀ (i : ℕ) (h : i < B.matrix.length), B.matrix[i].length = L'.length := fun i h => by
    rw [hB.square _ (List.getElem_mem h), hlen']
  have hsum : (if A.is_sparse || B.is_sparse then sparseAdd A.matrix B.matrix else broadcast2 (· + ·) A.matrix B.matrix) =
      .ok (List.zipWith (List.zipWith (· + ·)) A.matrix B.matrix) := by
    split
    · rw [sparseAdd, if_pos]
      refine List.ext_getElem (by simp [hlen, hlen']) fun i h1 h2 => ?_
      rw [List.getElem_map, List.getElem_map, hrow, hrow']
    · rw [broadcast2, if_pos (by omega), mapM_ok (g := fun r => List.zipWith (· + ·) r.1 r.2)]
      · rw [List.zip, List.map_zipWith]
      · intro r hr
        obtain ⟨i, hi, rfl⟩ := List.getElem_of_mem hr
        rw [broadcast, if_pos]
        rw [List.getElem_zip]
        simp at hi
        rw [hrow, hrow']
  obtain ⟨e, ok⟩ := remake_varf (b := A.is_sparse && B.is_sparse) (M := List.zipWith (List.zipWith (· + ·)) A.matrix B.matrix)
    (factor := A.factor) hA.pos hA.dirs hA.usable hL (by simp [hlen, hlen']) (by
      intro r hr
      obtain ⟨i, hi, rfl⟩ := List.getElem_of_mem hr
      simp at hi
      rw [List.getElem_zipWith, List.length_zipWith, hrow, hrow']
      simp [hlen, hlen']) (by rw [← hlen]; exact hA.degree)
  refine ⟨_, ?_, ⟨ok, rfl, rfl, rfl, rfl⟩, rfl, ?_⟩
  · rw [varf_add, if_neg (by tauto)]
    by_cases hb : (A.is_sparse || B.is_sparse) = true
    · rw [if_pos hb] at hsum
      simp only [hb, if_true]
      rw [hsum, Out.ok_bind, e]
    · rw [if_neg hb] at hsum
      simp only [hb]
      rw [if_neg (by simp), hsum, Out.ok_bind, e]
  · intro I J y
    have inj : ∀ {i j : ℕ} {m}, L'[i]? = some m → L'[j]? = some m → i = j := by
      intro i j m h1 h2
      obtain ⟨hk, e⟩ := List.getElem?_eq_some_iff.1 h1
      obtain ⟨hk', e'⟩ := List.getElem?_eq_some_iff.1 h2
      exact (hL.nodup.getElem_inj_iff).1 (e.trans e'.symm)
    rw [entry_iff (by exact hL.list)]
    constructor
    · rintro ⟨i, j, r, h1, h2, h3, h4⟩
      have h3 : (List.zipWith (List.zipWith (· + ·)) A.matrix B.matrix)[i]? = some r := h3
      obtain ⟨hi, -⟩ := List.getElem?_eq_some_iff.1 h1
      obtain ⟨hj, -⟩ := List.getElem?_eq_some_iff.1 h2
      have hiA : i < A.matrix.length := by omega
      have hiB : i < B.matrix.length := by omega
      have hjA : j < A.matrix[i].length := by rw [hrow]; exact hj
      have hjB : j < B.matrix[i].length := by rw [hrow']; exact hj
      rw [List.getElem?_zipWith, List.getElem?_eq_getElem hiA, List.getElem?_eq_getElem hiB] at h3
      obtain rfl := Option.some.inj h3
      rw [List.getElem?_zipWith, List.getElem?_eq_getElem hjA, List.getElem?_eq_getElem hjB] at h4
      exact ⟨_, _, (entry_iff hL.list _ _ _).2 ⟨i, j, _, h1, h2, List.getElem?_eq_getElem hiA, List.getElem?_eq_getElem hjA⟩,
        (entry_iff hL'.list _ _ _).2 ⟨i, j, _, h1, h2, List.getElem?_eq_getElem hiB, List.getElem?_eq_getElem hjB⟩,
        (Option.some.inj h4).symm⟩
    · rintro ⟨a, b, ha, hb, rfl⟩
      obtain ⟨i, j, r, h1, h2, h3, h4⟩ := (entry_iff hL.list _ _ _).1 ha
      obtain ⟨i', j', r', h1', h2', h3', h4'⟩ := (entry_iff hL'.list _ _ _).1 hb
      obtain rfl := inj h1 h1'
      obtain rfl := inj h2 h2'
      refine ⟨i, j, List.zipWith (· + ·) r r', h1, h2, ?_, ?_⟩
      · show (List.zipWith (List.zipWith (· + ·)) A.matrix B.matrix)[i]? = _
        rw [List.getElem?_zipWith, h3, h3']
      · rw [List.getElem?_zipWith, h4, h4']

/-- **C60.** Sums and differences of two forms of the same degree are entrywise, for dense and sparse matrices. Missing for the full
statement: forms of different degrees are not always rejected. -/
theorem C60_varf_partial (A B : HVarf Φ) (hA : VarfOk A) (hB : VarfOk B) (hp : pos_eq A.position B.position)
    (hs : A.index_set = B.index_set) (hfac : A.factor = B.factor) (hdeg : A.degree = B.degree) :
    (∃ C, varf_add A B = .ok C ∧ AlikeVarf A C ∧ C.is_sparse = (A.is_sparse && B.is_sparse) ∧
      ∀ I J y, Entry C I J y ↔ ∃ a b, Entry A I J a ∧ Entry B I J b ∧ y = a + b) ∧
    (∃ C, varf_sub A B = .ok C ∧ AlikeVarf A C ∧ C.is_sparse = (A.is_sparse && B.is_sparse) ∧
      ∀ I J y, Entry C I J y ↔ ∃ a b, Entry A I J a ∧ Entry B I J b ∧ y = a - b) := by
  refine ⟨varf_add_ok A B hA hB hp hs hfac hdeg, ?_⟩
  obtain ⟨B', e, h1, hsp, h2⟩ := varf_map_ok B hB (· * -1)
  obtain ⟨C, e', h3, hsp', h4⟩ := varf_add_ok A B' hA h1.ok (by rw [h1.position]; exact hp) (by rw [h1.index_set]; exact hs)
    (by rw [h1.factor]; exact hfac) (by rw [h1.degree]; exact hdeg)
  refine ⟨C, ?_, h3, by rw [hsp', hsp], ?_⟩
  · rw [varf_sub, varf_mul_scalar, e, Out.ok_bind, e']
  · intro I J y
    rw [h4]
    constructor
    · rintro ⟨a, b', ha, hb, rfl⟩
      obtain ⟨b, hb', rfl⟩ := (h2 _ _ _).1 hb
      exact ⟨a, b, ha, hb', by ring⟩
    · rintro ⟨a, b, ha, hb, rfl⟩
      exact ⟨a, _, ha, (h2 _ _ _).2 ⟨b, hb, rfl⟩, by ring⟩

/-- **C60.** Forms with different positions, index sets or factors are rejected. -/
theorem C60_varf_rejects (A B : HVarf Φ) (hB : VarfOk B)
    (h : ¬ pos_eq A.position B.position ∨ A.index_set ≠ B.index_set ∨ A.factor ≠ B.factor) :
    varf_add A B = .throws ∧ varf_sub A B = .throws := by
  constructor
  · rw [varf_add, if_pos h]
  · obtain ⟨B', e, h1, -⟩ := varf_map_ok B hB (· * -1)
    rw [varf_sub, varf_mul_scalar, e, Out.ok_bind, varf_add, if_pos]
    rw [h1.position, h1.index_set, h1.factor]
    exact h

/-- **C60.** Forms of different degrees are rejected if one of them is sparse, or if none is a 1 x 1 matrix. -/
theorem C60_varf_degrees (A B : HVarf Φ) (hA : VarfOk A) (hB : VarfOk B) (hp : pos_eq A.position B.position)
    (hs : A.index_set = B.index_set) (hdeg : A.degree ≠ B.degree)
    (h : A.is_sparse = true ∨ B.is_sparse = true ∨ (A.matrix.length ≠ 1 ∧ B.matrix.length ≠ 1)) : varf_add A B = .throws := by
  have hne : A.matrix.length ≠ B.matrix.length := by
    intro e
    have h1 := hA.degree
    have h2 := hB.degree
    rw [e, dim_of_dirs hA.pos hB.pos hp.1, hs, h2] at h1
    exact hdeg (Out.ok.inj h1).symm
  rw [varf_add]
  split
  · rfl
  · split
    · rw [sparseAdd, if_neg]
      · rfl
      · intro e
        have := congrArg List.length e
        simp at this
        exact hne this
    · rename_i h'
      have : A.matrix.length ≠ 1 ∧ B.matrix.length ≠ 1 := by
        rcases h with h | h | h
        · simp [h] at h'
        · simp [h] at h'
        · exact h
      rw [broadcast2, if_neg hne, if_neg this.2, if_neg this.1]
      rfl

/-! ## C61 -/

omit [DecidableEq Φ] in
/-- **C61.** The coefficient of `A(f)` at `I` is the sum over the multi-indices `J` of `f` of the entry of `A` at `(I, J)` times the
coefficient of `f` at `J`. The result has the position and the factor of `A`, whatever the factor of `f`. -/
theorem C61_call (A : HVarf Φ) (f : HSeries Φ) (hA : VarfOk A) (hf : SeriesOk f) (hp : pos_eq A.position f.position)
    (hs : A.index_set = f.index_set) (hdeg : A.degree = f.degree) :
    ∃ h, varf_call A f = .ok h ∧ SeriesOk h ∧ h.position = A.position ∧ h.factor = A.factor ∧ h.index_set = A.index_set ∧
      h.degree = A.degree ∧ ∀ (I : List ℕ) (S : Finset (List ℕ)) (a b : List ℕ → ℝ), Indices h I → (∀ J, J ∈ S ↔ Indices f J) →
        (∀ J ∈ S, Entry A I J (a J) ∧ Coef f J (b J)) → Coef h I (∑ J ∈ S, a J * b J) := by
  obtain ⟨L, hL, hlen⟩ := hA.list
  obtain ⟨L', hL', hlen'⟩ := hf.list
  have hdim := dim_of_dirs hA.pos hf.pos hp.1
  have : L' = L := by
    rw [← hs, ← hdeg, ← hdim] at hL'
    exact hL'.unique hL
  subst this
  have hdot : matDot A.matrix f.coeffs = .ok (A.matrix.map fun r => (List.zipWith (· * ·) r f.coeffs).sum) :=
    mapM_ok fun r hr => by rw [if_pos (by rw [hA.square r hr, hlen, hlen'])]
  obtain ⟨e, ok⟩ := remake_series (coeffs := A.matrix.map fun r => (List.zipWith (· * ·) r f.coeffs).sum) (factor := A.factor) hA.pos
    hA.dirs hA.usable hL (by simp [hlen]) (by rw [← hlen]; exact hA.degree)
  refine ⟨_, ?_, ok, rfl, rfl, rfl, rfl, ?_⟩
  · rw [varf_call, if_neg (by tauto), hdot, Out.ok_bind, e]
  · intro I S a b hI hS hab
    have hI' : I ∈ L' := (hL.mem I).2 hI
    obtain ⟨i, hi, rfl⟩ := List.getElem_of_mem hI'
    have hiA : i < A.matrix.length := by omega
    have hS' : S = L'.toFinset := by
      ext J
      rw [hS, List.mem_toFinset, hL'.mem]
      rfl
    have hz : List.zipWith (· * ·) A.matrix[i] f.coeffs = L'.map fun J => a J * b J := by
      have hrow : A.matrix[i].length = L'.length := by rw [hA.square _ (List.getElem_mem hiA), hlen]
      refine List.ext_getElem (by simp [hrow, hlen']) fun j h1 h2 => ?_
      simp only [List.length_map] at h2
      obtain ⟨ha, hb⟩ := hab L'[j] (by rw [hS']; exact List.mem_toFinset.2 (List.getElem_mem h2))
      have ha' := (entry_iff hL.list _ _ _).2 ⟨i, j, A.matrix[i], List.getElem?_eq_getElem hi, List.getElem?_eq_getElem h2, List.getElem?_eq_getElem hiA,
        List.getElem?_eq_getElem (by omega)⟩
      have hb' := (coef_iff hL'.list _ _).2 ⟨j, List.getElem?_eq_getElem h2, List.getElem?_eq_getElem (by omega)⟩
      rw [List.getElem_zipWith, List.getElem_map, hA.entry.2 _ _ _ _ ha ha', hf.coef.2 _ _ _ hb hb']
    refine (coef_iff (by exact hL.list) _ _).2 ⟨i, by simp, ?_⟩
    show (A.matrix.map fun r => (List.zipWith (· * ·) r f.coeffs).sum)[i]? = _
    rw [List.getElem?_map, List.getElem?_eq_getElem hiA, Option.map_some, hz, hS', List.sum_toFinset _ hL.nodup]

omit [DecidableEq Φ] in
/-- **C61.** Series with another position, index set or degree are rejected. -/
theorem C61_rejects (A : HVarf Φ) (f : HSeries Φ) (hA : VarfOk A) (hf : SeriesOk f)
    (h : ¬ pos_eq A.position f.position ∨ A.index_set ≠ f.index_set ∨ A.degree ≠ f.degree) : varf_call A f = .throws := by
  rw [varf_call]
  split
  · rfl
  · rename_i h'
    push Not at h'
    obtain ⟨hp, hs⟩ := h'
    have hdeg : A.degree ≠ f.degree := by tauto
    have hne : A.matrix.length ≠ f.coeffs.length := by
      intro e
      have h1 := hA.degree
      have h2 := hf.degree
      rw [e, dim_of_dirs hA.pos hf.pos hp.1, hs, h2] at h1
      exact hdeg (Out.ok.inj h1).symm
    obtain ⟨L, hL, hlen⟩ := hA.list
    have hpos := hL.length_pos
    have hlt : 0 < A.matrix.length := by omega
    rw [matDot, mapM_throws]
    · rfl
    · intro r hr
      right
      rw [if_neg (by rw [hA.square r hr]; exact hne)]
    · exact ⟨A.matrix[0], List.getElem_mem hlt, by rw [if_neg (by rw [hA.square _ (List.getElem_mem hlt)]; exact hne)]⟩

/-- Objects meeting the hypotheses of the theorems on two objects, in dimension 2 and degree 3. -/
example : ∃ (A : HVarf ℕ) (f : HSeries ℕ), VarfOk A ∧ SeriesOk f ∧ pos_eq A.position f.position ∧ A.index_set = f.index_set ∧
    A.degree = f.degree ∧ Indices f [2, 1] := by
  have hu := usable_small .triangle (show 1 ≤ pos01.dim by decide) (by decide) (show 3 ≤ 250 by decide)
  obtain ⟨L, hL⟩ := iterOk_exists hu.toSized.fits'
  obtain ⟨A, e, ok, -, -, hp, -, hs, hl, hd⟩ := mkVarf_ok (b := false) (M := List.replicate L.length (List.replicate L.length 1))
    (factor := (0 : ℕ)) pos01_ok (by decide) hu hL (by simp) (by
      intro r hr
      rw [List.eq_of_mem_replicate hr]
      simp)
  obtain ⟨f, -, okf, h1, h2, -, h4, -, h6⟩ := mkSeries_ok (coeffs := List.replicate L.length 1) (factor := (0 : ℕ)) pos01_ok (by decide) hu hL
    (by simp)
  have e1 := ok.degree
  have e2 := okf.degree
  obtain ⟨L', hL', hlen'⟩ := ok.list
  refine ⟨A, f, ok, okf, by rw [hp, h2]; exact pos_eq_self _, by rw [hs, h4], ?_, ?_⟩
  · rw [hp, hs, hlen'] at e1
    rw [h2, h4, h1, List.length_replicate] at e2
    rw [hs, hp] at hL'
    rw [hL'.unique hl, e2] at e1
    exact (Out.ok.inj e1).symm
  · rw [Indices, h2, h4]
    exact (h6 _ _).2 ⟨rfl, by decide⟩

end Hermipy.Props
