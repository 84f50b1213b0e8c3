import Verif.Lemmas.Series
import Verif.Props.IndexSets

/-! # C55, C56, C57: restriction of series and forms -/

namespace Hermipy.Props
open Hermipy Hermipy.Spec
variable {Φ : Type}

/-! ## Concrete objects -/

/-- One Hermite direction, `0`, standard. -/
def pos0 : Position := ⟨1, [0], [0], [[1]], ["hermite"]⟩
theorem pos0_ok : PosOk pos0 := ⟨rfl, rfl, rfl, by simp [pos0], rfl, by decide⟩
theorem pos0_diagonal : Diagonal pos0 := by
  intro i j r c hij hr hc
  match i, j, hij with
  | 0, 0, h => exact absurd rfl h
  | 0, j + 1, _ => simp [pos0] at hr; subst hr; simp at hc
  | i + 1, _, _ => simp [pos0] at hr

/-- Directions `0` and `1`, standard. -/
def pos01 : Position := ⟨2, [0, 1], [0, 0], [[1, 0], [0, 1]], ["hermite", "hermite"]⟩
theorem pos01_ok : PosOk pos01 := ⟨rfl, rfl, rfl, by simp [pos01], rfl, by decide⟩

/-- Symbolic functions: number `0` is the constant one, number `n` is the constant `n + 1`. -/
instance : SymFn ℕ where
  one _ := 0
  value n _ := n + 1
  value_one := by simp

/-- For every index set in dimension up to 4 and degree up to 250, and every vector of the right length, there is a series. -/
theorem seriesOk_exists (s : IndexSet) (p : Position) (hp : PosOk p) (hd : p.dirs ≠ []) (h4 : p.dim ≤ 4) (factor : Φ) (degree : ℕ)
    (h : degree ≤ 250) : ∃ n, s.s_size p.dim degree = .ok n ∧ ∀ coeffs : List ℝ, coeffs.length = n →
      ∃ f : HSeries Φ, mkSeries coeffs p factor s = .ok f ∧ SeriesOk f ∧ f.coeffs = coeffs ∧ f.position = p ∧ f.factor = factor ∧
        f.index_set = s ∧ ∀ m, Indices f m ↔ InSet s p.dim degree m := by
  have h0 := PosOk.dim_pos hp hd
  have hu := usable_small s (show 1 ≤ p.dim by omega) h4 h
  obtain ⟨L, hL⟩ := iterOk_exists hu.toSized.fits'
  refine ⟨L.length, hL.size (by omega) (by rw [hL.length]; exact hu.toSized.card_lt), fun coeffs hlen => ?_⟩
  obtain ⟨g, e, ok, h1, h2, h3, h4, h5, h6⟩ := mkSeries_ok (factor := factor) hp hd hu hL hlen
  refine ⟨g, e, ok, h1, h2, h3, h4, fun m => ?_⟩
  rw [Indices, h2, h4]
  exact h6 _ _

/-! ## C55 -/

/-- **C55.** For every index set but `cross_nc`: the restriction of a series to degree `d` - smaller or larger - is a series with the
same position, factor and index set, whose multi-indices are those of degree `d`; the coefficient at such a multi-index is the
original one if the series has one there, and zero otherwise. -/
theorem C55_subdegree (f : HSeries Φ) (d : ℕ) (hf : SeriesOk f) (hs : f.index_set ≠ .cross_nc)
    (hu : Usable f.index_set f.position.dim d) :
    ∃ g, series_subdegree f d = .ok g ∧ SeriesOk g ∧ g.position = f.position ∧ g.factor = f.factor ∧ g.index_set = f.index_set ∧
      (∀ m, Indices g m ↔ InSet f.index_set f.position.dim d m) ∧
      ∀ m c, Indices g m → (Coef g m c ↔ Coef f m c ∨ (¬ Indices f m ∧ c = 0)) := by
  obtain ⟨L, hL, hlen⟩ := hf.list
  obtain ⟨L', hL'⟩ := iterOk_exists hu.toSized.fits'
  have hdim := hu.dim_pos
  have hsize : f.index_set.s_size f.position.dim d = .ok L'.length := hL'.size hdim (by rw [hL'.length]; exact hu.toSized.card_lt)
  rw [series_subdegree, if_neg hs, hsize, Out.ok_bind]
  by_cases hdd : d ≤ f.degree
  · have hpre : L' <+: L := IterOk.prefix hs hdim hdd hL' hL
    obtain ⟨g, e, ok, h1, h2, h3, h4, h5, h6⟩ := mkSeries_ok (coeffs := f.coeffs.take L'.length) (factor := f.factor) hf.pos hf.dirs hu hL'
      (by rw [List.length_take, hlen]; exact min_eq_left hpre.length_le)
    have hind : ∀ m, Indices g m ↔ InSet f.index_set f.position.dim d m := by
      intro m; rw [Indices, h2, h4]; exact h6 _ _
    refine ⟨g, by rw [if_pos hdd, Out.ok_bind]; exact e, ok, h2, h3, h4, hind, ?_⟩
    intro m c hm
    have hm' : m ∈ L' := (hL'.mem m).2 ((hind m).1 hm)
    rw [coef_iff (by rw [h2, h4]; exact h5.list), coef_iff hL.list]
    have hmf : Indices f m := (hL.mem m).1 (hpre.subset hm')
    simp only [hmf, not_true, false_and, or_false]
    refine exists_congr fun k => ?_
    rw [getElem_of_prefix hpre hL.nodup hm', h1]
    refine and_congr_right fun hk => ?_
    rw [List.getElem?_take_of_lt (List.getElem?_eq_some_iff.1 hk).1]
  · have hpre : L <+: L' := IterOk.prefix hs hdim (by omega) hL hL'
    have hle := hpre.length_le
    obtain ⟨g, e, ok, h1, h2, h3, h4, h5, h6⟩ := mkSeries_ok (coeffs := f.coeffs ++ List.replicate (L'.length - f.coeffs.length) 0)
      (factor := f.factor) hf.pos hf.dirs hu hL' (by simp; omega)
    have hind : ∀ m, Indices g m ↔ InSet f.index_set f.position.dim d m := by
      intro m; rw [Indices, h2, h4]; exact h6 _ _
    refine ⟨g, by rw [if_neg hdd, if_neg (by omega), Out.ok_bind]; exact e, ok, h2, h3, h4, hind, ?_⟩
    intro m c hm
    have hm' : m ∈ L' := (hL'.mem m).2 ((hind m).1 hm)
    rw [coef_iff (by rw [h2, h4]; exact h5.list), coef_iff hL.list, Indices, ← hL.mem, h1]
    by_cases hmf : m ∈ L
    · simp only [hmf, not_true, false_and, or_false]
      refine exists_congr fun k => ?_
      rw [getElem_of_prefix hpre hL'.nodup hmf]
      refine and_congr_right fun hk => ?_
      have := (List.getElem?_eq_some_iff.1 hk).1
      rw [List.getElem?_append_left (by omega)]
    · have hno : ∀ k : ℕ, L[k]? ≠ some m := fun k hk => hmf (List.mem_of_getElem? hk)
      simp only [hmf, hno, false_and, exists_false, false_or, not_false_iff, true_and]
      obtain ⟨t, rfl⟩ := hpre
      have key : ∀ k : ℕ, (L ++ t)[k]? = some m →
          (f.coeffs ++ List.replicate ((L ++ t).length - f.coeffs.length) (0 : ℝ))[k]? = some 0 := by
        intro k hk
        have h1 := (List.getElem?_eq_some_iff.1 hk).1
        have h2 : ¬ k < L.length := by
          intro h
          rw [List.getElem?_append_left h] at hk
          exact hno k hk
        rw [List.getElem?_append_right (by omega), List.getElem?_replicate, if_pos (by omega)]
      constructor
      · rintro ⟨k, hk, hc⟩
        rw [key k hk] at hc
        exact (Option.some.inj hc).symm
      · rintro rfl
        obtain ⟨k, hk, e⟩ := List.getElem_of_mem hm'
        exact ⟨k, by rw [List.getElem?_eq_getElem hk, e], key k (by rw [List.getElem?_eq_getElem hk, e])⟩

/-- **C55.** The index set without nested ordering is refused. -/
theorem C55_refused (f : HSeries Φ) (d : ℕ) (hs : f.index_set = .cross_nc) : series_subdegree f d = .throws := by
  rw [series_subdegree, if_pos hs]

/-- The restrictions compose: restricting to `d` and then to `d' ≤ d` is restricting to `d'`. -/
theorem C55_compose (f g h h' : HSeries Φ) (d d' : ℕ) (hf : SeriesOk f) (hs : f.index_set ≠ .cross_nc)
    (hu : Usable f.index_set f.position.dim d) (hu' : Usable f.index_set f.position.dim d') (hdd : d' ≤ d)
    (e1 : series_subdegree f d = .ok g) (e2 : series_subdegree g d' = .ok h) (e3 : series_subdegree f d' = .ok h') :
    ∀ m c, Coef h m c ↔ Coef h' m c := by
  obtain ⟨g1, a1, a2, a3, a4, a5, a6, a7⟩ := C55_subdegree f d hf hs hu
  have : g1 = g := Out.ok.inj (a1.symm.trans e1)
  subst this
  obtain ⟨h1, b1, b2, b3, b4, b5, b6, b7⟩ := C55_subdegree g1 d' a2 (by rw [a5]; exact hs) (by rw [a3, a5]; exact hu')
  have : h1 = h := Out.ok.inj (b1.symm.trans e2)
  subst this
  obtain ⟨h2, c1, c2, c3, c4, c5, c6, c7⟩ := C55_subdegree f d' hf hs hu'
  have : h2 = h' := Out.ok.inj (c1.symm.trans e3)
  subst this
  have same : ∀ m, Indices h1 m ↔ Indices h2 m := by intro m; rw [b6, c6, a3, a5]
  have big : ∀ m, Indices h1 m → Indices g1 m := by
    intro m hm
    rw [b6, a3, a5] at hm
    rw [a6]
    exact inSet_mono hdd hm
  have main : ∀ m, Indices h1 m → ∀ c, Coef h1 m c ↔ Coef h2 m c := by
    intro m hm c
    rw [b7 m c hm, c7 m c ((same m).1 hm), a7 m c (big m hm)]
    have := big m hm
    tauto
  intro m c
  constructor
  · intro hc; exact (main m ((b2.coef.1 m).2 ⟨c, hc⟩) c).1 hc
  · intro hc; exact (main m ((same m).2 ((c2.coef.1 m).2 ⟨c, hc⟩)) c).2 hc

/-- A case meeting the hypotheses of C55: a cross of degree 7 in dimension 2. -/
example : ∃ f : HSeries ℕ, SeriesOk f ∧ f.index_set ≠ .cross_nc ∧ f.index_set = .cross ∧
    Usable f.index_set f.position.dim 3 ∧ Usable f.index_set f.position.dim 9 := by
  obtain ⟨n, -, h⟩ := seriesOk_exists (Φ := ℕ) .cross pos01 pos01_ok (by decide) (by decide) 0 7 (by decide)
  obtain ⟨f, -, ok, -, hp, -, hs, -⟩ := h (List.replicate n 1) (by simp)
  refine ⟨f, ok, by rw [hs]; decide, hs, ?_, ?_⟩ <;> rw [hs, hp] <;> exact usable_small _ (by decide) (by decide) (by decide)

/-! ## C56 -/

/-- **C56.** For every index set but `cross_nc`: the restriction of a form to a smaller degree has the original entry at every pair of
multi-indices of this degree; a larger degree raises. Missing for the full statement: `cross_nc` is neither refused nor restricted
correctly, see `C56_cross_nc_false`. -/
theorem C56_subdegree_partial (A : HVarf Φ) (d : ℕ) (hA : VarfOk A) (hs : A.index_set ≠ .cross_nc)
    (hu : Usable A.index_set A.position.dim d) (hd : d ≤ A.degree) :
    ∃ B, varf_subdegree A d = .ok B ∧ VarfOk B ∧ B.is_sparse = A.is_sparse ∧ B.position = A.position ∧ B.factor = A.factor ∧
      B.index_set = A.index_set ∧ (∀ m, InSet B.index_set B.position.dim B.degree m ↔ InSet A.index_set A.position.dim d m) ∧
      ∀ I J c, InSet A.index_set A.position.dim d I → InSet A.index_set A.position.dim d J → (Entry B I J c ↔ Entry A I J c) := by
  obtain ⟨L, hL, hlen⟩ := hA.list
  obtain ⟨L', hL'⟩ := iterOk_exists hu.toSized.fits'
  have hdim := hu.dim_pos
  have hsize : A.index_set.s_size A.position.dim d = .ok L'.length := hL'.size hdim (by rw [hL'.length]; exact hu.toSized.card_lt)
  have hpre : L' <+: L := IterOk.prefix hs hdim hd hL' hL
  have hle := hpre.length_le
  have hrows : ((A.matrix.take L'.length).map fun r => r.take L'.length).length = L'.length := by simp; omega
  obtain ⟨B, e, ok, h0, h1, h2, h3, h4, h5, h6⟩ := mkVarf_ok (b := A.is_sparse)
    (M := (A.matrix.take L'.length).map fun r => r.take L'.length) (factor := A.factor) hA.pos hA.dirs hu hL' hrows (by
      intro r hr
      rw [hrows]
      obtain ⟨r', hr', rfl⟩ := List.mem_map.1 hr
      rw [List.length_take, hA.square r' (List.mem_of_mem_take hr')]
      omega)
  refine ⟨B, by rw [varf_subdegree, if_neg (by simpa using hd), hsize, Out.ok_bind]; exact e, ok, h0, h2, h3, h4, ?_, ?_⟩
  · intro m; rw [h2, h4]; exact h6 _ _
  · intro I J c hI hJ
    have hI' := (hL'.mem I).2 hI
    have hJ' := (hL'.mem J).2 hJ
    rw [entry_iff (by rw [h2, h4]; exact h5.list), entry_iff hL.list, h1]
    constructor
    · rintro ⟨i, j, r, a1, a2, a3, a4⟩
      have hi := (List.getElem?_eq_some_iff.1 a1).1
      have hj := (List.getElem?_eq_some_iff.1 a2).1
      rw [List.getElem?_map, List.getElem?_take_of_lt hi] at a3
      obtain ⟨r', hr', rfl⟩ := Option.map_eq_some_iff.1 a3
      rw [List.getElem?_take_of_lt hj] at a4
      exact ⟨i, j, r', (getElem_of_prefix hpre hL.nodup hI').2 a1, (getElem_of_prefix hpre hL.nodup hJ').2 a2, hr', a4⟩
    · rintro ⟨i, j, r, a1, a2, a3, a4⟩
      rw [getElem_of_prefix hpre hL.nodup hI'] at a1
      rw [getElem_of_prefix hpre hL.nodup hJ'] at a2
      have hi := (List.getElem?_eq_some_iff.1 a1).1
      have hj := (List.getElem?_eq_some_iff.1 a2).1
      exact ⟨i, j, r.take L'.length, a1, a2, by rw [List.getElem?_map, List.getElem?_take_of_lt hi, a3]; rfl,
        by rw [List.getElem?_take_of_lt hj]; exact a4⟩

/-- **C56.** A degree above that of the form raises. -/
theorem C56_too_high (A : HVarf Φ) (d : ℕ) (h : A.degree < d) : varf_subdegree A d = .throws := by
  rw [varf_subdegree, if_pos (by omega)]

/-- A case meeting the hypotheses of C56: a form on a triangle. -/
example : ∃ A : HVarf ℕ, VarfOk A ∧ A.index_set ≠ .cross_nc ∧ Usable A.index_set A.position.dim 2 ∧ A.index_set = .triangle := by
  have hu := usable_small .triangle (show 1 ≤ pos01.dim by decide) (by decide) (show 4 ≤ 250 by decide)
  obtain ⟨L, hL⟩ := iterOk_exists hu.toSized.fits'
  obtain ⟨A, -, ok, -, -, hp, -, hs, -, -⟩ := mkVarf_ok (b := false) (M := List.replicate L.length (List.replicate L.length (1 : ℝ)))
    (factor := (0 : ℕ)) pos01_ok (by decide) hu hL (by simp) (by intro r hr; rw [(List.mem_replicate.1 hr).2]; simp)
  exact ⟨A, ok, by rw [hs]; decide, by rw [hs, hp]; exact usable_small _ (by decide) (by decide) (by decide), hs⟩

/-- The matrix whose entry in row `i` is `i`. -/
def rowNumbers (n : ℕ) : List (List ℝ) := (List.range n).map fun i => List.replicate n (i : ℝ)

/-- **C56, negation for `cross_nc`.** The form on the (non-nested) cross of degree 2 in dimension 2 whose row `i` is constantly `i` has the
entry 4 at `(1,1), (0,0)`; its restriction to degree 1 is accepted and has the entry 3 there. -/
theorem C56_cross_nc_false : ∃ A B : HVarf ℕ, VarfOk A ∧ A.index_set = .cross_nc ∧ 1 ≤ A.degree ∧ varf_subdegree A 1 = .ok B ∧ VarfOk B ∧
    InSet A.index_set A.position.dim 1 [1, 1] ∧ Entry A [1, 1] [0, 0] 4 ∧ Entry B [1, 1] [0, 0] 3 ∧ ¬ Entry B [1, 1] [0, 0] 4 := by
  have hu2 := usable_small .cross_nc (show 1 ≤ pos01.dim by decide) (by decide) (show 2 ≤ 250 by decide)
  have hu1 := usable_small .cross_nc (show 1 ≤ pos01.dim by decide) (by decide) (show 1 ≤ 250 by decide)
  obtain ⟨L2, hL2⟩ := iterOk_exists hu2.toSized.fits'
  obtain ⟨L1, hL1⟩ := iterOk_exists hu1.toSized.fits'
  have e1 : L1 = [[0, 0], [0, 1], [1, 0], [1, 1]] := by
    obtain ⟨L, h1, -, -, T, h2, h3⟩ := C05_cross_nc_listing 2 1 (by decide) (hu1.toSized.fits rfl)
    have hr : Runs (fun m => IndexSet.triangle.s_increment m (max 1 1 + 2 - 1)) (List.replicate 2 0)
        [[0, 0], [0, 1], [1, 0], [0, 2], [1, 1], [2, 0]] :=
      .next rfl (.next rfl (.next rfl (.next rfl (.next rfl (.last rfl)))))
    have hT := (IterOk.of_list (s := .triangle) ⟨by decide, by simp⟩ h2).runs.unique hr
    rw [hL1.unique (IterOk.of_list hu1.toSized.fits' h1), h3, hT]
    decide
  have e2 : L2 = [[0, 0], [0, 1], [1, 0], [0, 2], [1, 1], [2, 0], [1, 2], [2, 1]] := by
    obtain ⟨L, h1, -, -, T, h2, h3⟩ := C05_cross_nc_listing 2 2 (by decide) (hu2.toSized.fits rfl)
    have hr : Runs (fun m => IndexSet.triangle.s_increment m (max 1 2 + 2 - 1)) (List.replicate 2 0)
        [[0, 0], [0, 1], [1, 0], [0, 2], [1, 1], [2, 0], [0, 3], [1, 2], [2, 1], [3, 0]] :=
      .next rfl (.next rfl (.next rfl (.next rfl (.next rfl (.next rfl (.next rfl (.next rfl (.next rfl (.last rfl)))))))))
    have hT := (IterOk.of_list (s := .triangle) ⟨by decide, by simp⟩ h2).runs.unique hr
    rw [hL2.unique (IterOk.of_list hu2.toSized.fits' h1), h3, hT]
    decide
  have square : ∀ n, ∀ r ∈ rowNumbers n, r.length = (rowNumbers n).length := by
    intro n r hr
    obtain ⟨i, -, rfl⟩ := List.mem_map.1 hr
    simp [rowNumbers]
  obtain ⟨A, -, okA, -, hA, pA, fA, sA, lA, dA⟩ := mkVarf_ok (b := false) (M := rowNumbers 8) (factor := (0 : ℕ)) pos01_ok (by decide) hu2
    hL2 (by rw [e2]; simp [rowNumbers]) (square 8)
  obtain ⟨B, eB, okB, -, hB, pB, -, sB, lB, -⟩ := mkVarf_ok (b := A.is_sparse) (M := rowNumbers 4) (factor := A.factor) pos01_ok (by decide)
    hu1 hL1 (by rw [e1]; simp [rowNumbers]) (square 4)
  have hdeg : 1 ≤ A.degree := by
    have := ((dA 1 [2]).2 ⟨rfl, by decide⟩).2
    simp at this
    omega
  have hEB : Entry B [1, 1] [0, 0] 3 := by
    rw [show (3 : ℝ) = ((3 : ℕ) : ℝ) by norm_num]
    exact (entry_iff (by rw [sB, pB]; exact lB.list) _ _ _).2 ⟨3, 0, List.replicate 4 ((3 : ℕ) : ℝ), by rw [e1]; rfl, by rw [e1]; rfl,
      by rw [hB]; rfl, rfl⟩
  refine ⟨A, B, okA, sA, hdeg, ?_, okB, ?_, ?_, hEB, ?_⟩
  · have hsize : IndexSet.cross_nc.s_size pos01.dim 1 = .ok L1.length :=
      hL1.size (by decide) (by rw [hL1.length]; exact hu1.toSized.card_lt)
    rw [varf_subdegree, if_neg (by omega), sA, pA, hsize, Out.ok_bind, hA, ← eB, e1]
    congr 1
  · rw [sA]
    exact ⟨by rw [pA]; rfl, by decide⟩
  · rw [show (4 : ℝ) = ((4 : ℕ) : ℝ) by norm_num]
    exact (entry_iff (by rw [sA, pA]; exact lA.list) _ _ _).2 ⟨4, 0, List.replicate 8 ((4 : ℕ) : ℝ), by rw [e2]; rfl, by rw [e2]; rfl,
      by rw [hA]; rfl, rfl⟩
  · intro h
    have := okB.entry.2 _ _ _ _ hEB h
    norm_num at this

end Hermipy.Props
