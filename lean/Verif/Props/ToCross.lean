import Verif.Props.Series

/-! # C57: from the triangle to the hyperbolic cross -/

namespace Hermipy.Props
open Hermipy Hermipy.Spec
variable {Φ : Type}

/-- The multi-indices of the cross of degree `d` belong to the triangle of degree `max 1 d + dim - 1`. -/
theorem cross_subset {dim d e : ℕ} (hdim : 1 ≤ dim) (h : max 1 d + dim ≤ e + 1) {m : List ℕ} (hm : InSet .cross dim d m) :
    InSet .triangle dim e m := by
  have hs := cross_sum hdim hm
  exact ⟨hm.1, by omega⟩

/-- The positions of the elements of the cross in the listing of a triangle containing them. -/
theorem cross_positions {dim d e : ℕ} {Lc L : List IVec} (hLc : IterOk .cross dim d Lc) (hL : IterOk .triangle dim e L)
    (hlt : L.length < u32) (hsub : ∀ m ∈ Lc, m ∈ L) : cross_in_triangle dim d = .ok (Lc.map fun m => L.idxOf m) := by
  rw [cross_in_triangle, hLc.list, Out.ok_bind]
  refine mapM_ok fun m hm => ?_
  have h1 := List.idxOf_lt_length_of_mem (hsub m hm)
  exact hL.index_triangle (List.getElem?_idxOf (hsub m hm)) (by omega)

/-- **C57.** A series on a triangle, restricted to the cross of degree `d`, is a series on the same position whose multi-indices are those
of the cross and which has the original coefficient at each of them. Its factor is one: missing for the full statement is that the
factor is kept, see `C57_series_factor_lost`. -/
theorem C57_series_partial [DecidableEq Φ] [SymFn Φ] (f : HSeries Φ) (d : ℕ) (hf : SeriesOk f) (hs : f.index_set = .triangle)
    (hdirs : f.position.dirs.Pairwise (· ≤ ·) ∧ ∀ d ∈ f.position.dirs, d < 5)
    (hu : Usable .cross f.position.dim d) (hd : max 1 d + f.position.dim ≤ f.degree + 1) :
    ∃ g, series_to_cross f d = .ok g ∧ SeriesOk g ∧ g.position = f.position ∧ g.index_set = .cross ∧
      g.factor = SymFn.one f.position.dirs ∧ (∀ m, Indices g m ↔ InSet .cross f.position.dim d m) ∧
      ∀ m c, Indices g m → (Coef g m c ↔ Coef f m c) := by
  have hdim := hu.dim_pos
  obtain ⟨L, hL, hlen⟩ := hf.list
  obtain ⟨Lc, hLc⟩ := iterOk_exists hu.toSized.fits'
  have hlt : L.length < u32 := by rw [hL.length]; exact hf.usable.toSized.card_lt
  have hL' := hL
  rw [hs] at hL'
  have hsub : ∀ m ∈ Lc, m ∈ L := fun m hm => (hL'.mem m).2 (cross_subset hdim hd ((hLc.mem m).1 hm))
  have hidx : ∀ m ∈ Lc, L.idxOf m < f.coeffs.length := fun m hm => by
    rw [hlen]; exact List.idxOf_lt_length_of_mem (hsub m hm)
  obtain ⟨g, e, ok, h1, h2, h3, h4, h5, h6⟩ := mkSeries_ok (coeffs := Lc.map fun m => f.coeffs.getD (L.idxOf m) 0)
    (factor := SymFn.one (Φ := Φ) f.position.dirs) hf.pos hf.dirs hu hLc (by simp)
  have hind : ∀ m, Indices g m ↔ InSet .cross f.position.dim d m := by
    intro m; rw [Indices, h2, h4]; exact h6 _ _
  refine ⟨g, ?_, ok, h2, h4, h3, hind, ?_⟩
  · rw [series_to_cross, if_neg (by simp only [hs, not_true, false_or, not_not]; omega), cross_positions hLc hL' hlt hsub, Out.ok_bind,
      List.mapM_map, mapM_ok (g := fun m => f.coeffs.getD (L.idxOf m) 0)]
    · rw [Out.ok_bind, oneFunction, if_neg (by simpa using hdirs.imp_right fun h => h)]
      exact e
    · intro m hm
      rw [Function.comp, pyget_some (List.getElem?_eq_getElem (hidx m hm))]
      simp [hidx m hm]
  · intro m c hm
    have hm' : m ∈ Lc := (hLc.mem m).2 ((hind m).1 hm)
    rw [coef_iff (by rw [h2, h4]; exact h5.list), coef_iff hL.list, h1]
    constructor
    · rintro ⟨k, a1, a2⟩
      rw [List.getElem?_map, a1] at a2
      refine ⟨L.idxOf m, List.getElem?_idxOf (hsub m hm'), ?_⟩
      rw [List.getElem?_eq_getElem (hidx m hm')]
      simpa [hidx m hm'] using a2
    · rintro ⟨k, a1, a2⟩
      have hk : k = L.idxOf m := by
        obtain ⟨hk, e⟩ := List.getElem?_eq_some_iff.1 a1
        rw [← e, hL.nodup.idxOf_getElem]
      subst hk
      refine ⟨Lc.idxOf m, List.getElem?_idxOf hm', ?_⟩
      rw [List.getElem?_map, List.getElem?_idxOf hm']
      simp [a2]

/-- **C57, negation for series.** Whenever the factor is not the constant one, it is lost. -/
theorem C57_series_factor_lost [DecidableEq Φ] [SymFn Φ] (f : HSeries Φ) (d : ℕ) (hf : SeriesOk f) (hs : f.index_set = .triangle)
    (hdirs : f.position.dirs.Pairwise (· ≤ ·) ∧ ∀ d ∈ f.position.dirs, d < 5)
    (hu : Usable .cross f.position.dim d) (hd : max 1 d + f.position.dim ≤ f.degree + 1) (hfac : f.factor ≠ SymFn.one f.position.dirs) :
    ∃ g, series_to_cross f d = .ok g ∧ g.factor ≠ f.factor := by
  obtain ⟨g, e, -, -, -, h, -⟩ := C57_series_partial f d hf hs hdirs hu hd
  exact ⟨g, e, by rw [h]; exact hfac.symm⟩

/-- A series on a triangle of degree 5 in dimension 2 with a factor which is not one: it meets the hypotheses of both theorems, for the
cross of degree 4. -/
theorem triangle_series : ∃ f : HSeries ℕ, SeriesOk f ∧ f.index_set = .triangle ∧ (f.position.dirs.Pairwise (· ≤ ·) ∧ ∀ d ∈ f.position.dirs, d < 5) ∧
    Usable .cross f.position.dim 4 ∧
    max 1 4 + f.position.dim ≤ f.degree + 1 ∧ f.factor ≠ SymFn.one f.position.dirs := by
  obtain ⟨n, -, h⟩ := seriesOk_exists (Φ := ℕ) .triangle pos01 pos01_ok (by decide) (by decide) 1 5 (by decide)
  obtain ⟨f, -, ok, -, hp, hfac, hs, hi⟩ := h (List.replicate n 1) (by simp)
  refine ⟨f, ok, hs, by rw [hp]; decide, by rw [hp]; exact usable_small _ (by decide) (by decide) (by decide), ?_, ?_⟩
  · have := ((hi [5, 0]).2 ⟨rfl, by decide⟩)
    rw [Indices, hs, hp] at this
    have := this.2
    simp at this
    rw [hp]
    simp [pos01]
    omega
  · rw [hfac, hp]; decide

theorem C57_false : ∃ (f g : HSeries ℕ) (d : ℕ), SeriesOk f ∧ series_to_cross f d = .ok g ∧ g.factor ≠ f.factor := by
  obtain ⟨f, h1, h2, h2', h3, h4, h5⟩ := triangle_series
  obtain ⟨g, e, h⟩ := C57_series_factor_lost f 4 h1 h2 h2' h3 h4 h5
  exact ⟨f, g, 4, h1, e, h⟩

/-- **C57.** With the factor one the series restricted to the cross has the same factor. -/
theorem C57_series_factor_one [DecidableEq Φ] [SymFn Φ] (f : HSeries Φ) (d : ℕ) (hf : SeriesOk f) (hs : f.index_set = .triangle)
    (hdirs : f.position.dirs.Pairwise (· ≤ ·) ∧ ∀ d ∈ f.position.dirs, d < 5)
    (hu : Usable .cross f.position.dim d) (hd : max 1 d + f.position.dim ≤ f.degree + 1) (hfac : f.factor = SymFn.one f.position.dirs) :
    ∃ g, series_to_cross f d = .ok g ∧ g.factor = f.factor ∧ ∀ m c, Indices g m → (Coef g m c ↔ Coef f m c) := by
  obtain ⟨g, e, -, -, -, h, -, h'⟩ := C57_series_partial f d hf hs hdirs hu hd
  exact ⟨g, e, by rw [h, hfac], h'⟩

/-- **C57.** A form on a triangle, restricted to the cross, has the original entries, and the same factor. -/
theorem C57_varf (A : HVarf Φ) (d : ℕ) (hA : VarfOk A) (hs : A.index_set = .triangle)
    (hu : Usable .cross A.position.dim d) (hd : max 1 d + A.position.dim ≤ A.degree + 1) :
    ∃ B, varf_to_cross A d = .ok B ∧ VarfOk B ∧ B.is_sparse = A.is_sparse ∧ B.position = A.position ∧ B.index_set = .cross ∧
      B.factor = A.factor ∧ (∀ m, InSet B.index_set B.position.dim B.degree m ↔ InSet .cross A.position.dim d m) ∧
      ∀ I J c, InSet .cross A.position.dim d I → InSet .cross A.position.dim d J → (Entry B I J c ↔ Entry A I J c) := by
  have hdim := hu.dim_pos
  obtain ⟨L, hL, hlen⟩ := hA.list
  obtain ⟨Lc, hLc⟩ := iterOk_exists hu.toSized.fits'
  have hlt : L.length < u32 := by rw [hL.length]; exact hA.usable.toSized.card_lt
  have hL' := hL
  rw [hs] at hL'
  have hsub : ∀ m ∈ Lc, m ∈ L := fun m hm => (hL'.mem m).2 (cross_subset hdim hd ((hLc.mem m).1 hm))
  have hidx : ∀ m ∈ Lc, L.idxOf m < A.matrix.length := fun m hm => by
    rw [hlen]; exact List.idxOf_lt_length_of_mem (hsub m hm)
  have hcol : ∀ r ∈ A.matrix, ∀ m ∈ Lc, L.idxOf m < r.length := fun r hr m hm => by
    rw [hA.square r hr]; exact hidx m hm
  obtain ⟨B, e, ok, h0, h1, h2, h3, h4, h5, h6⟩ := mkVarf_ok (b := A.is_sparse)
    (M := Lc.map fun I => Lc.map fun J => entryOf A.matrix (L.idxOf I) (L.idxOf J)) (factor := A.factor) hA.pos hA.dirs hu hLc (by simp) (by
      intro r hr
      obtain ⟨I, -, rfl⟩ := List.mem_map.1 hr
      simp)
  refine ⟨B, ?_, ok, h0, h2, h4, h3, ?_, ?_⟩
  · rw [varf_to_cross, if_neg (by simp only [hs, not_true, false_or, not_not]; omega), cross_positions hLc hL' hlt hsub, Out.ok_bind,
      List.mapM_map, mapM_ok (g := fun I => Lc.map fun J => entryOf A.matrix (L.idxOf I) (L.idxOf J))]
    · exact e
    · intro I hI
      rw [Function.comp, pyget_some (List.getElem?_eq_getElem (hidx I hI)), Out.ok_bind, List.mapM_map]
      refine mapM_ok fun J hJ => ?_
      have := hcol _ (List.getElem_mem (hidx I hI)) J hJ
      rw [Function.comp, pyget_some (List.getElem?_eq_getElem this)]
      simp [entryOf, hidx I hI, this]
  · intro m; rw [h2, h4]; exact h6 _ _
  · intro I J c hI hJ
    have hI' := (hLc.mem I).2 hI
    have hJ' := (hLc.mem J).2 hJ
    have eI : ∀ k : ℕ, L[k]? = some I → k = L.idxOf I := fun k a => by
      obtain ⟨hk, e⟩ := List.getElem?_eq_some_iff.1 a
      rw [← e, hL.nodup.idxOf_getElem]
    have eJ : ∀ k : ℕ, L[k]? = some J → k = L.idxOf J := fun k a => by
      obtain ⟨hk, e⟩ := List.getElem?_eq_some_iff.1 a
      rw [← e, hL.nodup.idxOf_getElem]
    have hc := hcol _ (List.getElem_mem (hidx I hI')) J hJ'
    rw [entry_iff (by rw [h2, h4]; exact h5.list), entry_iff hL.list, h1]
    constructor
    · rintro ⟨i, j, r, a1, a2, a3, a4⟩
      rw [List.getElem?_map, a1] at a3
      obtain rfl := Option.some.inj a3
      rw [List.getElem?_map, a2] at a4
      obtain rfl := Option.some.inj a4
      refine ⟨L.idxOf I, L.idxOf J, A.matrix[L.idxOf I]'(hidx I hI'), List.getElem?_idxOf (hsub I hI'), List.getElem?_idxOf (hsub J hJ'),
        List.getElem?_eq_getElem _, ?_⟩
      rw [List.getElem?_eq_getElem hc]
      simp [entryOf, hidx I hI', hc]
    · rintro ⟨i, j, r, a1, a2, a3, a4⟩
      refine ⟨Lc.idxOf I, Lc.idxOf J, _, List.getElem?_idxOf hI', List.getElem?_idxOf hJ',
        by rw [List.getElem?_map, List.getElem?_idxOf hI']; rfl, ?_⟩
      rw [List.getElem?_map, List.getElem?_idxOf hJ']
      rw [eI i a1] at a3
      rw [eJ j a2] at a4
      simp [entryOf, a3, a4]

/-- **C57.** Other index sets and degrees which do not fit raise. -/
theorem C57_rejects [DecidableEq Φ] [SymFn Φ] (f : HSeries Φ) (A : HVarf Φ) (d : ℕ) :
    ((f.index_set ≠ .triangle ∨ f.degree + 1 < d + f.position.dim) → series_to_cross f d = .throws) ∧
    ((A.index_set ≠ .triangle ∨ A.degree + 1 < d + A.position.dim) → varf_to_cross A d = .throws) := by
  constructor <;> intro h
  · rw [series_to_cross, if_pos]
    rcases h with h | h
    · exact .inl h
    · right; omega
  · rw [varf_to_cross, if_pos]
    rcases h with h | h
    · exact .inl h
    · right; omega

/-- **C57.** The remaining corner: the cross of degree 0 contains `(1, ..., 1)`, which a triangle of degree `dim - 1` does not contain;
the degrees are accepted, and the lookup raises. -/
theorem C57_zero_throws [DecidableEq Φ] [SymFn Φ] (f : HSeries Φ) (hf : SeriesOk f) (hs : f.index_set = .triangle)
    (hu : Usable .triangle f.position.dim (f.degree + 1)) (hd : f.position.dim = f.degree + 1) : series_to_cross f 0 = .throws := by
  have hdim := hu.dim_pos
  obtain ⟨L, hL, hlen⟩ := hf.list
  rw [hs] at hL
  obtain ⟨L1, hL1⟩ := iterOk_exists hu.toSized.fits'
  obtain ⟨Lc, hLc⟩ := iterOk_exists (s := .cross) (dim := f.position.dim) (degree := 0) ⟨hdim, by simp⟩
  have hlt : L1.length < u32 := by rw [hL1.length]; exact hu.toSized.card_lt
  have hsub : ∀ m ∈ Lc, m ∈ L1 := fun m hm => (hL1.mem m).2 (cross_subset hdim (by omega) ((hLc.mem m).1 hm))
  rw [series_to_cross, if_neg (by simp only [hs, not_true, false_or, not_not]; omega), cross_positions hLc hL1 hlt hsub, Out.ok_bind,
    mapM_throws]
  · rfl
  · intro k _
    rw [pyget]
    cases f.coeffs[k]? <;> simp
  · have h1 : List.replicate f.position.dim 1 ∈ Lc := (hLc.mem _).2 ⟨by simp, by simp⟩
    refine ⟨L1.idxOf (List.replicate f.position.dim 1), List.mem_map.2 ⟨_, h1, rfl⟩, ?_⟩
    have hpre : L <+: L1 := IterOk.prefix (by decide) hdim (by omega) hL hL1
    have hnot : List.replicate f.position.dim 1 ∉ L := by
      intro h
      have := ((hL.mem _).1 h).2
      simp at this
      omega
    have : f.coeffs.length ≤ L1.idxOf (List.replicate f.position.dim 1) := by
      rw [hlen]
      by_contra hc
      obtain ⟨t, rfl⟩ := hpre
      have h2 := List.getElem?_idxOf (hsub _ h1)
      rw [List.getElem?_append_left (by omega)] at h2
      exact hnot (List.mem_of_getElem? h2)
    rw [pyget, List.getElem?_eq_none this]

end Hermipy.Props
