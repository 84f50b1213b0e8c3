import Verif.Lemmas.SeriesProject
import Verif.Props.SeriesTensorize
import Verif.Props.Function

/-! # C73: `Series.project` -/

namespace Hermipy.Props
open Hermipy Hermipy.Spec
variable {F : Type}

theorem partOn_sub (p : Product F) (d0 : ℕ) (ds : List ℕ) : subProduct p d0 ds = partOn p.toList d0 ds := by
  rw [partOn, Multiset.coe_toList, subProduct]

theorem mem_relDirs {p : Position} (hn : p.dirs.Nodup) {ds : List ℕ} (hm : ∀ d ∈ ds, d ∈ p.dirs) {i : ℕ} (hi : i < p.dirs.length) :
    i ∈ relDirs p ds ↔ p.dirs[i] ∈ ds := by
  constructor
  · intro h
    obtain ⟨d, hd, e⟩ := List.mem_map.1 h
    have := List.getElem_idxOf (List.idxOf_lt_length_of_mem (hm d hd))
    simp only [e] at this
    rwa [this]
  · intro h
    exact List.mem_map.2 ⟨_, h, hn.idxOf_getElem i hi⟩

/-- The multi-index with entries `K` in the directions `ds`, in terms of the numbers of the directions. -/
theorem embed_dirs {p : Position} (hp : PosOk p) {ds K : List ℕ} (hn : p.dirs.Nodup) (hs : ds.Nodup) (hm : ∀ d ∈ ds, d ∈ p.dirs)
    (hK : K.length = ds.length) : embed p.dim (relDirs p ds) K = p.dirs.map (at' ds K) := by
  have hd := hp.dirs
  apply List.ext_getElem
  · simp [embed, hd]
  · intro i h1 h2
    have hi : i < p.dirs.length := by simpa using h2
    simp only [embed, List.getElem_map, List.getElem_range]
    by_cases hx : p.dirs[i] ∈ ds
    · have e : (relDirs p ds).idxOf i = ds.idxOf p.dirs[i] := by
        have hlt := List.idxOf_lt_length_of_mem hx
        have h3 : (relDirs p ds)[ds.idxOf p.dirs[i]]'(by simpa [relDirs] using hlt) = i := by
          simp only [relDirs, List.getElem_map, List.getElem_idxOf]
          exact hn.idxOf_getElem i hi
        conv_lhs => rw [← h3]
        exact (relDirs_nodup hs hm).idxOf_getElem _ _
      rw [at', at', e]
    · rw [at'_of_notMem hx (by omega), at'_of_notMem _ (by simp [relDirs, hK])]
      rwa [mem_relDirs hn hm hi]

theorem sub_has {p : Position} (hp : PosOk p) {ds : List ℕ} (hm : ∀ d ∈ ds, d ∈ p.dirs) (d : ℕ) (x : ℝ × ℝ × String) :
    Has (subPos p ds) d x ↔ Has p d x ∧ d ∈ ds := by
  rw [subPos, assemble_has]
  constructor
  · rintro ⟨h, rfl⟩
    exact ⟨dirData_has hp (hm d h), h⟩
  · rintro ⟨h, hd⟩
    exact ⟨hd, h.unique hp (dirData_has hp (hm d hd))⟩

/-- C73 (partial: only if no factor couples the directions to others; for these see `C73_rejects` and `C73_false`). The projection of a series on some of its directions: the position keeps mean, variance and type of these directions, the factor keeps
the factors which depend on them (and the constants, if the lowest direction of the series is among them), and the coefficient at `K` is that
of the series at the multi-index with the entries `K` in these directions and zeros in the others. -/
theorem C73_project_partial {f : HSeries (SFn F)} {p : Product F} {ds : List ℕ} (h : Projectable f p ds) (hu : Usable f.index_set ds.length f.degree)
    {L : List (List ℕ)} (hL : f.index_set.s_list f.position.dim f.degree = .ok L) :
    ∃ g, series_project f ds = .ok g ∧ SeriesOk g ∧ Diagonal g.position ∧ g.position.dirs = ds ∧
      (∀ d x, Has g.position d x ↔ Has f.position d x ∧ d ∈ ds) ∧ g.index_set = f.index_set ∧
      g.factor = ⟨ds, {partOn p.toList (f.position.dirs.headD 0) ds}⟩ ∧
      ∀ K y, Coef g K y ↔ InSet f.index_set ds.length f.degree K ∧ y = coef L f.coeffs (f.position.dirs.map (at' ds K)) := by
  obtain ⟨L', hL', hlen⟩ := h.ok.list
  cases Out.ok.inj (hL.symm.trans hL'.list)
  obtain ⟨g, Ls, e, ok, gpos, gfac, gset, -, i1, i2, gco⟩ := series_project_ok h hu hL'
  have hsorted : f.position.dirs.Pairwise (· < ·) := h.facDirs ▸ h.fac.sorted
  refine ⟨g, e, ok, by rw [gpos]; exact subPos_diagonal _ _, by rw [gpos]; rfl, ?_, gset, by rw [gfac, partOn_sub], ?_⟩
  · rw [gpos]
    exact sub_has h.ok.pos h.mem
  · intro K y
    have hl : g.index_set.s_list g.position.dim g.degree = .ok Ls := by
      rw [gset, gpos, subPos_dim]; exact i2.list
    rw [coef_iff hl, gco]
    constructor
    · rintro ⟨k, h1, h2⟩
      have hin := (i1.mem K).1 (List.mem_of_getElem? h1)
      refine ⟨hin, ?_⟩
      rw [List.getElem?_map, h1] at h2
      rw [← embed_dirs h.ok.pos hsorted.nodup h.sorted.nodup h.mem (inSet_length hin)]
      exact (Option.some.inj h2).symm
    · rintro ⟨hin, rfl⟩
      have h2 := getElem?_idxOf' ((i1.mem K).2 hin)
      refine ⟨_, h2, ?_⟩
      rw [List.getElem?_map, h2, ← embed_dirs h.ok.pos hsorted.nodup h.sorted.nodup h.mem (inSet_length hin)]
      rfl

/-- C73. Except for the rectangle, and for the rectangle if the lowest direction is kept, every coefficient of the projection is a
coefficient of the series. -/
theorem C73_coef_partial {f : HSeries (SFn F)} {p : Product F} {ds : List ℕ} (h : Projectable f p ds) (hu : Usable f.index_set ds.length f.degree)
    (hr : f.index_set = .rectangle → f.position.dirs.headD 0 ∈ ds) :
    ∃ g, series_project f ds = .ok g ∧
      ∀ K y, Coef g K y ↔ K.length = ds.length ∧ Coef f (f.position.dirs.map (at' ds K)) y := by
  obtain ⟨L, hL, hlen⟩ := h.ok.list
  obtain ⟨g, e, -, -, -, -, -, -, gco⟩ := C73_project_partial h hu hL.list
  have hsorted : f.position.dirs.Pairwise (· < ·) := h.facDirs ▸ h.fac.sorted
  have hrel : Dirs f.index_set f.position.dim (relDirs f.position ds) :=
    dirs_of_increasing _ (by simpa [relDirs] using h.ne) (relDirs_pairwise hsorted h.sorted h.mem) (relDirs_lt h.ok.pos h.mem)
  have hlr : (relDirs f.position ds).length = ds.length := by simp [relDirs]
  have h0 : f.index_set = .rectangle → 0 ∈ relDirs f.position ds := by
    intro hs
    have h1 : 0 < f.position.dirs.length := List.length_pos_iff.2 h.ok.dirs
    rw [mem_relDirs hsorted.nodup h.mem h1]
    have h2 := hr hs
    rw [List.headD_eq_head?_getD, List.head?_eq_getElem?, List.getElem?_eq_getElem h1] at h2
    exact h2
  refine ⟨g, e, fun K y => ?_⟩
  rw [gco]
  constructor
  · rintro ⟨hin, hy⟩
    have hl := inSet_length hin
    refine ⟨hl, ?_⟩
    rw [← embed_dirs h.ok.pos hsorted.nodup h.sorted.nodup h.mem hl] at hy ⊢
    have hm := inSet_embed hrel h0 (by rw [hlr]; exact hin)
    exact (coef_eq hL hlen ((hL.mem _).2 hm)).2 hy
  · rintro ⟨hl, hy⟩
    rw [← embed_dirs h.ok.pos hsorted.nodup h.sorted.nodup h.mem hl] at hy ⊢
    obtain ⟨k, h1, h2⟩ := (coef_iff hL.list _ _).1 hy
    have hm := List.mem_of_getElem? h1
    refine ⟨?_, (coef_eq hL hlen hm).1 hy⟩
    have := inSet_restrict hrel ((hL.mem _).1 hm)
    rwa [restrict_embed hrel.nodup hrel.lt (by rw [hlr]; exact hl), hlr] at this

/-- C73. The projection integrates the other directions out: its value at the standardised coordinates `y` is the mean of the series over
the other directions, for the Gaussian measure in Hermite directions and for the Lebesgue measure on `[-π, π]`, divided by `√(2π)`, in
Fourier directions. -/
theorem C73_mean_partial {f : HSeries (SFn F)} {p : Product F} {ds : List ℕ} (h : Projectable f p ds) (hu : Usable f.index_set ds.length f.degree)
    {L : List (List ℕ)} (hL : f.index_set.s_list f.position.dim f.degree = .ok L) :
    ∃ g Lg, series_project f ds = .ok g ∧ g.index_set.s_list g.position.dim g.degree = .ok Lg ∧
      ∀ y : ℕ → ℝ, series g.position.dim (flags g.position) Lg g.coeffs (g.position.dirs.map y) =
        means (flags f.position) (others f.position ds) (series f.position.dim (flags f.position) L f.coeffs) (f.position.dirs.map y) := by
  obtain ⟨L', hL', hlen⟩ := h.ok.list
  cases Out.ok.inj (hL.symm.trans hL'.list)
  obtain ⟨g, Ls, e, ok, gpos, gfac, gset, -, i1, i2, gco⟩ := series_project_ok h hu hL'
  have hsorted : f.position.dirs.Pairwise (· < ·) := h.facDirs ▸ h.fac.sorted
  have hrel : Dirs f.index_set f.position.dim (relDirs f.position ds) :=
    dirs_of_increasing _ (by simpa [relDirs] using h.ne) (relDirs_pairwise hsorted h.sorted h.mem) (relDirs_lt h.ok.pos h.mem)
  have hlr : (relDirs f.position ds).length = ds.length := by simp [relDirs]
  have hdim := h.ok.pos.dirs
  refine ⟨g, Ls, e, by rw [gset, gpos, subPos_dim]; exact i2.list, fun y => ?_⟩
  have hoth : ∀ k, k ∈ others f.position ds ↔ k < f.position.dim ∧ k ∉ relDirs f.position ds := by
    intro k
    rw [others, List.mem_filter, List.mem_range]
    refine and_congr_right fun hk => ?_
    rw [mem_relDirs hsorted.nodup h.mem (by omega)]
    have : k < f.position.dirs.length := by omega
    simp [this]
  rw [means_series (dim := f.position.dim) _ _ _ (others f.position ds) (List.nodup_range.filter _) (fun k hk => ((hoth k).1 hk).1) _ (by simp [hdim])]
  have hset : Finset.range f.position.dim \ (others f.position ds).toFinset = (relDirs f.position ds).toFinset := by
    ext k
    simp only [Finset.mem_sdiff, Finset.mem_range, List.mem_toFinset, hoth]
    constructor
    · rintro ⟨h1, h2⟩
      by_contra h3
      exact h2 ⟨h1, h3⟩
    · intro h1
      exact ⟨hrel.lt k h1, fun h2 => h2.2 h1⟩
  have hprod : ∀ m : List ℕ, ∏ i ∈ (relDirs f.position ds).toFinset, phi ((flags f.position).getD i 0) (m.getD i 0) ((f.position.dirs.map y).getD i 0) =
      basis ds.length (flags g.position) (restrict (relDirs f.position ds) m) (ds.map y) := by
    intro m
    symm
    have hg : ∀ {j}, j < ds.length → (relDirs f.position ds).getD j 0 = f.position.dirs.idxOf (ds.getD j 0) := by
      intro j hj
      simp [relDirs, hj]
    refine Finset.prod_nbij (fun j => (relDirs f.position ds).getD j 0) ?_ ?_ ?_ ?_
    · intro j hj
      have hj' : j < (relDirs f.position ds).length := by rw [hlr]; simpa using hj
      rw [List.mem_toFinset]
      have : (relDirs f.position ds).getD j 0 = (relDirs f.position ds)[j] := by simp [hj']
      rw [this]
      exact List.getElem_mem hj'
    · intro i hi j hj hij
      have hi' : i < (relDirs f.position ds).length := by rw [hlr]; simpa using hi
      have hj' : j < (relDirs f.position ds).length := by rw [hlr]; simpa using hj
      refine (hrel.nodup.getElem_inj_iff (hi := hi') (hj := hj')).1 ?_
      simpa [hi', hj'] using hij
    · intro k hk
      have hk' : k ∈ relDirs f.position ds := by simpa using hk
      obtain ⟨j, hj, rfl⟩ := List.getElem_of_mem hk'
      refine ⟨j, by simpa [hlr] using hj, by simp [hj]⟩
    · intro j hj
      have hj' : j < ds.length := by simpa using hj
      have hd := h.mem _ (List.getElem_mem hj')
      have hlt := List.idxOf_lt_length_of_mem hd
      have h1 : (f.position.dirs.map y).getD (f.position.dirs.idxOf ds[j]) 0 = y ds[j] := by
        simp [hlt]
      have h2 : (flags g.position).getD j 0 = (flags f.position).getD (f.position.dirs.idxOf ds[j]) 0 := by
        have ht : f.position.dirs.idxOf ds[j] < f.position.types.length := by rw [h.ok.pos.types, ← hdim]; exact hlt
        simp [flags, gpos, subPos, assemble, dirData, hj', ht]
      rw [hg hj', restrict]
      have h3 : ds.getD j 0 = ds[j] := by simp [hj']
      rw [h3, h1, h2]
      simp [relDirs, hj']
  have hif : ∀ m : List ℕ, (∀ k ∈ others f.position ds, m.getD k 0 = 0) ↔ ∀ k, k < f.position.dim → k ∉ relDirs f.position ds → m.getD k 0 = 0 := by
    intro m
    simp only [hoth, and_imp]
  simp only [hset, hprod, hif]
  rw [sum_aligned hrel hL' (by rw [hlr]; exact i1) hlen (fun K => basis ds.length (flags g.position) K (ds.map y)), gco, series]
  rw [gpos, subPos_dim, subPos_dirs]
  refine Finset.sum_congr rfl fun j hj => ?_
  have hj' : j < Ls.length := by simpa using hj
  simp [hj']

/-- C73. A direction which the series does not have is rejected; so is a series whose covariance is not diagonal, and a single direction
which a factor couples to others. -/
theorem C73_rejects {f : HSeries (SFn F)} (ok : SeriesOk f) {ds : List ℕ} :
    ((∃ d ∈ ds, d ∉ f.position.dirs) → series_project f ds = .throws) ∧
    (¬ f.position.is_diag → f.position.dirs.Pairwise (· < ·) → ds ≠ [] → ds.Pairwise (· < ·) → series_project f ds = .throws) ∧
    ∀ (p : Product F) (d : ℕ), SFnOk f.factor → f.factor.dirs = f.position.dirs → f.factor.terms = {p} → Couples p.toList [d] →
      Diagonal f.position → series_project f [d] = .throws := by
  have h1 : ∀ {ds : List ℕ}, (∃ d ∈ ds, d ∉ f.position.dirs) → series_project f ds = .throws := by
    rintro ds ⟨d, hd, hn⟩
    rw [series_project, mapM_throws]
    · rfl
    · intro e _
      by_cases he : e ∈ f.position.dirs
      · exact .inl ⟨_, by rw [pyindex, if_pos he]⟩
      · exact .inr (by rw [pyindex, if_neg he])
    · exact ⟨d, hd, by rw [pyindex, if_neg hn]⟩
  have h2 : ∀ {ds : List ℕ}, f.position.dirs.Pairwise (· < ·) → ds ≠ [] → ds.Pairwise (· < ·) → (∀ d ∈ ds, d ∈ f.position.dirs) →
      ∃ r, series_project f ds = (do
        let p_pos ← pos_project f.position ds
        let factor ← fn_project f.factor.toFn ds
        mkSeries r p_pos (SFn.ofProduct factor) f.index_set) := by
    intro ds hsorted hne hs hm
    have hrel : Dirs f.index_set f.position.dim (relDirs f.position ds) :=
      dirs_of_increasing _ (by simpa [relDirs] using hne) (relDirs_pairwise hsorted hs hm) (relDirs_lt ok.pos hm)
    obtain ⟨L, hL, hlen⟩ := ok.list
    obtain ⟨Ls, r, -, e2, -, -⟩ := project_vec_ok ok.usable hrel hL hlen
    exact ⟨r, by rw [series_project, relDirs_ok hm, Out.ok_bind, e2, Out.ok_bind]⟩
  refine ⟨h1, fun hnd hsorted hne hs => ?_, fun p d fac fd ht hc diag => ?_⟩
  · by_cases hm : ∀ d ∈ ds, d ∈ f.position.dirs
    · obtain ⟨r, e⟩ := h2 hsorted hne hs hm
      rw [e, pos_project, if_pos (Or.inl hnd)]
      rfl
    · push Not at hm
      exact h1 hm
  · have hsorted : f.position.dirs.Pairwise (· < ·) := fd ▸ fac.sorted
    by_cases hm : d ∈ f.position.dirs
    · obtain ⟨r, e⟩ := h2 (ds := [d]) hsorted (by simp) (by simp) (by simpa using hm)
      obtain ⟨d0, ds', hd0⟩ := List.exists_cons_of_ne_nil ok.dirs
      rw [e, pos_project_sub ok.pos diag (by simp) (by simpa using hm), Out.ok_bind,
        (C51_single fac.fnOk (args := p.toList) (by rw [toFn_single ht]) (d0 := d0) (ds := ds') (by rw [← hd0, ← fd]; rfl) d).2 hc]
      rfl
    · exact h1 ⟨d, by simp, hm⟩

theorem tensorize_terms [DecidableEq F] {s1 s2 r : HSeries (SFn F)} {p1 p2 : Product F} {D : List ℕ} (h : Compatible s1 s2 p1 p2 [])
    (hsf : SharedFree s1.position.dirs s2.position.dirs D []) (hD : D ≠ []) (huD : Usable s1.index_set D.length s1.degree)
    (hr : series_tensorize [s1, s2] = .ok r) : r.factor.terms = {p1 + p2} ∧ SameSets s1.index_set r.degree s1.degree := by
  have d1 := h.ok1.pos.dirs
  have d2 := h.ok2.pos.dirs
  obtain ⟨L1, i1, l1⟩ := h.ok1.list
  obtain ⟨L2, i2, l2⟩ := h.ok2.list
  obtain ⟨LD, hLD⟩ := iterOk_exists huD.toSized.fits'
  obtain ⟨r', e, -, -, -, -, rfac, -, rsame, -⟩ := series_tensorize2_ok (s := s1.index_set) (degree := s1.degree) h.ok1.pos h.ok2.pos
    h.diag1.is_diag h.diag2.is_diag (h.dirs1 ▸ h.fac1.sorted) (h.dirs2 ▸ h.fac2.sorted) hsf hD h.agree rfl h.index_set.symm h.degree
    (by rw [d1]; exact h.ok1.usable) (by rw [d2, h.index_set, h.degree]; exact h.ok2.usable.toSized) huD (L1 := L1) (L2 := L2) (by rw [d1]; exact i1)
    (by rw [d2, h.index_set, h.degree]; exact i2) hLD (LK := [[]]) (Or.inl ⟨rfl, rfl⟩) l1 l2
    (c := ([], partOn p1.toList (s1.position.dirs.headD 0) []))
    (by rw [← h.dirs1]; exact project_factor h.fac1 h.terms1 (h.dirs1 ▸ h.ok1.dirs) hsf.incK h.couples1)
    (by rw [h.common, ← h.dirs2]; exact project_factor h.fac2 h.terms2 (h.dirs2 ▸ h.ok2.dirs) hsf.incK h.couples2)
    (product_vars h hsf)
  have : r = r' := by
    rw [series_tensorize, List.foldlM_cons, e] at hr
    exact (Out.ok.inj hr).symm
  subst this
  refine ⟨?_, rsame⟩
  rw [rfac]
  simp [productTerms, divTerms, h.terms1, h.terms2, partOn]

theorem coef_unique {f : HSeries (SFn F)} (ok : SeriesOk f) {m : List ℕ} {a b : ℝ} (ha : Coef f m a) (hb : Coef f m b) : a = b := by
  obtain ⟨L, hL, hlen⟩ := ok.list
  obtain ⟨k, h1, -⟩ := (coef_iff hL.list _ _).1 ha
  have hm := List.mem_of_getElem? h1
  rw [(coef_eq hL hlen hm).1 ha, (coef_eq hL hlen hm).1 hb]

/-- C73. Projecting a product of series without common directions back on the directions of the first gives the first series times the
coefficient of the second at zero. -/
theorem C73_product [DecidableEq F] [Interp F] {s1 s2 : HSeries (SFn F)} {p1 p2 : Product F} {D : List ℕ} (h : Compatible s1 s2 p1 p2 [])
    (hsf : SharedFree s1.position.dirs s2.position.dirs D []) (huD : Usable s1.index_set D.length s1.degree)
    (hr : s1.index_set = .rectangle → D.headD 0 ∈ s1.position.dirs) :
    ∃ r g, series_tensorize [s1, s2] = .ok r ∧ series_project r s1.position.dirs = .ok g ∧ g.position = s1.position ∧
      g.index_set = s1.index_set ∧ g.factor = ⟨s1.position.dirs, {partOn (p1 + p2).toList (D.headD 0) s1.position.dirs}⟩ ∧
      ∀ K y, Coef g K y ↔ ∃ a b, Coef s1 K a ∧ Coef s2 (List.replicate s2.position.dim 0) b ∧ y = a * b := by
  have hdisj : ∀ x, x ∈ s1.position.dirs → x ∈ s2.position.dirs → False := by
    intro x h1 h2
    have := (hsf.memK x).2 ⟨h1, h2⟩
    simp at this
  have hin1 : ∀ x ∈ s1.position.dirs, x ∈ D := fun x hx => (hsf.memD x).2 (Or.inl ⟨hx, fun h => hdisj x hx h⟩)
  have hD : D ≠ [] := by
    obtain ⟨x, l, hx⟩ := List.exists_cons_of_ne_nil h.ok1.dirs
    have := hin1 x (by rw [hx]; simp)
    exact List.ne_nil_of_mem this
  obtain ⟨L1, i1, l1⟩ := h.ok1.list
  obtain ⟨L2, i2, l2⟩ := h.ok2.list
  obtain ⟨r, e, ok, rdiag, rdirs, rhas, rset, rfacok, rfd, -, -⟩ := C67_tensorize h hsf hD huD i1.list i2.list (LK := [[]]) (Or.inl ⟨rfl, rfl⟩)
  obtain ⟨r', e', -, rhas', -, rco⟩ := C67_disjoint h hsf hD huD
  cases Out.ok.inj (e.symm.trans e')
  have d1 := h.ok1.pos.dirs
  have s1sorted : s1.position.dirs.Pairwise (· < ·) := h.dirs1 ▸ h.fac1.sorted
  obtain ⟨rterms, rsame⟩ := tensorize_terms h hsf hD huD e
  have hP : Projectable r (p1 + p2) s1.position.dirs := by
    refine ⟨ok, rdiag, rfacok, by rw [rfd, rdirs], rterms, h.ok1.dirs, s1sorted, by rw [rdirs]; exact hin1, ?_⟩
    rintro ⟨a, ha, ⟨x, hx, hx1⟩, y, hy, hy1⟩
    rw [Multiset.mem_toList, Multiset.mem_add] at ha
    rcases ha with ha | ha
    · exact hy1 (h.dirs1 ▸ h.fac1.vars p1 (by simp [h.terms1]) a ha y hy)
    · exact hdisj x hx1 (h.dirs2 ▸ h.fac2.vars p2 (by simp [h.terms2]) a ha x hx)
  have hu1 : Usable r.index_set s1.position.dirs.length r.degree := by
    rw [rset, d1]
    exact usable_congr h.ok1.usable rsame
  obtain ⟨Lr, ir, lr⟩ := ok.list
  obtain ⟨g, eg, gok, gdiag, gdirs, ghas, gset, gfac, gco⟩ := C73_project_partial hP hu1 ir.list
  obtain ⟨g', eg', gco'⟩ := C73_coef_partial hP hu1 (by rw [rset, rdirs]; exact hr)
  cases Out.ok.inj (eg.symm.trans eg')
  refine ⟨r, g, e, eg, ?_, by rw [gset, rset], by rw [gfac, rdirs], ?_⟩
  · refine position_ext gok.pos h.ok1.pos gdiag h.diag1 gdirs ?_
    intro d x hx
    obtain ⟨h1, h2⟩ := (ghas d x).1 hx
    rcases (rhas' d x).1 h1 with h3 | h3
    · exact h3
    · exact absurd h3.mem (fun h4 => hdisj d h2 h4)
  · have fwd : ∀ K y, Coef g K y → ∃ a b, Coef s1 K a ∧ Coef s2 (List.replicate s2.position.dim 0) b ∧ y = a * b := by
      intro K y hy
      obtain ⟨hl, hy⟩ := (gco' K y).1 hy
      obtain ⟨-, a, b, ha, hb, e⟩ := (rco _ _).1 hy
      rw [rdirs] at ha hb
      have k1 : s1.position.dirs.map (at' D (D.map (at' s1.position.dirs K))) = K := by
        rw [← map_at'_self s1sorted.nodup hl]
        apply List.map_congr_left
        intro x hx
        rw [map_at'_self s1sorted.nodup hl]
        exact at'_along (hin1 x hx)
      have k2 : s2.position.dirs.map (at' D (D.map (at' s1.position.dirs K))) = List.replicate s2.position.dim 0 := by
        rw [List.eq_replicate_iff]
        refine ⟨by simp [h.ok2.pos.dirs], ?_⟩
        intro z hz
        obtain ⟨x, hx, rfl⟩ := List.mem_map.1 hz
        have hxD : x ∈ D := (hsf.memD x).2 (Or.inr ⟨hx, fun h => hdisj x h hx⟩)
        have := at'_along (d := D) (d' := s1.position.dirs) (m := K) hxD
        rw [along] at this
        rw [this]
        exact at'_of_notMem (fun h1 => hdisj x h1 hx) (by omega)
      rw [k1] at ha
      rw [k2] at hb
      exact ⟨a, b, ha, hb, e⟩
    intro K y
    refine ⟨fwd K y, ?_⟩
    rintro ⟨a, b, ha, hb, rfl⟩
    obtain ⟨k, h1, -⟩ := (coef_iff i1.list _ _).1 ha
    have hin := (i1.mem _).1 (List.mem_of_getElem? h1)
    have hy := (gco K _).2 ⟨by rw [rset, d1]; exact (rsame _ _).2 hin, rfl⟩
    obtain ⟨a', b', ha', hb', e'⟩ := fwd K _ hy
    rw [coef_unique h.ok1 ha ha', coef_unique h.ok2 hb hb', ← e']
    exact hy

/-! ## The hypotheses can be met -/

/-- A position for the examples: three directions, the last one periodic. -/
def pos73 : Position := ⟨3, [0, 1, 2], [7, 5, 0], diagMat [1, 4, 1], ["hermite", "hermite", "fourier"]⟩

theorem pos73_ok : PosOk pos73 := ⟨rfl, rfl, rfl, by simp [pos73, diagMat], rfl, by simp [pos73]⟩

theorem pos73_diag : Diagonal pos73 := by
  have : pos73 = assemble [0, 1, 2] [(7, 1, "hermite"), (5, 4, "hermite"), (0, 1, "fourier")] := rfl
  rw [this]
  exact assemble_diagonal _ _

theorem series73 {F : Type} (s : IndexSet) (fac : SFn F) :
    ∃ f : HSeries (SFn F), SeriesOk f ∧ f.position = pos73 ∧ f.factor = fac ∧ f.index_set = s ∧ SameSets s f.degree 2 := by
  have hu := usable_small s (dim := 3) (degree := 2) (by simp) (by simp) (by simp)
  obtain ⟨L, hL⟩ := iterOk_exists hu.toSized.fits'
  obtain ⟨f, -, ok, -, h2, h3, h4, -, h6⟩ := mkSeries_ok (factor := fac) pos73_ok (by simp [pos73]) (s := s) (d := 2) (L := L) hu hL
    (coeffs := (List.range L.length).map fun k => (k : ℝ)) (by simp)
  exact ⟨f, ok, h2, h3, h4, h6⟩

/-- C73 is false for factors which couple the directions to others: the projection of a series with the factor `exp(x1*x2)` on the
directions 0 and 1 is a series with the factor one; the part of the factor which depends on `x1` is dropped without an error. -/
theorem C73_false (s : IndexSet) : ∃ f g : HSeries (SFn String), SeriesOk f ∧ Diagonal f.position ∧ SFnOk f.factor ∧
    f.factor.dirs = f.position.dirs ∧ f.factor.terms = {{({1, 2}, "exp(x1*x2)")}} ∧
    Couples [(({1, 2} : Finset ℕ), "exp(x1*x2)")] [0, 1] ∧ (∀ d ∈ [0, 1], d ∈ f.position.dirs) ∧
    series_project f [0, 1] = .ok g ∧ g.factor.terms = {0} := by
  obtain ⟨f, ok, hp, hf, hs, hsame⟩ := series73 s ⟨[0, 1, 2], {{(({1, 2} : Finset ℕ), "exp(x1*x2)")}}⟩
  have hrel : relDirs f.position [0, 1] = [0, 1] := by rw [hp]; rfl
  have hmem : ∀ d ∈ [0, 1], d ∈ f.position.dirs := by rw [hp]; simp [pos73]
  have hdim : f.position.dim = 3 := by rw [hp]; rfl
  have hdiag : Diagonal f.position := by rw [hp]; exact pos73_diag
  obtain ⟨L, hL, hlen⟩ := ok.list
  have hd : Dirs f.index_set f.position.dim (relDirs f.position [0, 1]) := by
    rw [hrel, hdim]
    exact dirs_of_increasing _ (by simp) (by simp) (by simp)
  obtain ⟨Ls, r, i1, e2, l1, -⟩ := project_vec_ok ok.usable hd hL hlen
  have e1 : fn_project f.factor.toFn [0, 1] = .ok ([0, 1], 0) := by
    rw [hf, toFn_single rfl, fn_project_eq (args := [(({1, 2} : Finset ℕ), "exp(x1*x2)")]) (d0 := 0) (ds := [1, 2]) ⟨by simp, ?_⟩ (by simp) rfl]
    · have hsplit : splitTerm [0, 1, 2] [(({1, 2} : Finset ℕ), "exp(x1*x2)")] =
          [({0}, 0), (∅, 0), ({2, 1}, {({1, 2}, "exp(x1*x2)")})] := by decide
      rw [hsplit]
      have : projectLoop [0, 1] [(({0} : Finset ℕ), (0 : Product String)), (∅, 0), ({2, 1}, {({1, 2}, "exp(x1*x2)")})]
          (if 0 ∈ [0, 1] then Multiset.filter (fun a : Factor String => a.1 = ∅)
            ([(({1, 2} : Finset ℕ), "exp(x1*x2)")] : List (Factor String)) else 0) = .ok 0 := by decide
      rw [this, Out.ok_bind, mkFunction_ok (by simp [isSorted]) (by simp)]
    · simp
  have hu2 := usable_small s (dim := 2) (degree := 2) (by simp) (by simp) (by simp)
  obtain ⟨g, e3, -, -, -, c3, -⟩ := mkSeries_ok (coeffs := r) (p := subPos f.position [0, 1]) (factor := SFn.ofProduct ([0, 1], (0 : Product String)))
    (s := f.index_set) (d := f.degree) (L := Ls) (subPos_ok _ (by simp)) (by rw [subPos_dirs]; simp)
    (by rw [subPos_dim, hs]; exact usable_congr hu2 hsame) (by rw [subPos_dim]; rw [hrel] at i1; exact i1) l1
  refine ⟨f, g, ok, hdiag, by rw [hf]; exact ⟨by simp, by simp⟩, by rw [hf, hp]; rfl, by rw [hf],
    ⟨({1, 2}, "exp(x1*x2)"), by simp, ⟨1, by simp, by simp⟩, 2, by simp, by simp⟩, hmem, ?_, by rw [c3]; rfl⟩
  rw [series_project, relDirs_ok hmem, Out.ok_bind, e2, Out.ok_bind, pos_project_sub ok.pos hdiag (by simp) hmem, Out.ok_bind, e1, Out.ok_bind]
  exact e3

/-- A series on three directions with the factor `3 g(x0, x2) x1`, projected on the directions 0 and 2. -/
example : ∃ f : HSeries (SFn String), Projectable f {(∅, "3"), ({0, 2}, "g"), ({1}, "x1")} [0, 2] ∧ f.index_set = .cross ∧
    Usable f.index_set 2 f.degree ∧ f.position = pos73 := by
  obtain ⟨f, ok, hp, hf, hs, hsame⟩ := series73 .cross ⟨[0, 1, 2], {({(∅, "3"), ({0, 2}, "g"), ({1}, "x1")} : Product String)}⟩
  have hu2 := usable_small .cross (dim := 2) (degree := 2) (by simp) (by simp) (by simp)
  refine ⟨f, ⟨ok, by rw [hp]; exact pos73_diag, ?_, by rw [hf, hp]; rfl, by rw [hf], by simp, by simp, by rw [hp]; simp [pos73], ?_⟩, hs,
    by rw [hs]; exact usable_congr hu2 hsame, hp⟩
  · rw [hf]
    exact ⟨by simp, by simp; rintro a b (⟨rfl, rfl⟩ | ⟨rfl, rfl⟩ | ⟨rfl, rfl⟩) <;> simp⟩
  · rintro ⟨a, ha, ⟨x, hx, hx1⟩, y, hy, hy1⟩
    simp at ha
    rcases ha with rfl | rfl | rfl <;> simp at hx hy hx1 hy1 <;> omega

end Hermipy.Props
