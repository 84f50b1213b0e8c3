import Verif.Lemmas.SeriesTensorize
import Verif.Lemmas.QuadIntegrate
import Verif.Lemmas.Small
import Verif.Props.Arithmetic

/-! # Transforms of products -/

namespace Hermipy
open Spec
variable {F : Type}

/-- The degree which is read back from the number of coefficients, in small dimensions. -/
def recDegree (s : IndexSet) (degree : ℕ) : ℕ :=
  if s = .cross ∧ degree = 0 then 1 else if s = .cross_nc ∧ degree = 1 then 0 else degree

theorem recDegree_same (s : IndexSet) (degree : ℕ) : SameSets s (recDegree s degree) degree := by
  unfold recDegree
  split
  · rename_i h
    obtain ⟨rfl, rfl⟩ := h
    exact fun k m => Iff.rfl
  · split
    · rename_i h
      obtain ⟨rfl, rfl⟩ := h
      exact fun k m => Iff.rfl
    · exact fun k m => Iff.rfl

theorem sameSets_eq {s : IndexSet} {d degree : ℕ} (h : SameSets s d degree) : d = degree ∨ ((s = .cross ∨ s = .cross_nc) ∧ d ≤ 1 ∧ degree ≤ 1) := by
  have hc : card s 1 d = card s 1 degree := by
    unfold card
    congr 1
    ext m
    exact h 1 m
  by_contra hne
  push Not at hne
  obtain ⟨hne, hcr⟩ := hne
  rcases Nat.lt_or_gt_of_ne hne with hlt | hlt
  · have hcs : ¬ (s = .cross ∨ s = .cross_nc → 1 ≤ d) := fun h' => by
      have := card_strict (s := s) (le_refl 1) hlt h'
      omega
    push Not at hcs
    obtain ⟨hs, h0⟩ := hcs
    have h2 := hcr hs (by omega)
    have := card_strict (s := s) (le_refl 1) (show 1 < degree by omega) (fun _ => le_refl _)
    have h01 := card_cross_zero hs 1
    have : d = 0 := by omega
    subst this
    omega
  · have hcs : ¬ (s = .cross ∨ s = .cross_nc → 1 ≤ degree) := fun h' => by
      have := card_strict (s := s) (le_refl 1) hlt h'
      omega
    push Not at hcs
    obtain ⟨hs, h0⟩ := hcs
    have hd2 : 1 < d := by
      by_contra hd
      have := hcr hs (by omega)
      omega
    have := card_strict (s := s) (le_refl 1) hd2 (fun _ => le_refl _)
    have h01 := card_cross_zero hs 1
    have : degree = 0 := by omega
    subst this
    omega

theorem get_degree_cross {dim degree : ℕ} (h1 : 1 ≤ dim) (h0 : degree ≠ 0) (hdeg : degree ≤ 250) :
    IndexSet.cross.s_get_degree dim (card .cross dim degree) = .ok degree := by
  have hf : Fits .cross dim 250 := ⟨h1, by simp⟩
  obtain ⟨L, hL⟩ := iterOk_exists hf
  obtain ⟨L', hL'⟩ := iterOk_exists (hf.mono hdeg)
  have hpre := IterOk.prefix (s := .cross) (by simp) hf.1 hdeg hL' hL
  have hlast := hL'.last_cross hf.1 (by omega)
  have hne : L'.length ≠ 0 := by simpa using hL'.runs.ne_nil
  have hget : L[card .cross dim degree - 1]? = some (degree :: List.replicate (dim - 1) 1) := by
    rw [← hL'.length, ← hlast]
    obtain ⟨t, rfl⟩ := hpre
    rw [List.getElem?_append_left (by omega)]
  rw [IndexSet.s_get_degree]
  simp only [DEGREE_BISSECT_MAX, hL.iter, Out.ok_bind, if_neg (show ¬ card .cross dim degree = 0 by rw [← hL'.length]; exact hne)]
  simp only [freshIter, rd, hget]
  simp

theorem get_degree_nc_zero {dim : ℕ} (hf : Fits .cross_nc dim 0) (hc : card .cross_nc dim 0 < u32)
    (h : ∃ d, IndexSet.cross_nc.s_get_degree dim (card .cross_nc dim 0) = .ok d) :
    IndexSet.cross_nc.s_get_degree dim (card .cross_nc dim 0) = .ok 0 := by
  obtain ⟨d, hd⟩ := h
  have hg : ∀ n, IndexSet.cross_nc.s_get_degree dim n = pos_bissect n (fun degree => IndexSet.cross_nc.s_size dim degree) DEGREE_BISSECT_MAX :=
    fun _ => rfl
  rw [hg, pos_bissect, size_eq_card hf hc, Out.ok_bind] at hd ⊢
  cases e : IndexSet.cross_nc.s_size dim DEGREE_BISSECT_MAX with
  | stop x => rw [e] at hd; cases hd
  | diverge => rw [e] at hd; cases hd
  | ok y =>
    rw [e, Out.ok_bind] at hd
    rw [Out.ok_bind]
    split at hd
    · cases hd
    · rename_i h
      rw [if_neg h, if_pos rfl]

theorem get_degree_usable (s : IndexSet) {dim degree : ℕ} (hu : Usable s dim degree) :
    s.s_get_degree dim (card s dim degree) = .ok (recDegree s degree) := by
  obtain ⟨L, d, hL, hg, hsame⟩ := hu.readable
  obtain ⟨L', hL'⟩ := iterOk_exists hu.toSized.fits'
  have : L' = L := by have := hL'.list; rw [hL] at this; exact (Out.ok.inj this).symm
  subst this
  rw [hL'.length] at hg
  rw [hg]
  congr 1
  have h1 := hu.dim_pos
  rcases sameSets_eq hsame with rfl | ⟨hs | hs, hd, hdeg⟩
  · unfold recDegree
    split
    · rename_i h
      obtain ⟨rfl, rfl⟩ := h
      have := get_degree_cross (dim := dim) (degree := 1) h1 (by omega) (by omega)
      rw [← card_cross_zero (Or.inl rfl), hg] at this
      exact Out.ok.inj this
    · split
      · rename_i h
        obtain ⟨rfl, rfl⟩ := h
        have := get_degree_nc_zero (hu.toSized.fits'.mono (Nat.zero_le 1)) (lt_of_le_of_lt (card_mono (Nat.zero_le 1)) hu.toSized.card_lt) ⟨_, by rw [card_cross_zero (Or.inr rfl)]; exact hg⟩
        rw [card_cross_zero (Or.inr rfl), hg] at this
        exact Out.ok.inj this
      · rfl
  · subst hs
    have := get_degree_cross (dim := dim) (degree := 1) h1 (by omega) (by omega)
    have hc : card .cross dim degree = card .cross dim 1 := by
      rcases (show degree = 0 ∨ degree = 1 by omega) with rfl | rfl
      · exact card_cross_zero (Or.inl rfl) dim
      · rfl
    rw [hc, this] at hg
    rw [← Out.ok.inj hg, recDegree]
    split
    · rfl
    · rename_i h
      simp at h ⊢
      omega
  · subst hs
    have hc : card .cross_nc dim degree = card .cross_nc dim 0 := by
      rcases (show degree = 0 ∨ degree = 1 by omega) with rfl | rfl
      · rfl
      · exact (card_cross_zero (Or.inr rfl) dim).symm
    rw [hc] at hg
    have := get_degree_nc_zero (hu.toSized.fits'.mono (Nat.zero_le _)) (lt_of_le_of_lt (card_mono (Nat.zero_le degree)) hu.toSized.card_lt) ⟨_, hg⟩
    rw [hg] at this
    rw [Out.ok.inj this, recDegree, if_neg (by simp)]
    split
    · rfl
    · rename_i h
      simp at h
      omega

theorem mkSeries_small {Φ : Type} {coeffs : List ℝ} {p : Position} {factor : Φ} {s : IndexSet} {d : ℕ} {L : List IVec} (hp : PosOk p)
    (hd : p.dirs ≠ []) (hu : Usable s p.dim d) (hL : IterOk s p.dim d L) (hlen : coeffs.length = L.length) :
    mkSeries coeffs p factor s = .ok ⟨coeffs, p, recDegree s d, factor, s⟩ := by
  have h1 : 1 ≤ p.dim := Nat.one_le_iff_ne_zero.2 (PosOk.dim_pos hp hd)
  obtain ⟨d', e, -, -⟩ := mkSeries_usable (factor := factor) hp hd hu hL hlen
  have hg := get_degree_usable s hu
  rw [← hL.length, ← hlen] at hg
  have : d' = recDegree s d := by
    rw [mkSeries, if_neg hd, hg, Out.ok_bind, if_neg (PosOk.dim_pos hp hd)] at e
    cases hl : s.s_list p.dim (recDegree s d) with
    | stop x => rw [hl] at e; cases e
    | diverge => rw [hl] at e; cases e
    | ok L' =>
      rw [hl, Out.ok_bind, Out.ok_bind] at e
      beta_reduce at e
      split at e
      · cases e
      · simpa using (congrArg HSeries.degree (Out.ok.inj e)).symm
  rw [e, this]

theorem coef_map_mem {L : List IVec} {g : List ℕ → ℝ} {m : List ℕ} (h : m ∈ L) : coef L (L.map g) m = g m := by
  have hi := List.idxOf_lt_length_of_mem h
  simp [coef, hi]

/-- The series on the directions `ds` of the quadrature whose coefficient at `m` is `C` of the exponents of the directions. -/
noncomputable def blockSeries (s : IndexSet) (degree : ℕ) (LL : ℕ → List (List ℕ)) (q : HQuad F) (p : Product F) (ds : List ℕ)
    (C : (ℕ → ℕ) → ℝ) : HSeries (SFn F) :=
  ⟨(LL ds.length).map fun m => C (at' ds m), subPos q.position ds, recDegree s degree,
    ⟨ds, {subProduct p (q.position.dirs.headD 0) ds}⟩, s⟩

/-- `C` depends on the exponents of the directions `a` only. -/
def LocalOn (a : Finset ℕ) (C : (ℕ → ℕ) → ℝ) : Prop := ∀ x y : ℕ → ℕ, (∀ d ∈ a, x d = y d) → C x = C y

theorem subProduct_union {p : Product F} {d0 : ℕ} {a b : Finset ℕ} (hab : Disjoint a b) (hca : ¬ Couples p.toList (a.sort (· ≤ ·))) :
    subProduct p d0 (a.sort (· ≤ ·)) + subProduct p d0 (b.sort (· ≤ ·)) = subProduct p d0 ((a ∪ b).sort (· ≤ ·)) := by
  classical
  have key := Multiset.filter_add_filter (fun f : Factor F => (∃ x ∈ f.1, x ∈ a.sort (· ≤ ·)) ∨ (f.1 = ∅ ∧ d0 ∈ a.sort (· ≤ ·)))
    (fun f => (∃ x ∈ f.1, x ∈ b.sort (· ≤ ·)) ∨ (f.1 = ∅ ∧ d0 ∈ b.sort (· ≤ ·))) p
  have hzero : Multiset.filter (fun f : Factor F => ((∃ x ∈ f.1, x ∈ a.sort (· ≤ ·)) ∨ (f.1 = ∅ ∧ d0 ∈ a.sort (· ≤ ·))) ∧
      ((∃ x ∈ f.1, x ∈ b.sort (· ≤ ·)) ∨ (f.1 = ∅ ∧ d0 ∈ b.sort (· ≤ ·)))) p = 0 := by
    rw [Multiset.filter_eq_nil]
    rintro f hf ⟨h1, h2⟩
    simp only [Finset.mem_sort] at h1 h2
    rcases h1 with ⟨x, hx, hxa⟩ | ⟨h0, h1⟩
    · rcases h2 with ⟨y, hy, hyb⟩ | ⟨h0, -⟩
      · exact hca ⟨f, Multiset.mem_toList.2 hf, ⟨x, hx, (Finset.mem_sort _).2 hxa⟩, y, hy, fun h =>
          Finset.disjoint_left.1 hab ((Finset.mem_sort _).1 h) hyb⟩
      · rw [h0] at hx; simp at hx
    · rcases h2 with ⟨y, hy, -⟩ | ⟨-, h2⟩
      · rw [h0] at hy; simp at hy
      · exact Finset.disjoint_left.1 hab h1 h2
  rw [hzero, add_zero] at key
  unfold subProduct
  convert key using 1
  apply Multiset.filter_congr
  intro f _
  simp only [Finset.mem_sort, Finset.mem_union]
  constructor
  · rintro (⟨x, hx, h | h⟩ | ⟨h0, h | h⟩)
    · exact Or.inl (Or.inl ⟨x, hx, h⟩)
    · exact Or.inr (Or.inl ⟨x, hx, h⟩)
    · exact Or.inl (Or.inr ⟨h0, h⟩)
    · exact Or.inr (Or.inr ⟨h0, h⟩)
  · rintro ((⟨x, hx, h⟩ | ⟨h0, h⟩) | (⟨x, hx, h⟩ | ⟨h0, h⟩))
    · exact Or.inl ⟨x, hx, Or.inl h⟩
    · exact Or.inr ⟨h0, Or.inl h⟩
    · exact Or.inl ⟨x, hx, Or.inr h⟩
    · exact Or.inr ⟨h0, Or.inr h⟩

theorem subProduct_vars {p : Product F} {d0 : ℕ} {ds : List ℕ} (hc : ¬ Couples p.toList ds) :
    ∀ a ∈ subProduct p d0 ds, ∀ x ∈ a.1, x ∈ ds := by
  intro a ha d hd
  rw [subProduct, Multiset.mem_filter] at ha
  rcases ha.2 with ⟨x, hx, hxd⟩ | ⟨h0, -⟩
  · by_contra hdd
    exact hc ⟨a, Multiset.mem_toList.2 ha.1, ⟨x, hx, hxd⟩, d, hd, hdd⟩
  · rw [h0] at hd; simp at hd

theorem subPos_has {p : Position} {ds : List ℕ} {d : ℕ} {x : ℝ × ℝ × String} :
    Has (subPos p ds) d x ↔ d ∈ ds ∧ x = dirData p d := assemble_has _

theorem fn_project_nil {f : SFn F} (hf : SFnOk f) (hd : f.dirs ≠ []) {p : Product F} (hp : f.terms = {p}) :
    fn_project f.toFn [] = .ok ([], 0) := by
  obtain ⟨d0, ds, hd0⟩ := List.exists_cons_of_ne_nil hd
  rw [fn_project_ok hf.fnOk (args := p.toList) (by rw [toFn_single hp]) (d0 := d0) (ds := ds) hd0 List.Pairwise.nil
    (by rintro ⟨f, -, ⟨x, -, hx⟩, -⟩; simp at hx), partOn]
  simp

variable [DecidableEq F]

theorem block_tensorize2 {s : IndexSet} {degree : ℕ} {LL : ℕ → List (List ℕ)} {q : HQuad F} (hq : QuadOk q) {p : Product F}
    (hU : UsableTo s q.position.dim degree) (hLL : ∀ n, 1 ≤ n → n ≤ q.position.dim → IterOk s n degree (LL n)) {a b : Finset ℕ}
    (ha : a.Nonempty) (hb : b.Nonempty) (hab : Disjoint a b) (hau : a ⊆ q.position.dirs.toFinset) (hbu : b ⊆ q.position.dirs.toFinset)
    (hca : ¬ Couples p.toList (a.sort (· ≤ ·))) (hcb : ¬ Couples p.toList (b.sort (· ≤ ·))) {C1 C2 : (ℕ → ℕ) → ℝ} (h1 : LocalOn a C1)
    (h2 : LocalOn b C2) :
    series_tensorize2 (blockSeries s degree LL q p (a.sort (· ≤ ·)) C1) (blockSeries s degree LL q p (b.sort (· ≤ ·)) C2) =
      .ok (blockSeries s degree LL q p ((a ∪ b).sort (· ≤ ·)) fun x => C1 x * C2 x) := by
  have hnq : q.position.dirs.Nodup := q.position.dirs.nodup_iff_pairwise_ne.2 (hq.sorted.imp (ne_of_lt ·))
  have hcard : ∀ c : Finset ℕ, c ⊆ q.position.dirs.toFinset → c.card ≤ q.position.dim := by
    intro c hc
    refine (Finset.card_le_card hc).trans ?_
    rw [List.toFinset_card_of_nodup hnq, hq.pos.dirs]
  have hun : (a ∪ b).Nonempty := ha.mono Finset.subset_union_left
  have huu : a ∪ b ⊆ q.position.dirs.toFinset := Finset.union_subset hau hbu
  have la : 1 ≤ (a.sort (· ≤ ·)).length ∧ (a.sort (· ≤ ·)).length ≤ q.position.dim := by rw [Finset.length_sort]; exact ⟨ha.card_pos, hcard a hau⟩
  have lb : 1 ≤ (b.sort (· ≤ ·)).length ∧ (b.sort (· ≤ ·)).length ≤ q.position.dim := by rw [Finset.length_sort]; exact ⟨hb.card_pos, hcard b hbu⟩
  have lu : 1 ≤ ((a ∪ b).sort (· ≤ ·)).length ∧ ((a ∪ b).sort (· ≤ ·)).length ≤ q.position.dim := by
    rw [Finset.length_sort]; exact ⟨hun.card_pos, hcard _ huu⟩
  have hD : (a ∪ b).sort (· ≤ ·) ≠ [] := by rw [← List.length_pos_iff]; omega
  have hA : a.sort (· ≤ ·) ≠ [] := by rw [← List.length_pos_iff]; omega
  have hB : b.sort (· ≤ ·) ≠ [] := by rw [← List.length_pos_iff]; omega
  have hsf : SharedFree (a.sort (· ≤ ·)) (b.sort (· ≤ ·)) ((a ∪ b).sort (· ≤ ·)) [] := by
    refine ⟨sorted_sort _, List.Pairwise.nil, ?_, ?_⟩
    · intro x
      simp only [Finset.mem_sort, Finset.mem_union]
      have : x ∈ a → x ∉ b := fun h => Finset.disjoint_left.1 hab h
      tauto
    · intro x
      simp only [Finset.mem_sort, List.not_mem_nil, false_iff, not_and]
      exact fun h => Finset.disjoint_left.1 hab h
  have hterms : productTerms (blockSeries s degree LL q p (a.sort (· ≤ ·)) C1).factor (blockSeries s degree LL q p (b.sort (· ≤ ·)) C2).factor 0 =
      {subProduct p (q.position.dirs.headD 0) ((a ∪ b).sort (· ≤ ·))} := by
    simp [productTerms, divTerms, blockSeries, subProduct_union hab hca]
  have okf : ∀ c : Finset ℕ, ¬ Couples p.toList (c.sort (· ≤ ·)) →
      SFnOk (⟨c.sort (· ≤ ·), {subProduct p (q.position.dirs.headD 0) (c.sort (· ≤ ·))}⟩ : SFn F) := by
    intro c hc
    refine ⟨sorted_sort _, ?_⟩
    intro t ht
    rw [Multiset.mem_singleton] at ht
    subst ht
    exact subProduct_vars hc
  have hcu : ¬ Couples p.toList ((a ∪ b).sort (· ≤ ·)) := by
    rintro ⟨f, hf, ⟨x, hx, hxs⟩, y, hy, hys⟩
    simp only [Finset.mem_sort, Finset.mem_union, not_or] at hxs hys
    rcases hxs with hxs | hxs
    · exact hca ⟨f, hf, ⟨x, hx, (Finset.mem_sort _).2 hxs⟩, y, hy, fun h => hys.1 ((Finset.mem_sort _).1 h)⟩
    · exact hcb ⟨f, hf, ⟨x, hx, (Finset.mem_sort _).2 hxs⟩, y, hy, fun h => hys.2 ((Finset.mem_sort _).1 h)⟩
  have iA := hLL _ la.1 la.2
  have iB := hLL _ lb.1 lb.2
  have iU := hLL _ lu.1 lu.2
  obtain ⟨r, e, ok, rdiag, rdirs, rhas, rfac, rset, -, rco⟩ := series_tensorize2_ok (s := s) (degree := degree)
    (s1 := blockSeries s degree LL q p (a.sort (· ≤ ·)) C1) (s2 := blockSeries s degree LL q p (b.sort (· ≤ ·)) C2)
    (D := (a ∪ b).sort (· ≤ ·)) (K := []) (LK := [[]]) (subPos_ok _ (sorted_sort _)) (subPos_ok _ (sorted_sort _)) (subPos_diagonal _ _).is_diag
    (subPos_diagonal _ _).is_diag (sorted_sort _) (sorted_sort _) hsf hD (by simp) rfl rfl rfl
    (hU _ la.1 la.2) (hU _ lb.1 lb.2).toSized (hU _ lu.1 lu.2) iA iB iU (Or.inl ⟨rfl, rfl⟩)
    (by simp [blockSeries, subPos_dirs]) (by simp [blockSeries, subPos_dirs]) (c := ([], 0))
    (fn_project_nil (okf a hca) hA rfl) (fn_project_nil (okf b hcb) hB rfl) (by
      intro t ht
      rw [hterms, Multiset.mem_singleton] at ht
      subst ht
      exact subProduct_vars hcu)
  rw [e]
  congr 1
  have rpos : r.position = subPos q.position ((a ∪ b).sort (· ≤ ·)) := by
    refine position_ext ok.pos (subPos_ok _ (sorted_sort _)) rdiag (subPos_diagonal _ _) rdirs ?_
    intro d x hx
    rw [rhas] at hx
    rw [subPos_has]
    simp only [blockSeries, subPos_has] at hx
    simp only [Finset.mem_sort, Finset.mem_union] at hx ⊢
    tauto
  have rdim : r.position.dim = ((a ∪ b).sort (· ≤ ·)).length := by rw [← ok.pos.dirs, rdirs]
  have rdeg : r.degree = recDegree s degree := by
    have h5 := mkSeries_small (coeffs := r.coeffs) (factor := r.factor) ok.pos ok.dirs (by rw [rdim]; exact hU _ lu.1 lu.2)
      (by rw [rdim]; exact iU) (by rw [rco]; simp)
    have h6 := ok.made
    rw [rset, h5] at h6
    exact (congrArg HSeries.degree (Out.ok.inj h6)).symm
  have rco' : r.coeffs = (LL ((a ∪ b).sort (· ≤ ·)).length).map fun m => C1 (at' ((a ∪ b).sort (· ≤ ·)) m) * C2 (at' ((a ∪ b).sort (· ≤ ·)) m) := by
    rw [rco]
    apply List.map_congr_left
    intro m hm
    have hmS := (iU.mem m).1 hm
    have part : ∀ (c : Finset ℕ) (C : (ℕ → ℕ) → ℝ), c ⊆ a ∪ b → c.sort (· ≤ ·) ≠ [] → LocalOn c C →
        IterOk s (c.sort (· ≤ ·)).length degree (LL (c.sort (· ≤ ·)).length) →
        coef (LL (c.sort (· ≤ ·)).length) ((LL (c.sort (· ≤ ·)).length).map fun m => C (at' (c.sort (· ≤ ·)) m))
          ((c.sort (· ≤ ·)).map (joint ((a ∪ b).sort (· ≤ ·)) m [] [])) = C (at' ((a ∪ b).sort (· ≤ ·)) m) := by
      intro c C hc hcne hloc hIt
      have hmem : ∀ x ∈ c.sort (· ≤ ·), x ∈ (a ∪ b).sort (· ≤ ·) := fun x hx => (Finset.mem_sort _).2 (hc ((Finset.mem_sort _).1 hx))
      have e1 : (c.sort (· ≤ ·)).map (joint ((a ∪ b).sort (· ≤ ·)) m [] []) = along ((a ∪ b).sort (· ≤ ·)) (c.sort (· ≤ ·)) m := by
        apply List.map_congr_left
        intro x hx
        rw [joint, if_pos (hmem x hx)]
      have hin := inSet_along (sorted_sort (a ∪ b)) (sorted_sort c) hcne hmem hmS
      rw [e1, coef_map_mem ((hIt.mem _).2 hin)]
      apply hloc
      intro d hd
      exact at'_along ((Finset.mem_sort _).2 hd)
    simp only [List.map_cons, List.map_nil, List.sum_cons, List.sum_nil, add_zero]
    have p1 := part a C1 Finset.subset_union_left hA h1 iA
    have p2 := part b C2 Finset.subset_union_right hB h2 iB
    rw [← p1, ← p2]
    rfl
  cases r
  simp only at rpos rdeg rco' rfac rset
  subst rpos rdeg rset
  rw [rco', rfac, hterms]
  rfl

theorem block_fold {s : IndexSet} {degree : ℕ} {LL : ℕ → List (List ℕ)} {q : HQuad F} (hq : QuadOk q) {p : Product F}
    (hU : UsableTo s q.position.dim degree) (hLL : ∀ n, 1 ≤ n → n ≤ q.position.dim → IterOk s n degree (LL n)) (Cs : Finset ℕ → (ℕ → ℕ) → ℝ) :
    ∀ (bs : List (Finset ℕ)) (a : Finset ℕ) (C : (ℕ → ℕ) → ℝ), a.Nonempty → a ⊆ q.position.dirs.toFinset →
      ¬ Couples p.toList (a.sort (· ≤ ·)) → LocalOn a C → bs.Pairwise Disjoint →
      (∀ b ∈ bs, b.Nonempty ∧ Disjoint a b ∧ b ⊆ q.position.dirs.toFinset ∧ ¬ Couples p.toList (b.sort (· ≤ ·)) ∧ LocalOn b (Cs b)) →
      (bs.map fun b => blockSeries s degree LL q p (b.sort (· ≤ ·)) (Cs b)).foldlM series_tensorize2
        (blockSeries s degree LL q p (a.sort (· ≤ ·)) C) =
      .ok (blockSeries s degree LL q p ((bs.foldl (· ∪ ·) a).sort (· ≤ ·)) fun x => C x * (bs.map fun b => Cs b x).prod) := by
  intro bs
  induction bs with
  | nil => intro a C _ _ _ _ _ _; simp [pure]
  | cons b bs ih =>
    intro a C ha hau hca hC hdis hb
    obtain ⟨b1, b2, b3, b4, b5⟩ := hb b (by simp)
    rw [List.pairwise_cons] at hdis
    rw [List.map_cons, List.foldlM_cons, block_tensorize2 hq hU hLL ha b1 b2 hau b3 hca b4 hC b5, Out.ok_bind, List.foldl_cons,
      ih (a ∪ b) _ (ha.mono Finset.subset_union_left) (Finset.union_subset hau b3) _ _ hdis.2]
    · simp only [List.map_cons, List.prod_cons, mul_assoc]
    · intro c hc
      obtain ⟨c1, c2, c3, c4, c5⟩ := hb c (by simp [hc])
      exact ⟨c1, Finset.disjoint_union_left.2 ⟨c2, hdis.1 c hc⟩, c3, c4, c5⟩
    · rintro ⟨f, hf, ⟨x, hx, hxs⟩, y, hy, hys⟩
      simp only [Finset.mem_sort, Finset.mem_union, not_or] at hxs hys
      rcases hxs with hxs | hxs
      · exact hca ⟨f, hf, ⟨x, hx, (Finset.mem_sort _).2 hxs⟩, y, hy, fun h => hys.1 ((Finset.mem_sort _).1 h)⟩
      · exact b4 ⟨f, hf, ⟨x, hx, (Finset.mem_sort _).2 hxs⟩, y, hy, fun h => hys.2 ((Finset.mem_sort _).1 h)⟩
    · intro x y hxy
      beta_reduce
      rw [hC x y fun d hd => hxy d (Finset.mem_union_left _ hd), b5 x y fun d hd => hxy d (Finset.mem_union_right _ hd)]

theorem foldl_union (bs : List (Finset ℕ)) (a : Finset ℕ) (x : ℕ) : x ∈ bs.foldl (· ∪ ·) a ↔ x ∈ a ∨ ∃ b ∈ bs, x ∈ b := by
  induction bs generalizing a with
  | nil => simp
  | cons b bs ih => rw [List.foldl_cons, ih]; simp [or_assoc]

theorem sort_toFinset {l : List ℕ} (h : l.Pairwise (· < ·)) : l.toFinset.sort (· ≤ ·) = l := by
  refine List.Perm.eq_of_pairwise (le := (· < ·)) (fun a b _ _ h h' => absurd h (lt_asymm h')) (sorted_sort _) h ?_
  refine (List.perm_ext_iff_of_nodup (Finset.sort_nodup _ _) (h.imp (ne_of_lt ·))).2 fun d => ?_
  simp

/-- The product of series on the blocks of a division of the directions. -/
theorem block_tensorize {s : IndexSet} {degree : ℕ} {LL : ℕ → List (List ℕ)} {q : HQuad F} (hq : QuadOk q) {args p : Product F}
    (hU : UsableTo s q.position.dim degree) (hLL : ∀ n, 1 ≤ n → n ≤ q.position.dim → IterOk s n degree (LL n)) {bs : List (Finset ℕ)}
    (h : BlocksOk q.position.dirs.toFinset args p bs) (Cs : Finset ℕ → (ℕ → ℕ) → ℝ) (hloc : ∀ b ∈ bs, LocalOn b (Cs b)) :
    series_tensorize (bs.map fun b => blockSeries s degree LL q p (b.sort (· ≤ ·)) (Cs b)) =
      .ok (blockSeries s degree LL q p q.position.dirs fun x => (bs.map fun b => Cs b x).prod) := by
  have hsub : ∀ b ∈ bs, b ⊆ q.position.dirs.toFinset := fun b hb d hd => h.sort_mem hb d ((Finset.mem_sort _).2 hd)
  have hdisj : ∀ b ∈ bs, ∀ c ∈ bs, b ≠ c → Disjoint b c := by
    intro b hb c hc hne
    rw [Finset.disjoint_left]
    intro x hx hx'
    exact hne (h.partition.disjoint b (List.mem_toFinset.2 hb) c (List.mem_toFinset.2 hc) x hx hx')
  cases bs with
  | nil =>
    obtain ⟨d, ds, hd⟩ := List.exists_cons_of_ne_nil hq.dirs_ne
    obtain ⟨b, hb, -⟩ := (h.partition.cover d).1 (by rw [hd]; simp)
    simp at hb
  | cons b bs =>
    have hn := h.nodup
    rw [List.nodup_cons] at hn
    have hUn : bs.foldl (· ∪ ·) b = q.position.dirs.toFinset := by
      ext x
      rw [foldl_union, h.partition.cover]
      simp
    rw [List.map_cons, series_tensorize, block_fold hq hU hLL Cs bs b (Cs b) (h.partition.nonempty b (by simp)) (hsub b (by simp))
      (h.not_couples (by simp)) (hloc b (by simp)), hUn, sort_toFinset hq.sorted]
    · simp
    · refine List.Pairwise.imp_of_mem ?_ hn.2
      intro c c' hc hc' hne
      exact hdisj c (by simp [hc]) c' (by simp [hc']) hne
    · intro c hc
      refine ⟨h.partition.nonempty c (by simp [hc]), hdisj b (by simp) c (by simp [hc]) ?_, hsub c (by simp [hc]),
        h.not_couples (by simp [hc]), hloc c (by simp [hc])⟩
      rintro rfl
      exact hn.1 hc

omit [DecidableEq F] in
theorem subProduct_full {q : HQuad F} (hq : QuadOk q) {p : Product F} (hp : q.factor.terms = {p}) :
    subProduct p (q.position.dirs.headD 0) q.position.dirs = p := by
  rw [subProduct, Multiset.filter_eq_self]
  intro a ha
  by_cases h0 : a.1 = ∅
  · refine Or.inr ⟨h0, ?_⟩
    obtain ⟨d, ds, hd⟩ := List.exists_cons_of_ne_nil hq.dirs_ne
    rw [hd]
    simp
  · obtain ⟨x, hx⟩ := Finset.nonempty_iff_ne_empty.2 h0
    refine Or.inl ⟨x, hx, ?_⟩
    rw [← hq.factorDirs]
    exact hq.factor.vars p (by simp [hp]) a ha x hx

omit [DecidableEq F] in
theorem subPos_full {p : Position} (hp : PosOk p) (hd : Diagonal p) (hs : p.dirs.Pairwise (· < ·)) : subPos p p.dirs = p := by
  refine position_ext (subPos_ok _ hs) hp (subPos_diagonal _ _) hd rfl ?_
  intro d x hx
  obtain ⟨h1, rfl⟩ := subPos_has.1 hx
  exact dirData_has hp h1

section
variable [Interp F]

/-- Division as in `Quad.transform`. -/
noncomputable def gdiv (x y : ℝ) : ℝ := x / (1 / 10 ^ 300 * (if y = 0 then 1 else 0) + y)

theorem gdiv_ne {x y : ℝ} (h : y ≠ 0) : gdiv x y = x / y := by simp [gdiv, h]

theorem gdiv_add (x x' y : ℝ) : gdiv (x + x') y = gdiv x y + gdiv x' y := by simp [gdiv, add_div]

/-- The coefficients that `Quad.transform` computes for a function with values `v`. -/
noncomputable def transformCoef (q : HQuad F) (v : (ℕ → ℝ) → ℝ) (m : List ℕ) : ℝ :=
  quadrature q.nodes q.weights fun _ x =>
    gdiv (v (gridPoint q.position x)) (q.factor.value (gridPoint q.position x)) * basis q.nodes.length q.do_fourier m x

omit [DecidableEq F] in
theorem quad_transform_ok {slack : ℕ} {eig : Eig} (he : EigDiag eig) {q : HQuad F} (hq : QuadOk q) {s : IndexSet} {degree : ℕ}
    (hU : UsableTo s q.position.dim degree) (hd : DegreeOk slack s degree q.do_fourier) {L : List (List ℕ)}
    (hL : IterOk s q.position.dim degree L) {f : SFn F} (hfd : f.dirs = q.position.dirs)
    (hv : ∀ p ∈ f.terms, ∀ a ∈ p, ∀ d ∈ a.1, d ∈ f.dirs) :
    quad_transform slack eig degree s q f = .ok ⟨L.map (transformCoef q f.value), q.position, recDegree s degree, q.factor, s⟩ := by
  have h1 : 1 ≤ q.position.dim := Nat.one_le_iff_ne_zero.2 (PosOk.dim_pos hq.pos hq.dirs_ne)
  rw [quad_transform, quad_discretize_ok he hq hfd hv, Out.ok_bind, quad_transform_grid,
    quad_discretize_ok he hq hq.factorDirs hq.factor.vars, Out.ok_bind, guardedDiv, broadcast, if_pos (by simp), Out.ok_bind,
    List.zipWith_map, List.zipWith_self, transform_forward_ok (L := L) (by rw [hq.dim]; exact (hU _ h1 le_rfl).toSized) hq.grid hd
    hq.weights (by rw [hq.dim]; exact hL) (by simp), Out.ok_bind, mkSeries_small hq.pos hq.dirs_ne (hU _ h1 le_rfl) hL (by simp)]
  congr 2
  apply List.map_congr_left
  intro m _
  apply quadrature_congr
  intro i x hx
  simp [hx, gdiv]

omit [DecidableEq F] [Interp F] in
theorem subProduct_sum {q : HQuad F} (hq : QuadOk q) {args p : Product F} (hp : q.factor.terms = {p}) {bs : List (Finset ℕ)}
    (h : BlocksOk q.position.dirs.toFinset args p bs) :
    (bs.map fun s => subProduct p (q.position.dirs.headD 0) (s.sort (· ≤ ·))).sum = p := by
  classical
  have hd0 : q.position.dirs.headD 0 ∈ q.position.dirs.toFinset := by
    obtain ⟨d, ds, hd⟩ := List.exists_cons_of_ne_nil hq.dirs_ne
    rw [hd]
    simp
  have key := sum_filter bs (fun s (f : Factor F) => (∃ x ∈ f.1, x ∈ s.sort (· ≤ ·)) ∨ (f.1 = ∅ ∧ q.position.dirs.headD 0 ∈ s.sort (· ≤ ·)))
    (fun _ => True) p ?_ ?_
  · rw [Multiset.filter_true] at key
    rw [← key]
    congr 1
    apply List.map_congr_left
    intro s _
    unfold subProduct
    congr
  · refine List.Pairwise.imp_of_mem ?_ h.nodup
    intro s s' hs hs' hne f hf h1 h2
    simp only [Finset.mem_sort] at h1 h2
    rcases h1 with ⟨x, hx, hxa⟩ | ⟨h0, h1⟩
    · rcases h2 with ⟨y, hy, hyb⟩ | ⟨h0, -⟩
      · refine h.not_couples hs ⟨f, Multiset.mem_toList.2 hf, ⟨x, hx, (Finset.mem_sort _).2 hxa⟩, y, hy, fun h' => hne ?_⟩
        exact h.partition.disjoint s (List.mem_toFinset.2 hs) s' (List.mem_toFinset.2 hs') y ((Finset.mem_sort _).1 h') hyb
      · rw [h0] at hx; simp at hx
    · rcases h2 with ⟨y, hy, -⟩ | ⟨-, h2⟩
      · rw [h0] at hy; simp at hy
      · exact hne (h.partition.disjoint s (List.mem_toFinset.2 hs) s' (List.mem_toFinset.2 hs') _ h1 h2)
  · intro f hf
    simp only [true_iff, Finset.mem_sort]
    by_cases h0 : f.1 = ∅
    · obtain ⟨s, hs, hds⟩ := (h.partition.cover _).1 hd0
      exact ⟨s, List.mem_toFinset.1 hs, Or.inr ⟨h0, hds⟩⟩
    · obtain ⟨b, hb, hfb⟩ := h.fac f hf h0
      obtain ⟨x, hx⟩ := Finset.nonempty_iff_ne_empty.2 h0
      exact ⟨b, hb, Or.inl ⟨x, hx, hfb hx⟩⟩

omit [DecidableEq F] in
/-- The coefficients of a product are products of the coefficients for the blocks. -/
theorem transformCoef_blocks {q : HQuad F} (hq : QuadOk q) {args p : Product F} (hp : q.factor.terms = {p})
    (hnz : ∀ x ∈ gridPoints q.nodes, q.factor.value (gridPoint q.position x) ≠ 0) {bs : List (Finset ℕ)}
    (h : BlocksOk q.position.dirs.toFinset args p bs) (m : List ℕ) :
    (bs.map fun s => transformCoef (subQuad q p (s.sort (· ≤ ·))) (productValue (blockPart args s))
      ((s.sort (· ≤ ·)).map (at' q.position.dirs m))).prod * productValue (constPart args) (fun _ => 0) =
    transformCoef q (productValue args) m := by
  have hpart := h.rel_partition hq
  let G : ℕ → List ℝ → ℝ := fun b x =>
    gdiv (productValue (blockPart args (bs.getD b ∅)) (gridPoint (subPos q.position ((bs.getD b ∅).sort (· ≤ ·))) x))
      (productValue (subProduct p (q.position.dirs.headD 0) ((bs.getD b ∅).sort (· ≤ ·)))
        (gridPoint (subPos q.position ((bs.getD b ∅).sort (· ≤ ·))) x)) *
      basis (relDirs q.position ((bs.getD b ∅).sort (· ≤ ·))).length (sub 0 (relDirs q.position ((bs.getD b ∅).sort (· ≤ ·))) q.do_fourier)
        (restrict (relDirs q.position ((bs.getD b ∅).sort (· ≤ ·))) m) x
  have e := quadrature_blocks hq.weights hpart G
  rw [List.length_map] at e
  have hb : ∀ b ∈ Finset.range bs.length, (bs.map fun s => relDirs q.position (s.sort (· ≤ ·))).getD b [] =
      relDirs q.position ((bs.getD b ∅).sort (· ≤ ·)) := by
    intro b hb
    have := Finset.mem_range.1 hb
    simp [this]
  have hmem : ∀ b ∈ Finset.range bs.length, bs.getD b ∅ ∈ bs := by
    intro b hb
    have := Finset.mem_range.1 hb
    simp [this]
  rw [list_prod_range bs ∅, mul_comm]
  have e2 : ∏ i ∈ Finset.range bs.length, transformCoef (subQuad q p ((bs.getD i ∅).sort (· ≤ ·))) (productValue (blockPart args (bs.getD i ∅)))
      (((bs.getD i ∅).sort (· ≤ ·)).map (at' q.position.dirs m)) =
      ∏ b ∈ Finset.range bs.length, quadrature (sub [] ((bs.map fun s => relDirs q.position (s.sort (· ≤ ·))).getD b []) q.nodes)
        (sub [] ((bs.map fun s => relDirs q.position (s.sort (· ≤ ·))).getD b []) q.weights) (fun _ x => G b x) := by
    apply Finset.prod_congr rfl
    intro b hbm
    rw [hb b hbm, transformCoef, do_fourier_sub hq p fun d hd => List.mem_toFinset.1 (h.sort_mem (hmem b hbm) d hd)]
    apply quadrature_congr
    intro i x hx
    simp only [G, SFn.value, subQuad, Multiset.map_singleton, Multiset.sum_singleton, sub_length]
    congr 2
    simp [restrict, relDirs, at', Function.comp_def]
  rw [e2, ← e, ← quadrature_smul, transformCoef]
  apply quadrature_congr
  intro i x hx
  have hfac : ∀ y, q.factor.value y = productValue p y := by intro y; simp [SFn.value, hp]
  -- the factor
  have hpsum := subProduct_sum hq hp h
  have hsubfac : ∀ b ∈ Finset.range bs.length, productValue (subProduct p (q.position.dirs.headD 0) ((bs.getD b ∅).sort (· ≤ ·)))
      (gridPoint (subPos q.position ((bs.getD b ∅).sort (· ≤ ·))) (sub 0 (relDirs q.position ((bs.getD b ∅).sort (· ≤ ·))) x)) =
      productValue (subProduct p (q.position.dirs.headD 0) ((bs.getD b ∅).sort (· ≤ ·))) (gridPoint q.position x) := by
    intro b hbm
    apply productValue_congr
    intro a ha d hd
    exact gridPoint_sub _ _ (subProduct_vars (h.not_couples (hmem b hbm)) a ha d hd)
  have hprod : productValue p (gridPoint q.position x) =
      ∏ b ∈ Finset.range bs.length, productValue (subProduct p (q.position.dirs.headD 0) ((bs.getD b ∅).sort (· ≤ ·))) (gridPoint q.position x) := by
    conv_lhs => rw [← hpsum, productValue_sum, List.map_map, list_prod_range bs ∅]
    rfl
  have hne := hnz x (List.mem_of_getElem? hx)
  rw [gdiv_ne hne, hfac]
  rw [hfac, hprod, Finset.prod_ne_zero_iff] at hne
  have hG : ∀ b ∈ Finset.range bs.length, G b (sub 0 ((bs.map fun s => relDirs q.position (s.sort (· ≤ ·))).getD b []) x) =
      productValue (blockPart args (bs.getD b ∅)) (gridPoint q.position x) /
        productValue (subProduct p (q.position.dirs.headD 0) ((bs.getD b ∅).sort (· ≤ ·))) (gridPoint q.position x) *
      basis ((bs.map fun s => relDirs q.position (s.sort (· ≤ ·))).getD b []).length
        (sub 0 ((bs.map fun s => relDirs q.position (s.sort (· ≤ ·))).getD b []) q.do_fourier)
        (restrict ((bs.map fun s => relDirs q.position (s.sort (· ≤ ·))).getD b []) m)
        (sub 0 ((bs.map fun s => relDirs q.position (s.sort (· ≤ ·))).getD b []) x) := by
    intro b hbm
    rw [hb b hbm]
    simp only [G]
    rw [hsubfac b hbm, gdiv_ne (hne b hbm)]
    congr 2
    apply productValue_congr
    intro a ha d hd
    rw [blockPart, Multiset.mem_filter] at ha
    exact gridPoint_sub _ _ ((Finset.mem_sort _).2 (ha.2.2 hd))
  rw [Finset.prod_congr rfl hG, Finset.prod_mul_distrib, Finset.prod_div_distrib, ← hprod]
  have hbasis := basis_blocks hpart q.do_fourier m x
  rw [List.length_map] at hbasis
  rw [← hbasis]
  have hargs : productValue args (gridPoint q.position x) = productValue (constPart args) (fun _ => 0) *
      ∏ b ∈ Finset.range bs.length, productValue (blockPart args (bs.getD b ∅)) (gridPoint q.position x) := by
    conv_lhs => rw [← constPart_add h, productValue_add, productValue_sum, List.map_map, list_prod_range bs ∅]
    rw [constPart_value args (fun _ => 0) (gridPoint q.position x)]
    rfl
  rw [hargs]
  ring

omit [DecidableEq F] in
theorem transformCoef_add (q : HQuad F) (v v' : (ℕ → ℝ) → ℝ) (m : List ℕ) :
    transformCoef q (fun x => v x + v' x) m = transformCoef q v m + transformCoef q v' m := by
  simp only [transformCoef, gdiv_add, add_mul]
  exact quadrature_add _ _

/-- The tensorized transform adds the products of the coefficients for the blocks. -/
theorem quad_transform_tensorize_gen {order : ℕ → Finset (Finset ℕ) → List (Finset ℕ)} (ho : OrderOk order) (k : ℕ) {slack : ℕ} {eig : Eig}
    (he : EigDiag eig) {q : HQuad F} (hq : QuadOk q) {p : Product F} (hp : q.factor.terms = {p}) {s : IndexSet} {degree : ℕ}
    (hU : UsableTo s q.position.dim degree) (hds : DegreeOk slack s degree q.do_fourier)
    {f : SFn F} (hf : SFnOk f) (hd : f.dirs = q.position.dirs) (hne : f.terms ≠ 0) {L : List (List ℕ)}
    (hL : IterOk s q.position.dim degree L) {T : Product F → List ℕ → ℝ}
    (hT : ∀ args ∈ f.terms, ∀ bs, BlocksOk q.position.dirs.toFinset args p bs → ∀ m ∈ L,
      (bs.map fun s => transformCoef (subQuad q p (s.sort (· ≤ ·))) (productValue (blockPart args s))
        ((s.sort (· ≤ ·)).map (at' q.position.dirs m))).prod * productValue (constPart args) (fun _ => 0) = T args m) :
    quad_transform_tensorize order k slack eig degree s q f =
      .ok ⟨L.map fun m => (f.terms.map fun args => T args m).sum, q.position, recDegree s degree, q.factor, s⟩ := by
  have hLL : ∃ LL : ℕ → List (List ℕ), ∀ n, 1 ≤ n → n ≤ q.position.dim → IterOk s n degree (LL n) := by
    have : ∀ n, ∃ L, 1 ≤ n → n ≤ q.position.dim → IterOk s n degree L := by
      intro n
      by_cases hn : 1 ≤ n ∧ n ≤ q.position.dim
      · obtain ⟨L, hL⟩ := iterOk_exists (hU _ hn.1 hn.2).toSized.fits'
        exact ⟨L, fun _ _ => hL⟩
      · exact ⟨[], fun h1 h2 => absurd ⟨h1, h2⟩ hn⟩
    choose LL hLL using this
    exact ⟨LL, hLL⟩
  obtain ⟨LL, hLL⟩ := hLL
  have h1 : 1 ≤ q.position.dim := Nat.one_le_iff_ne_zero.2 (PosOk.dim_pos hq.pos hq.dirs_ne)
  have hLd : LL q.position.dirs.length = L := by rw [hq.pos.dirs]; exact (hLL _ h1 le_rfl).unique hL
  have hnq : q.position.dirs.Nodup := hq.sorted.imp (ne_of_lt ·)
  have hfull : ∀ C, blockSeries s degree LL q p q.position.dirs C =
      ⟨L.map fun m => C (at' q.position.dirs m), q.position, recDegree s degree, q.factor, s⟩ := by
    intro C
    rw [blockSeries, hLd, subPos_full hq.pos hq.diag hq.sorted, subProduct_full hq hp, ← hp, ← hq.factorDirs]
  obtain ⟨Lt, hLt, e⟩ := tensorize_at_ok ho k (func := quad_transform slack eig degree s)
    (tens := fun rs => series_tensorize (rs.map Prod.snd)) (scale := series_mul_scalar) (plus := series_add) hq hp hf hd
    (v := fun args b => blockSeries s degree LL q p (b.sort (· ≤ ·)) fun x =>
      transformCoef (subQuad q p (b.sort (· ≤ ·))) (productValue (blockPart args b)) ((b.sort (· ≤ ·)).map x))
    (r := fun args => ⟨L.map (T args), q.position, recDegree s degree, q.factor, s⟩)
    (by
      intro args hargs bs hb b hbs
      have hmem : ∀ d ∈ b.sort (· ≤ ·), d ∈ q.position.dirs := fun d hd => List.mem_toFinset.1 (hb.sort_mem hbs d hd)
      have hq' := subQuad_ok hq p hp (hb.sort_ne hbs) (sorted_sort b) hmem (hb.not_couples hbs)
      have hdim : (subQuad q p (b.sort (· ≤ ·))).position.dim = (b.sort (· ≤ ·)).length := subPos_dim _ _
      have hl4 : (b.sort (· ≤ ·)).length ≤ q.position.dim := by
        rw [Finset.length_sort]
        refine (Finset.card_le_card (t := q.position.dirs.toFinset) fun d hd => hb.sort_mem hbs d ((Finset.mem_sort _).2 hd)).trans ?_
        rw [List.toFinset_card_of_nodup hnq, hq.pos.dirs]
      have hl1 : 1 ≤ (b.sort (· ≤ ·)).length := List.length_pos_iff.2 (hb.sort_ne hbs)
      rw [quad_transform_ok he hq' (by rw [hdim]; exact fun n h h' => hU n h (h'.trans hl4)) _ (by rw [hdim]; exact hLL _ hl1 hl4) rfl _]
      · rw [blockSeries]
        congr 2
        apply List.map_congr_left
        intro m hm
        have hml := inSet_length (((hLL _ hl1 hl4).mem m).1 hm)
        have ea : (b.sort (· ≤ ·)).map (at' (b.sort (· ≤ ·)) m) = m := along_self (Finset.sort_nodup _ _) hml
        rw [ea]
        congr 1
        funext x
        simp [SFn.value]
      · rw [do_fourier_sub hq p hmem]
        refine hds.sub ?_
        rw [hq.grid.flags.1, hq.dim]
        exact relDirs_lt hq.pos hmem
      · intro p' hp' a ha d hdd
        rw [Multiset.mem_singleton] at hp'
        rw [hp', blockPart, Multiset.mem_filter] at ha
        exact (Finset.mem_sort _).2 (ha.2.2 hdd))
    (by
      intro args hargs bs hb
      refine ⟨_, by
        rw [List.map_map]
        exact block_tensorize hq hU hLL hb (fun b x =>
          transformCoef (subQuad q p (b.sort (· ≤ ·))) (productValue (blockPart args b)) ((b.sort (· ≤ ·)).map x)) (by
            intro b _ x y hxy
            beta_reduce
            congr 1
            apply List.map_congr_left
            intro d hd
            exact hxy d ((Finset.mem_sort _).1 hd)), ?_⟩
      rw [hfull, series_mul_scalar, mkSeries_small hq.pos hq.dirs_ne (hU _ h1 le_rfl) hL (by simp), List.map_map]
      congr 2
      apply List.map_congr_left
      intro m hm
      rw [← hT args hargs bs hb m hm]
      rfl)
  rw [quad_transform_tensorize, e]
  have hval : ∀ m, (f.terms.map fun args => T args m).sum = (Lt.map fun args => T args m).sum := by
    intro m
    rw [← hLt, Multiset.map_coe, Multiset.sum_coe]
  have hfold : ∀ (l : List (Product F)) (v : List ℕ → ℝ),
      (l.map fun args => (⟨L.map (T args), q.position, recDegree s degree, q.factor, s⟩ : HSeries (SFn F))).foldlM
        series_add ⟨L.map v, q.position, recDegree s degree, q.factor, s⟩ =
      .ok ⟨L.map fun m => v m + (l.map fun args => T args m).sum, q.position, recDegree s degree, q.factor, s⟩ := by
    intro l
    induction l with
    | nil => intro v; simp [pure]
    | cons a l ih =>
      intro v
      rw [List.map_cons, List.foldlM_cons, series_add, if_neg (by simpa using Props.pos_eq_self _), broadcast, if_pos (by simp), Out.ok_bind,
        mkSeries_small hq.pos hq.dirs_ne (hU _ h1 le_rfl) hL (by simp), Out.ok_bind, List.zipWith_map, List.zipWith_self, ih]
      simp only [List.map_cons, List.sum_cons, add_assoc]
  cases Lt with
  | nil => exact absurd (by simpa using hLt.symm) hne
  | cons a Lt =>
    simp only [List.map_cons]
    rw [hfold]
    congr 2
    apply List.map_congr_left
    intro m _
    rw [hval]
    simp

omit [DecidableEq F] in
theorem transformCoef_sum (q : HQuad F) (t : Multiset (Product F)) (m : List ℕ) :
    (t.map fun args => transformCoef q (productValue args) m).sum = transformCoef q (fun x => (t.map fun args => productValue args x).sum) m := by
  induction t using Multiset.induction_on with
  | empty => simp [transformCoef, gdiv, quadrature]
  | cons a t ih =>
    rw [Multiset.map_cons, Multiset.sum_cons, ih, ← transformCoef_add]
    simp

/-- The tensorized transform is the transform. -/
theorem quad_transform_tensorize_ok {order : ℕ → Finset (Finset ℕ) → List (Finset ℕ)} (ho : OrderOk order) (k : ℕ) {slack : ℕ} {eig : Eig}
    (he : EigDiag eig) {q : HQuad F} (hq : QuadOk q) {p : Product F} (hp : q.factor.terms = {p}) {s : IndexSet} {degree : ℕ}
    (hU : UsableTo s q.position.dim degree) (hds : DegreeOk slack s degree q.do_fourier)
    (hnz : ∀ x ∈ gridPoints q.nodes, q.factor.value (gridPoint q.position x) ≠ 0)
    {f : SFn F} (hf : SFnOk f) (hd : f.dirs = q.position.dirs) (hne : f.terms ≠ 0) {L : List (List ℕ)}
    (hL : IterOk s q.position.dim degree L) :
    quad_transform_tensorize order k slack eig degree s q f =
      .ok ⟨L.map (transformCoef q f.value), q.position, recDegree s degree, q.factor, s⟩ := by
  rw [quad_transform_tensorize_gen ho k he hq hp hU hds hf hd hne hL (T := fun args => transformCoef q (productValue args))
    (fun args _ bs hb m _ => transformCoef_blocks hq hp hnz hb m)]
  congr 2
  apply List.map_congr_left
  intro m _
  exact transformCoef_sum q f.terms m

end

end Hermipy
