import Verif.Lemmas.QuadTransform
import Verif.Lemmas.Small
import Verif.Props.Arithmetic

/-! # C67: `Series.tensorize` -/

namespace Hermipy.Props
open Hermipy Hermipy.Spec
variable {F : Type} [DecidableEq F]

omit [DecidableEq F] in
theorem partOn_le (p : Product F) (d0 : ℕ) (ds : List ℕ) : partOn p.toList d0 ds ≤ p := by
  rw [partOn, Multiset.coe_toList]
  exact Multiset.filter_le _ _

/-- What is left of a factor after removing the part which depends on `K` depends on other directions only. -/
theorem rest_vars {p : Product F} {d0 : ℕ} {K : List ℕ} : ∀ a ∈ p - partOn p.toList d0 K, ∀ x ∈ a.1, x ∉ K := by
  classical
  intro a ha x hx hxK
  have h1 : partOn p.toList d0 K = Multiset.filter (fun f => (∃ x ∈ f.1, x ∈ K) ∨ (f.1 = ∅ ∧ d0 ∈ K)) p := by
    rw [partOn, Multiset.coe_toList]
  have h2 := Multiset.filter_add_not (fun f : Factor F => (∃ x ∈ f.1, x ∈ K) ∨ (f.1 = ∅ ∧ d0 ∈ K)) p
  have h3 : p - partOn p.toList d0 K = Multiset.filter (fun f => ¬ ((∃ x ∈ f.1, x ∈ K) ∨ (f.1 = ∅ ∧ d0 ∈ K))) p := by
    rw [h1]
    nth_rewrite 1 [← h2]
    exact add_tsub_cancel_left _ _
  rw [h3, Multiset.mem_filter] at ha
  exact ha.2 (Or.inl ⟨x, hx, hxK⟩)

/-- The two series can be multiplied: their factors are products, which have the same part on the common directions `K`; on these the
positions agree; index set and degree are the same. -/
structure Compatible (s1 s2 : HSeries (SFn F)) (p1 p2 : Product F) (K : List ℕ) : Prop where
  ok1 : SeriesOk s1
  ok2 : SeriesOk s2
  diag1 : Diagonal s1.position
  diag2 : Diagonal s2.position
  fac1 : SFnOk s1.factor
  fac2 : SFnOk s2.factor
  dirs1 : s1.factor.dirs = s1.position.dirs
  dirs2 : s2.factor.dirs = s2.position.dirs
  terms1 : s1.factor.terms = {p1}
  terms2 : s2.factor.terms = {p2}
  couples1 : ¬ Couples p1.toList K
  couples2 : ¬ Couples p2.toList K
  common : partOn p1.toList (s1.position.dirs.headD 0) K = partOn p2.toList (s2.position.dirs.headD 0) K
  agree : ∀ d ∈ K, Agree s1.position s2.position d
  index_set : s1.index_set = s2.index_set
  degree : s1.degree = s2.degree

omit [DecidableEq F] in
theorem project_factor {f : SFn F} (hf : SFnOk f) {p : Product F} (hp : f.terms = {p}) (hne : f.dirs ≠ []) {K : List ℕ} (hK : K.Pairwise (· < ·))
    (hc : ¬ Couples p.toList K) : fn_project f.toFn K = .ok (K, partOn p.toList (f.dirs.headD 0) K) := by
  obtain ⟨d0, ds, hd0⟩ := List.exists_cons_of_ne_nil hne
  rw [fn_project_ok hf.fnOk (args := p.toList) (by rw [toFn_single hp]) (d0 := d0) (ds := ds) hd0 (hK.imp le_of_lt) hc, hd0]
  rfl

theorem product_vars {s1 s2 : HSeries (SFn F)} {p1 p2 : Product F} {D K : List ℕ} (h : Compatible s1 s2 p1 p2 K)
    (hsf : SharedFree s1.position.dirs s2.position.dirs D K) :
    ∀ p ∈ productTerms s1.factor s2.factor (partOn p1.toList (s1.position.dirs.headD 0) K), ∀ a ∈ p, ∀ x ∈ a.1, x ∈ D := by
  intro p hp a ha x hx
  simp only [productTerms, divTerms, h.terms1, h.terms2, Multiset.map_singleton, Multiset.singleton_bind, Multiset.mem_singleton] at hp
  rw [hp, Multiset.mem_add] at ha
  rw [hsf.memD]
  rcases ha with ha | ha
  · have h1 : x ∈ s1.position.dirs := by
      rw [← h.dirs1]
      exact h.fac1.vars p1 (by simp [h.terms1]) a (Multiset.mem_of_le (Multiset.sub_le_self _ _) ha) x hx
    have h2 := rest_vars a ha x hx
    rw [hsf.memK] at h2
    tauto
  · rw [h.common] at ha
    have h1 : x ∈ s2.position.dirs := by
      rw [← h.dirs2]
      exact h.fac2.vars p2 (by simp [h.terms2]) a (Multiset.mem_of_le (Multiset.sub_le_self _ _) ha) x hx
    have h2 := rest_vars a ha x hx
    rw [hsf.memK] at h2
    tauto

theorem product_value [Interp F] {s1 s2 : HSeries (SFn F)} {p1 p2 : Product F} {K : List ℕ} (h : Compatible s1 s2 p1 p2 K) (D : List ℕ)
    (x : ℕ → ℝ) :
    SFn.value ⟨D, productTerms s1.factor s2.factor (partOn p1.toList (s1.position.dirs.headD 0) K)⟩ x *
      productValue (partOn p1.toList (s1.position.dirs.headD 0) K) x ^ 2 = s1.factor.value x * s2.factor.value x := by
  have e1 := Multiset.sub_add_cancel (partOn_le p1 (s1.position.dirs.headD 0) K)
  have e2 := Multiset.sub_add_cancel (partOn_le p2 (s2.position.dirs.headD 0) K)
  rw [← h.common] at e2
  simp only [SFn.value, productTerms, divTerms, h.terms1, h.terms2, Multiset.map_singleton, Multiset.singleton_bind, Multiset.sum_singleton]
  conv_rhs => rw [← e1, ← e2]
  simp only [productValue_add]
  ring

/-- C67. The product of two series lives on the directions of exactly one of them, with the means, variances and types it had there. Its
coefficient at `m` is the sum over the multi-indices `k` on the common directions of the products of the coefficients; its factor is the
product of the factors without their common part (which therefore is left out twice). -/
theorem C67_tensorize [Interp F] {s1 s2 : HSeries (SFn F)} {p1 p2 : Product F} {D K : List ℕ} (h : Compatible s1 s2 p1 p2 K)
    (hsf : SharedFree s1.position.dirs s2.position.dirs D K) (hD : D ≠ []) (huD : Usable s1.index_set D.length s1.degree)
    {L1 L2 LK : List (List ℕ)} (hL1 : s1.index_set.s_list s1.position.dim s1.degree = .ok L1)
    (hL2 : s2.index_set.s_list s2.position.dim s2.degree = .ok L2) (hLK : Listing s1.index_set s1.degree K LK) :
    ∃ r, series_tensorize [s1, s2] = .ok r ∧ SeriesOk r ∧ Diagonal r.position ∧ r.position.dirs = D ∧
      (∀ d x, Has r.position d x ↔ (Has s1.position d x ∧ d ∉ s2.position.dirs) ∨ (Has s2.position d x ∧ d ∉ s1.position.dirs)) ∧
      r.index_set = s1.index_set ∧ SFnOk r.factor ∧ r.factor.dirs = D ∧
      (∀ x, r.factor.value x * productValue (partOn p1.toList (s1.position.dirs.headD 0) K) x ^ 2 = s1.factor.value x * s2.factor.value x) ∧
      ∀ m y, Coef r m y ↔ InSet s1.index_set D.length s1.degree m ∧
        y = (LK.map fun k => coef L1 s1.coeffs (s1.position.dirs.map (joint D m K k)) *
          coef L2 s2.coeffs (s2.position.dirs.map (joint D m K k))).sum := by
  have d1 := h.ok1.pos.dirs
  have d2 := h.ok2.pos.dirs
  obtain ⟨L1', i1, l1⟩ := h.ok1.list
  obtain ⟨L2', i2, l2⟩ := h.ok2.list
  cases Out.ok.inj (hL1.symm.trans i1.list)
  cases Out.ok.inj (hL2.symm.trans i2.list)
  obtain ⟨LD, hLD⟩ := iterOk_exists huD.toSized.fits'
  obtain ⟨r, e, ok, rdiag, rdirs, rhas, rfac, rset, rsame, rco⟩ := series_tensorize2_ok (s := s1.index_set) (degree := s1.degree) h.ok1.pos h.ok2.pos
    h.diag1.is_diag h.diag2.is_diag (h.dirs1 ▸ h.fac1.sorted) (h.dirs2 ▸ h.fac2.sorted) hsf hD h.agree rfl h.index_set.symm h.degree
    (by rw [d1]; exact h.ok1.usable) (by rw [d2, h.index_set, h.degree]; exact h.ok2.usable.toSized) huD (L1 := L1) (L2 := L2) (by rw [d1]; exact i1)
    (by rw [d2, h.index_set, h.degree]; exact i2) hLD hLK l1 l2
    (c := (K, partOn p1.toList (s1.position.dirs.headD 0) K))
    (by rw [← h.dirs1]; exact project_factor h.fac1 h.terms1 (h.dirs1 ▸ h.ok1.dirs) hsf.incK h.couples1)
    (by rw [h.common, ← h.dirs2]; exact project_factor h.fac2 h.terms2 (h.dirs2 ▸ h.ok2.dirs) hsf.incK h.couples2)
    (product_vars h hsf)
  refine ⟨r, ?_, ok, rdiag, rdirs, rhas, rset, ?_, by rw [rfac], ?_, ?_⟩
  · simp [series_tensorize, e]
  · rw [rfac]
    exact ⟨hsf.incD, product_vars h hsf⟩
  · intro x
    rw [rfac]
    exact product_value h D x
  · intro m y
    have rdim : r.position.dim = D.length := by rw [← ok.pos.dirs, rdirs]
    obtain ⟨Lr, ir, lr⟩ := ok.list
    have : Lr = LD := by
      rw [rset, rdim] at ir
      exact ir.congr hLD (rsame _)
    subst this
    rw [coef_iff ir.list, rco]
    constructor
    · rintro ⟨k, h1, h2⟩
      refine ⟨(hLD.mem m).1 (List.mem_of_getElem? h1), ?_⟩
      rw [List.getElem?_map, h1] at h2
      exact (Option.some.inj h2).symm
    · rintro ⟨h1, rfl⟩
      have h2 := getElem?_idxOf' ((hLD.mem m).2 h1)
      exact ⟨_, h2, by rw [List.getElem?_map, h2]; rfl⟩

omit [DecidableEq F] in
theorem coef_eq {f : HSeries (SFn F)} {L : List (List ℕ)} (hL : IterOk f.index_set f.position.dim f.degree L) (hl : f.coeffs.length = L.length)
    {m : List ℕ} (hm : m ∈ L) {a : ℝ} : Coef f m a ↔ a = coef L f.coeffs m := by
  rw [coef_iff hL.list]
  constructor
  · rintro ⟨k, h1, h2⟩
    rw [coef_of_getElem? hL.nodup h1]
    simp [h2]
  · rintro rfl
    have hi := List.idxOf_lt_length_of_mem hm
    refine ⟨_, getElem?_idxOf' hm, ?_⟩
    rw [coef, List.getD_eq_getElem?_getD, List.getElem?_eq_getElem (by omega)]
    rfl

/-- C67. Without common directions, the coefficients are the products of coefficients, and the factor is the product of the factors. -/
theorem C67_disjoint [Interp F] {s1 s2 : HSeries (SFn F)} {p1 p2 : Product F} {D : List ℕ} (h : Compatible s1 s2 p1 p2 [])
    (hsf : SharedFree s1.position.dirs s2.position.dirs D []) (hD : D ≠ []) (huD : Usable s1.index_set D.length s1.degree) :
    ∃ r, series_tensorize [s1, s2] = .ok r ∧ r.position.dirs = D ∧
      (∀ d x, Has r.position d x ↔ Has s1.position d x ∨ Has s2.position d x) ∧
      (∀ x, r.factor.value x = s1.factor.value x * s2.factor.value x) ∧
      ∀ m y, Coef r m y ↔ InSet s1.index_set D.length s1.degree m ∧
        ∃ a b, Coef s1 (s1.position.dirs.map (at' D m)) a ∧ Coef s2 (s2.position.dirs.map (at' D m)) b ∧ y = a * b := by
  obtain ⟨L1, i1, l1⟩ := h.ok1.list
  obtain ⟨L2, i2, l2⟩ := h.ok2.list
  obtain ⟨r, e, ok, -, rdirs, rhas, -, -, -, rval, rco⟩ := C67_tensorize h hsf hD huD i1.list i2.list (LK := [[]]) (Or.inl ⟨rfl, rfl⟩)
  have hdisj : ∀ x, x ∈ s1.position.dirs → x ∈ s2.position.dirs → False := by
    intro x h1 h2
    have := (hsf.memK x).2 ⟨h1, h2⟩
    simp at this
  have hin1 : ∀ x ∈ s1.position.dirs, x ∈ D := fun x hx => (hsf.memD x).2 (Or.inl ⟨hx, fun h => hdisj x hx h⟩)
  have hin2 : ∀ x ∈ s2.position.dirs, x ∈ D := fun x hx => (hsf.memD x).2 (Or.inr ⟨hx, fun h => hdisj x h hx⟩)
  refine ⟨r, e, rdirs, ?_, ?_, ?_⟩
  · intro d x
    rw [rhas]
    constructor
    · rintro (⟨h1, -⟩ | ⟨h1, -⟩)
      · exact Or.inl h1
      · exact Or.inr h1
    · rintro (h1 | h1)
      · exact Or.inl ⟨h1, fun h2 => hdisj d h1.mem h2⟩
      · exact Or.inr ⟨h1, fun h2 => hdisj d h2 h1.mem⟩
  · intro x
    rw [← rval x]
    have : partOn p1.toList (s1.position.dirs.headD 0) [] = 0 := by simp [partOn]
    rw [this, productValue_zero]
    ring
  · intro m y
    rw [rco]
    have e1 : ∀ ds : List ℕ, (∀ x ∈ ds, x ∈ D) → ds.map (joint D m [] []) = ds.map (at' D m) := by
      intro ds hds
      apply List.map_congr_left
      intro x hx
      rw [joint, if_pos (hds x hx)]
    simp only [List.map_cons, List.map_nil, List.sum_cons, List.sum_nil, add_zero]
    rw [e1 _ hin1, e1 _ hin2]
    refine and_congr_right fun hm => ?_
    have j1 := inSet_along hsf.incD (h.dirs1 ▸ h.fac1.sorted) h.ok1.dirs hin1 hm
    have j2 := inSet_along hsf.incD (h.dirs2 ▸ h.fac2.sorted) h.ok2.dirs hin2 hm
    rw [h.ok1.pos.dirs] at j1
    rw [h.index_set, h.degree, h.ok2.pos.dirs] at j2
    have k1 := (i1.mem _).2 j1
    have k2 := (i2.mem _).2 j2
    have c1 := fun a => coef_eq i1 l1 k1 (a := a)
    have c2 := fun a => coef_eq i2 l2 k2 (a := a)
    constructor
    · intro hy
      exact ⟨_, _, (c1 _).2 rfl, (c2 _).2 rfl, hy⟩
    · rintro ⟨a, b, ha, hb, rfl⟩
      rw [(c1 _).1 ha, (c2 _).1 hb]
      rfl

/-- C67. Two series with the same directions: the result has no direction, its only coefficient is the scalar product of the coefficient
vectors, and its factor is one. -/
theorem C67_full [Interp F] {s1 s2 : HSeries (SFn F)} {p1 p2 : Product F} (h : Compatible s1 s2 p1 p2 s1.position.dirs)
    (hd : s1.position.dirs = s2.position.dirs) :
    ∃ r, series_tensorize [s1, s2] = .ok r ∧ r.position.dirs = [] ∧ r.position.dim = 0 ∧
      r.coeffs = [(List.zipWith (· * ·) s1.coeffs s2.coeffs).sum] ∧ ∀ x, r.factor.value x = 1 := by
  have d1 := h.ok1.pos.dirs
  have d2 := h.ok2.pos.dirs
  have hinc : s1.position.dirs.Pairwise (· < ·) := h.dirs1 ▸ h.fac1.sorted
  obtain ⟨L1, i1, l1⟩ := h.ok1.list
  obtain ⟨L2, i2, l2⟩ := h.ok2.list
  have hL : L2 = L1 := by
    rw [← h.index_set, ← h.degree, ← d2, ← hd, d1] at i2
    exact i2.unique i1
  subst hL
  have hsf : SharedFree s1.position.dirs s2.position.dirs [] s1.position.dirs := by
    refine ⟨List.Pairwise.nil, hinc, ?_, ?_⟩
    · intro x; rw [hd]; simp
    · intro x; rw [hd]; simp
  obtain ⟨pos, e, pok, -, pD, -⟩ := series_tensorize2_core (s := s1.index_set) (degree := s1.degree) h.ok1.pos h.ok2.pos
    h.diag1.is_diag h.diag2.is_diag hinc (h.dirs2 ▸ h.fac2.sorted) hsf h.agree rfl h.index_set.symm h.degree
    (by rw [d1]; exact h.ok1.usable) (by rw [d2, h.index_set, h.degree]; exact h.ok2.usable.toSized) (by simp) (L1 := L2) (L2 := L2)
    (LD := [[]]) (LK := L2) (by rw [d1]; exact i1)
    (by rw [d2, h.index_set, h.degree]; exact i2) (Or.inl ⟨rfl, rfl⟩) (Or.inr ⟨h.ok1.dirs, by rw [d1]; exact i1.list⟩) l1 l2
    (c := (s1.position.dirs, partOn p1.toList (s1.position.dirs.headD 0) s1.position.dirs))
    (by
      have := project_factor h.fac1 h.terms1 (h.dirs1 ▸ h.ok1.dirs) hinc h.couples1
      rw [h.dirs1] at this
      exact this)
    (by
      have := project_factor h.fac2 h.terms2 (h.dirs2 ▸ h.ok2.dirs) hinc h.couples2
      rw [h.dirs2, ← h.common] at this
      exact this)
    (product_vars h hsf)
  rw [mkSeries, if_pos pD] at e
  refine ⟨_, by rw [series_tensorize, List.foldlM_cons, e]; rfl, pD, by rw [← pok.dirs, pD]; rfl, ?_, ?_⟩
  · simp only [List.map_cons, List.map_nil, List.cons.injEq, and_true]
    congr 1
    apply List.ext_getElem
    · simp [l1, l2]
    · intro i j1 j2
      have hi : i < L2.length := by simpa using j1
      have hlen : (L2[i]).length = s1.position.dirs.length := by
        rw [d1]; exact inSet_length ((i1.mem _).1 (List.getElem_mem hi))
      have hk : s1.position.dirs.map (joint [] [] s1.position.dirs L2[i]) = L2[i] := by
        have := along_self (hinc.imp (ne_of_lt ·)) hlen
        rw [along] at this
        conv_rhs => rw [← this]
        apply List.map_congr_left
        intro x hx
        simp [joint]
      have hg := List.getElem?_eq_getElem hi
      rw [List.getElem_map]
      simp only [← hd]
      rw [hk, coef_of_getElem? i1.nodup hg, coef_of_getElem? i1.nodup hg]
      simp [l1, l2, hi]
  · intro x
    have full : ∀ (f : SFn F) (p : Product F), SFnOk f → f.terms = {p} → f.dirs ≠ [] → partOn p.toList (f.dirs.headD 0) f.dirs = p := by
      intro f p hf hp hne
      rw [partOn, Multiset.coe_toList, Multiset.filter_eq_self]
      intro a ha
      by_cases h0 : a.1 = ∅
      · obtain ⟨d0, ds, hd0⟩ := List.exists_cons_of_ne_nil hne
        exact Or.inr ⟨h0, by rw [hd0]; simp⟩
      · obtain ⟨y, hy⟩ := Finset.nonempty_iff_ne_empty.2 h0
        exact Or.inl ⟨y, hy, hf.vars p (by simp [hp]) a ha y hy⟩
    have e1 := full _ _ h.fac1 h.terms1 (h.dirs1 ▸ h.ok1.dirs)
    have e2 := full _ _ h.fac2 h.terms2 (h.dirs2 ▸ h.ok2.dirs)
    rw [h.dirs1] at e1
    rw [h.dirs2] at e2
    have e3 : p1 = p2 := by
      rw [← e1, ← e2, ← hd, h.common, hd]
    show SFn.value ⟨[], productTerms s1.factor s2.factor (partOn p1.toList (s1.position.dirs.headD 0) s1.position.dirs)⟩ x = 1
    rw [e1]
    simp [SFn.value, productTerms, divTerms, h.terms1, h.terms2, ← e3, productValue]

/-- C67. Series with different degrees or index sets, or whose factors differ on the common directions, are rejected. -/
theorem C67_rejects {s1 s2 : HSeries (SFn F)} (h1 : SeriesOk s1) (h2 : SeriesOk s2) (f1 : SFnOk s1.factor) (f2 : SFnOk s2.factor)
    (d1 : s1.factor.dirs = s1.position.dirs) (d2 : s2.factor.dirs = s2.position.dirs) {p1 p2 : Product F}
    (t1 : s1.factor.terms = {p1}) (t2 : s2.factor.terms = {p2}) {D K : List ℕ} (hsf : SharedFree s1.position.dirs s2.position.dirs D K)
    (c1 : ¬ Couples p1.toList K) (c2 : ¬ Couples p2.toList K)
    (h : s1.degree ≠ s2.degree ∨ s1.index_set ≠ s2.index_set ∨
      partOn p1.toList (s1.position.dirs.headD 0) K ≠ partOn p2.toList (s2.position.dirs.headD 0) K) :
    series_tensorize [s1, s2] = .throws := by
  have e1 := project_factor f1 t1 (d1 ▸ h1.dirs) hsf.incK c1
  have e2 := project_factor f2 t2 (d2 ▸ h2.dirs) hsf.incK c2
  rw [d1] at e1
  rw [d2] at e2
  have key : series_tensorize2 s1 s2 = .throws := by
    rw [series_tensorize2, if_neg (PosOk.dim_pos h1.pos h1.dirs), if_neg (PosOk.dim_pos h2.pos h2.dirs)]
    simp only [common_eq (d1 ▸ f1.sorted) hsf]
    rw [e1, Out.ok_bind, e2, Out.ok_bind]
    split_ifs with a b c
    on_goal 4 => rfl
    on_goal 3 => rfl
    on_goal 2 => rfl
    · simp only [not_not, Prod.mk.injEq, true_and] at a b c
      rcases h with h | h | h
      · exact absurd b h
      · exact absurd c h
      · exact absurd a h
  simp [series_tensorize, key]

/-- C67. The product with a series without directions, on either side, multiplies the coefficients by its coefficient. -/
theorem C67_scalar {z s : HSeries (SFn F)} {c : ℝ} (hz : z.position.dim = 0) (hc : z.coeffs = [c]) (hs : SeriesOk s) :
    ∃ r, series_tensorize [z, s] = .ok r ∧ series_tensorize [s, z] = .ok r ∧ Alike s r ∧ ∀ m y, Coef r m y ↔ ∃ a, Coef s m a ∧ y = c * a := by
  obtain ⟨r, e, al, co⟩ := series_map_ok s hs (c * ·)
  refine ⟨r, ?_, ?_, al, co⟩
  · rw [series_tensorize, List.foldlM_cons, series_tensorize2, if_pos hz, hc]
    simp only [pyget, List.getElem?_cons_zero, Out.ok_bind]
    rw [e]
    rfl
  · rw [series_tensorize, List.foldlM_cons, series_tensorize2, if_neg (PosOk.dim_pos hs.pos hs.dirs), if_pos hz, hc]
    simp only [pyget, List.getElem?_cons_zero, Out.ok_bind]
    rw [e]
    rfl

/-! ## The hypotheses can be met -/

/-- Factors for the examples: `(s, c)` is the sum of `c` and the coordinates in `s`. -/
noncomputable local instance interp67 : Interp ℝ where
  val s c x := c + ∑ d ∈ s, x d
  val_local s c x y h := by rw [Finset.sum_congr rfl h]

noncomputable local instance decEq67 : DecidableEq ℝ := Classical.decEq ℝ

/-- A series on the directions 0 and 1 with factor `3 (4 + x) y` and one on the directions 1 and 2 with factor `y (z + 2)`: they have the
direction 1 in common, and `y`. -/
example : ∃ s1 s2 : HSeries (SFn ℝ), Compatible s1 s2 {(∅, 3), ({0}, 4), ({1}, 0)} {({1}, 0), ({2}, 2)} [1] ∧
    SharedFree s1.position.dirs s2.position.dirs [0, 2] [1] ∧ Usable s1.index_set 2 s1.degree ∧ s1.degree = 2 ∧
    s1.position.mean = [7, 5] ∧ s2.position.mean = [5, 9] := by
  have hu := usable_small .triangle (dim := 2) (degree := 2) (by simp) (by simp) (by simp)
  obtain ⟨L, hL⟩ := iterOk_exists hu.toSized.fits'
  have mk : ∀ (p : Position) (hp : PosOk p) (hd : p.dirs ≠ []) (h2 : p.dim = 2) (f : SFn ℝ), ∃ S : HSeries (SFn ℝ), SeriesOk S ∧ S.position = p ∧
      S.factor = f ∧ S.index_set = .triangle ∧ S.degree = 2 := by
    intro p hp hd h2 f
    have hs := mkSeries_small (coeffs := L.map fun _ => 1) (factor := f) hp hd (s := .triangle) (d := 2) (by rw [h2]; exact hu) (by rw [h2]; exact hL) (by simp)
    obtain ⟨S, e, ok, -, h2, h3, h4, -⟩ := mkSeries_ok (factor := f) hp hd (by rw [h2]; exact hu) (by rw [h2]; exact hL) (coeffs := L.map fun _ => 1) (by simp)
    rw [hs] at e
    cases e
    exact ⟨_, ok, rfl, rfl, rfl, rfl⟩
  obtain ⟨s1, ok1, p1, f1, i1, d1⟩ := mk ⟨2, [0, 1], [7, 5], diagMat [1, 4], ["hermite", "hermite"]⟩
    ⟨rfl, rfl, rfl, by simp [diagMat], rfl, by simp⟩ (by simp) rfl ⟨[0, 1], {{(∅, 3), ({0}, 4), ({1}, 0)}}⟩
  obtain ⟨s2, ok2, p2, f2, i2, d2⟩ := mk ⟨2, [1, 2], [5, 9], diagMat [4, 1], ["hermite", "fourier"]⟩
    ⟨rfl, rfl, rfl, by simp [diagMat], rfl, by simp⟩ (by simp) rfl ⟨[1, 2], {{({1}, 0), ({2}, 2)}}⟩
  have hdiag : ∀ a b (dirs : List ℕ) (mean : List ℝ) (types : List String), Diagonal ⟨2, dirs, mean, diagMat [a, b], types⟩ := by
    intro a b dirs mean types i j r c hij h1 h2
    simp only [diagMat, List.length_cons, List.length_nil, List.getElem?_map] at h1
    rcases i with _ | _ | i <;> simp at h1
    · subst h1
      rcases j with _ | _ | j <;> simp at h2 hij ⊢
      exact h2.symm
    · subst h1
      rcases j with _ | _ | j <;> simp at h2 hij ⊢
      exact h2.symm
  refine ⟨s1, s2, ⟨ok1, ok2, by rw [p1]; exact hdiag _ _ _ _ _, by rw [p2]; exact hdiag _ _ _ _ _, ?_, ?_, by rw [f1, p1], by rw [f2, p2], by rw [f1],
    by rw [f2], ?_, ?_, ?_, ?_, by rw [i1, i2], by rw [d1, d2]⟩, ?_, by rw [i1, d1]; exact hu, d1, by rw [p1], by rw [p2]⟩
  · rw [f1]
    exact ⟨by simp, by simp; rintro a b (⟨rfl, rfl⟩ | ⟨rfl, rfl⟩ | ⟨rfl, rfl⟩) <;> simp⟩
  · rw [f2]
    exact ⟨by simp, by simp; rintro a b (⟨rfl, rfl⟩ | ⟨rfl, rfl⟩) <;> simp⟩
  · rintro ⟨f, hf, ⟨x, hx, hx1⟩, y, hy, hy1⟩
    simp at hf hx1 hy1
    rcases hf with rfl | rfl | rfl <;> simp at hx hy <;> omega
  · rintro ⟨f, hf, ⟨x, hx, hx1⟩, y, hy, hy1⟩
    simp at hf hx1 hy1
    rcases hf with rfl | rfl <;> simp at hx hy <;> omega
  · rw [p1, p2]
    rw [partOn, partOn, Multiset.coe_toList, Multiset.coe_toList]
    simp [Multiset.insert_eq_cons, Multiset.filter_singleton]
  · rw [p1, p2]
    intro d hd x y hx hy
    simp only [List.mem_singleton] at hd
    subst hd
    obtain ⟨i, r, h1, h2, h3, h4, -⟩ := hx
    obtain ⟨i', r', h1', h2', h3', h4', -⟩ := hy
    rcases i with _ | _ | i <;> simp at h1
    rcases i' with _ | _ | i' <;> simp at h1'
    simp [diagMat] at h2 h3 h2' h3'
    subst h3 h3'
    simp at h4 h4'
    exact ⟨by rw [← h2, ← h2'], by rw [← h4, ← h4']⟩
  · rw [p1, p2]
    refine ⟨by simp, by simp, fun x => ?_, fun x => ?_⟩
    · simp; omega
    · simp; omega

end Hermipy.Props
