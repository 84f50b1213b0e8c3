import Verif.Model.SeriesProject
import Verif.Spec.SeriesProject
import Verif.Lemmas.Gauss
import Verif.Lemmas.TripleFourier
import Verif.Lemmas.Embed
import Verif.Lemmas.QuadProject
import Verif.Lemmas.Arithmetic
import Verif.Lemmas.Project

namespace Hermipy
open Spec
variable {F : Type}

theorem relDirs_ok {p : Position} {ds : List ℕ} (h : ∀ d ∈ ds, d ∈ p.dirs) :
    ds.mapM (fun d => pyindex p.dirs d) = .ok (relDirs p ds) :=
  mapM_ok fun d hd => by rw [pyindex, if_pos (h d hd)]

theorem series_project_ok {f : HSeries (SFn F)} {p : Product F} {ds : List ℕ} (h : Projectable f p ds)
    (hu : Usable f.index_set ds.length f.degree) {L : List IVec} (hL : IterOk f.index_set f.position.dim f.degree L) :
    ∃ (g : HSeries (SFn F)) (Ls : List IVec), series_project f ds = .ok g ∧ SeriesOk g ∧ g.position = subPos f.position ds ∧
      g.factor = ⟨ds, {subProduct p (f.position.dirs.headD 0) ds}⟩ ∧ g.index_set = f.index_set ∧ SameSets f.index_set g.degree f.degree ∧
      IterOk f.index_set ds.length f.degree Ls ∧ IterOk f.index_set ds.length g.degree Ls ∧
      g.coeffs = Ls.map fun K => coef L f.coeffs (embed f.position.dim (relDirs f.position ds) K) := by
  obtain ⟨d0, ds', hd0⟩ := List.exists_cons_of_ne_nil h.ok.dirs
  have hsorted : f.position.dirs.Pairwise (· < ·) := h.facDirs ▸ h.fac.sorted
  have e1 : fn_project f.factor.toFn ds = .ok (ds, subProduct p (f.position.dirs.headD 0) ds) := by
    rw [fn_project_ok h.fac.fnOk (args := p.toList) (by rw [toFn_single h.terms]) (d0 := d0) (ds := ds')
      (by rw [← hd0, ← h.facDirs]; rfl) (h.sorted.imp le_of_lt) h.couples, partOn, Multiset.coe_toList, hd0]
    rfl
  have hrel : Dirs f.index_set f.position.dim (relDirs f.position ds) :=
    dirs_of_increasing _ (by simpa [relDirs] using h.ne) (relDirs_pairwise hsorted h.sorted h.mem) (relDirs_lt h.ok.pos h.mem)
  obtain ⟨L', hL', hlen⟩ := h.ok.list
  have := hL'.unique hL
  subst this
  obtain ⟨Ls, r, i1, e2, l1, hr⟩ := project_vec_ok h.ok.usable hrel hL hlen
  rw [show (relDirs f.position ds).length = ds.length by simp [relDirs]] at i1
  have hr' : r = Ls.map fun K => coef L' f.coeffs (embed f.position.dim (relDirs f.position ds) K) := by
    apply List.ext_getElem?
    intro k
    rw [List.getElem?_map]
    by_cases hk : k < Ls.length
    · rw [hr k _ (List.getElem?_eq_getElem hk), List.getElem?_eq_getElem hk]; rfl
    · rw [List.getElem?_eq_none (by omega), List.getElem?_eq_none (by omega)]; rfl
  obtain ⟨g, e3, ok, c1, c2, c3, c4, c5, c6⟩ := mkSeries_ok (coeffs := r) (p := subPos f.position ds)
    (factor := SFn.ofProduct (ds, subProduct p (f.position.dirs.headD 0) ds)) (s := f.index_set) (d := f.degree) (L := Ls)
    (subPos_ok _ h.sorted) h.ne (by rw [subPos_dim]; exact hu) (by rw [subPos_dim]; exact i1) l1
  rw [subPos_dim] at c5
  refine ⟨g, Ls, ?_, ok, c2, c3, c4, c6, i1, c5, by rw [c1, hr']⟩
  rw [series_project, relDirs_ok h.mem, Out.ok_bind, e2, Out.ok_bind, pos_project_sub h.ok.pos h.diag h.sorted h.mem, Out.ok_bind, e1,
    Out.ok_bind]
  exact e3

/-! ## Means of basis functions -/

theorem mean0_sum (fl : ℕ) {ι : Type} (S : Finset ι) (c : ι → ℝ) (n : ι → ℕ) :
    mean0 fl (fun t => ∑ j ∈ S, c j * phi fl (n j) t) = ∑ j ∈ S, if n j = 0 then c j else 0 := by
  rw [mean0]
  split
  · rename_i h
    subst h
    simp only [phi, if_true]
    rw [intervalIntegral.integral_finset_sum fun j _ => ((trig_continuous (n j)).const_mul (c j)).intervalIntegrable _ _, Finset.sum_div]
    refine Finset.sum_congr rfl fun j _ => ?_
    rw [intervalIntegral.integral_const_mul, integral_trig]
    have : √(2 * Real.pi) ≠ 0 := (Real.sqrt_pos.2 (by positivity)).ne'
    split
    · field_simp
    · simp
  · rename_i h
    simp only [phi, if_neg h, gaussMean]
    have e : ∀ j, (fun x => c j * herm (n j) x * (Real.exp (-(x ^ 2) / 2) / √(2 * Real.pi))) =
        fun x => c j / √((n j).factorial : ℝ) * ((He (n j)).eval x * gw x) := by
      intro j
      funext x
      rw [herm_eq, gw]
      ring
    simp only [Finset.sum_mul]
    rw [MeasureTheory.integral_finset_sum S fun j _ => by rw [e]; exact (gw_integrable _).const_mul _]
    refine Finset.sum_congr rfl fun j _ => ?_
    have h0 := gaussMean_herm (n j) 0
    have e0 : ∀ x, herm 0 x = 1 := by intro x; simp [herm]
    simp only [gaussMean, e0, mul_one] at h0
    simp only [mul_assoc]
    rw [MeasureTheory.integral_const_mul, h0]
    split <;> simp

theorem prod_split {dim k : ℕ} {ks : List ℕ} (hk : k < dim) (hn : k ∉ ks) (g : ℕ → ℝ) :
    ∏ i ∈ Finset.range dim \ ks.toFinset, g i = g k * ∏ i ∈ Finset.range dim \ (k :: ks).toFinset, g i := by
  have : k ∈ Finset.range dim \ ks.toFinset := by simp [hk, hn]
  rw [← Finset.mul_prod_erase _ _ this]
  congr 2
  ext i
  simp
  tauto

/-- The means of a series in the directions `ks`. -/
theorem means_series {dim : ℕ} (fl : List ℕ) (L : List IVec) (c : List ℝ) : ∀ (ks : List ℕ), ks.Nodup → (∀ k ∈ ks, k < dim) →
    ∀ p : List ℝ, p.length = dim → means fl ks (series dim fl L c) p =
      ∑ j ∈ Finset.range L.length, (if ∀ k ∈ ks, (L.getD j []).getD k 0 = 0 then c.getD j 0 else 0) *
        ∏ i ∈ Finset.range dim \ ks.toFinset, phi (fl.getD i 0) ((L.getD j []).getD i 0) (p.getD i 0)
  | [], _, _, p, _ => by simp [means, series, basis]
  | k :: ks, hn, hlt, p, hp => by
    have hk := hlt k (by simp)
    have hnk : k ∉ ks := (List.nodup_cons.1 hn).1
    have ih := means_series fl L c ks (List.nodup_cons.1 hn).2 fun i hi => hlt i (by simp [hi])
    have e : ∀ t, means fl ks (series dim fl L c) (p.set k t) = ∑ j ∈ Finset.range L.length,
        ((if ∀ k ∈ ks, (L.getD j []).getD k 0 = 0 then c.getD j 0 else 0) *
          ∏ i ∈ Finset.range dim \ (k :: ks).toFinset, phi (fl.getD i 0) ((L.getD j []).getD i 0) (p.getD i 0)) *
          phi (fl.getD k 0) ((L.getD j []).getD k 0) t := by
      intro t
      rw [ih (p.set k t) (by simpa using hp)]
      refine Finset.sum_congr rfl fun j _ => ?_
      rw [prod_split hk hnk]
      have e1 : (p.set k t).getD k 0 = t := by simp [hp, hk]
      have e2 : ∏ i ∈ Finset.range dim \ (k :: ks).toFinset, phi (fl.getD i 0) ((L.getD j []).getD i 0) ((p.set k t).getD i 0) =
          ∏ i ∈ Finset.range dim \ (k :: ks).toFinset, phi (fl.getD i 0) ((L.getD j []).getD i 0) (p.getD i 0) := by
        refine Finset.prod_congr rfl fun i hi => ?_
        have : k ≠ i := by
          rintro rfl
          simp at hi
        simp [List.getElem?_set_ne this]
      rw [e1, e2]
      ring
    rw [means]
    simp only [e]
    rw [mean0_sum]
    refine Finset.sum_congr rfl fun j _ => ?_
    by_cases h : (L.getD j []).getD k 0 = 0
    · simp only [h, if_true, List.mem_cons, forall_eq_or_imp, true_and]
    · simp only [h, if_false, List.mem_cons, forall_eq_or_imp, false_and, zero_mul]

/-- The sum over the multi-indices which vanish outside `dirs`, in terms of the multi-indices along `dirs`. -/
theorem sum_aligned {s : IndexSet} {dim degree : ℕ} {dirs : List ℕ} (hd : Dirs s dim dirs) {L Ls : List IVec} (hL : IterOk s dim degree L)
    (hLs : IterOk s dirs.length degree Ls) {c : List ℝ} (hc : c.length = L.length) (g : IVec → ℝ) :
    ∑ j ∈ Finset.range L.length, (if ∀ k, k < dim → k ∉ dirs → (L.getD j []).getD k 0 = 0 then c.getD j 0 else 0) * g (restrict dirs (L.getD j [])) =
      ∑ j ∈ Finset.range Ls.length, coef L c (embed dim dirs (Ls.getD j [])) * g (Ls.getD j []) := by
  have hal : ∀ m : IVec, m.length = dim → ((∀ k, k < dim → k ∉ dirs → m.getD k 0 = 0) ↔ m = embed dim dirs (restrict dirs m)) := by
    intro m hm
    rw [← aligned_iff_embed hm, isAligned_iff]
    constructor
    · intro h i hi
      by_contra hn
      by_cases hi' : i < dim
      · exact hi (h i hi' hn)
      · exact hi (by simp [hm, not_lt.1 hi'])
    · intro h k _ hn
      by_contra h0
      exact hn (h k h0)
  have hget : ∀ {M : List IVec} {j : ℕ}, j ∈ Finset.range M.length → M[j]? = some (M.getD j []) := by
    intro M j hj
    have : j < M.length := by simpa using hj
    simp [this]
  symm
  refine Finset.sum_bij_ne_zero (fun j _ _ => L.idxOf (embed dim dirs (Ls.getD j []))) ?_ ?_ ?_ ?_
  · intro j hj h0
    have hm : embed dim dirs (Ls.getD j []) ∈ L := by
      by_contra hn
      rw [coef_of_notMem (by omega) hn, zero_mul] at h0
      exact h0 rfl
    exact Finset.mem_range.2 (List.idxOf_lt_length_of_mem hm)
  · intro i hi hi0 j hj hj0 e
    have hm : ∀ {i}, i ∈ Finset.range Ls.length → coef L c (embed dim dirs (Ls.getD i [])) * g (Ls.getD i []) ≠ 0 →
        embed dim dirs (Ls.getD i []) ∈ L := by
      intro i _ h0
      by_contra hn
      rw [coef_of_notMem (by omega) hn, zero_mul] at h0
      exact h0 rfl
    have e1 := (List.idxOf_inj (hm hi hi0)).1 e
    have l1 := inSet_length ((hLs.mem _).1 (List.mem_of_getElem? (hget hi)))
    have l2 := inSet_length ((hLs.mem _).1 (List.mem_of_getElem? (hget hj)))
    have e2 := congrArg (restrict dirs) e1
    rw [restrict_embed hd.nodup hd.lt l1, restrict_embed hd.nodup hd.lt l2] at e2
    have i1 : i < Ls.length := by simpa using hi
    have i2 : j < Ls.length := by simpa using hj
    refine (hLs.nodup.getElem_inj_iff (hi := i1) (hj := i2)).1 ?_
    simpa [i1, i2] using e2
  · intro i hi h0
    have hm := (hL.mem _).1 (List.mem_of_getElem? (hget hi))
    have hl := inSet_length hm
    have hi' : i < L.length := by simpa using hi
    by_cases ha : ∀ k, k < dim → k ∉ dirs → (L.getD i []).getD k 0 = 0
    · have hemb := (hal _ hl).1 ha
      have hr := inSet_restrict hd hm
      have hrm := (hLs.mem _).2 hr
      have hlt := List.idxOf_lt_length_of_mem hrm
      have e1 : Ls.getD (Ls.idxOf (restrict dirs (L.getD i []))) [] = restrict dirs (L.getD i []) := by
        have := getElem?_idxOf' hrm
        rw [List.getD_eq_getElem?_getD, this]; rfl
      have e2 : L.idxOf (L.getD i []) = i := idxOf_of_getElem? hL.nodup (hget hi)
      refine ⟨Ls.idxOf (restrict dirs (L.getD i [])), by simpa using hlt, ?_, ?_⟩
      · rw [e1, ← hemb, coef, e2]
        rw [if_pos ha] at h0
        exact h0
      · rw [e1, ← hemb, e2]
    · rw [if_neg ha, zero_mul] at h0
      exact absurd rfl h0
  · intro j hj h0
    have hm : embed dim dirs (Ls.getD j []) ∈ L := by
      by_contra hn
      rw [coef_of_notMem (by omega) hn, zero_mul] at h0
      exact h0 rfl
    have l1 := inSet_length ((hLs.mem _).1 (List.mem_of_getElem? (hget hj)))
    have e1 : L.getD (L.idxOf (embed dim dirs (Ls.getD j []))) [] = embed dim dirs (Ls.getD j []) := by
      rw [List.getD_eq_getElem?_getD, getElem?_idxOf' hm]; rfl
    rw [e1, restrict_embed hd.nodup hd.lt l1, coef, if_pos]
    intro k hk hn
    rw [embed_getD hk, at'_of_notMem hn (by omega)]

end Hermipy
