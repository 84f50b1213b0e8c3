import Verif.Model.Plot
import Verif.Spec.Plot
import Verif.Lemmas.QuadEval
import Verif.Lemmas.QuadProject
import Mathlib.Data.List.GetD

/-! # The data of plots -/

namespace Hermipy
open Spec
variable {F : Type}

theorem foldl_min_le (l : List ℝ) (a : ℝ) : l.foldl min a ≤ a ∧ (∀ v ∈ l, l.foldl min a ≤ v) ∧ (l.foldl min a = a ∨ l.foldl min a ∈ l) := by
  induction l generalizing a with
  | nil => simp
  | cons b l ih =>
    obtain ⟨h1, h2, h3⟩ := ih (min a b)
    rw [List.foldl_cons]
    refine ⟨h1.trans (min_le_left _ _), ?_, ?_⟩
    · intro v hv
      rcases List.mem_cons.1 hv with rfl | hv
      · exact h1.trans (min_le_right _ _)
      · exact h2 v hv
    · rcases h3 with h3 | h3
      · rw [h3]
        rcases min_choice a b with h | h <;> rw [h] <;> simp
      · right; simp [h3]

theorem le_foldl_max (l : List ℝ) (a : ℝ) : a ≤ l.foldl max a ∧ (∀ v ∈ l, v ≤ l.foldl max a) ∧ (l.foldl max a = a ∨ l.foldl max a ∈ l) := by
  induction l generalizing a with
  | nil => simp
  | cons b l ih =>
    obtain ⟨h1, h2, h3⟩ := ih (max a b)
    rw [List.foldl_cons]
    refine ⟨(le_max_left _ _).trans h1, ?_, ?_⟩
    · intro v hv
      rcases List.mem_cons.1 hv with rfl | hv
      · exact (le_max_right _ _).trans h1
      · exact h2 v hv
    · rcases h3 with h3 | h3
      · rw [h3]
        rcases max_choice a b with h | h <;> rw [h] <;> simp
      · right; simp [h3]

theorem extremes_ok {v : List ℝ} (h : v ≠ []) : ∃ low high, npMin v = .ok low ∧ npMax v = .ok high ∧ Extremes low high v := by
  obtain ⟨a, l, rfl⟩ := List.exists_cons_of_ne_nil h
  obtain ⟨h1, h2, h3⟩ := foldl_min_le l a
  obtain ⟨g1, g2, g3⟩ := le_foldl_max l a
  refine ⟨_, _, rfl, rfl, ?_, ?_, ?_⟩
  · rcases h3 with h3 | h3 <;> simp [h3]
  · rcases g3 with g3 | g3 <;> simp [g3]
  · intro v hv
    rcases List.mem_cons.1 hv with rfl | hv
    · exact ⟨h1, g1⟩
    · exact ⟨h2 v hv, g2 v hv⟩

/-! ## Axes -/

section
variable [Interp F]

theorem value_coordinate {var : ℕ → F} (hvar : ∀ d x, Interp.val {d} (var d) x = x d) (dirs : List ℕ) (d : ℕ) (x : ℕ → ℝ) :
    (⟨dirs, {{({d}, var d)}}⟩ : SFn F).value x = x d := by
  simp [SFn.value, productValue, hvar]

theorem axisNodes_ok {eig : Eig} (he : EigDiag eig) {var : ℕ → F} (hvar : ∀ d x, Interp.val {d} (var d) x = x d) {q : HQuad F} (hq : QuadOk q)
    {p : Product F} (hp : q.factor.terms = {p}) {i d : ℕ} (hd : q.position.dirs[i]? = some d) (h5 : d < 5) (hc : ¬ Couples p.toList [d]) :
    axisNodes eig var q d d = .ok (axis q i) := by
  have hmem : d ∈ q.position.dirs := List.mem_of_getElem? hd
  have hi : q.position.dirs.idxOf d = i := by
    obtain ⟨h, rfl⟩ := List.getElem?_eq_some_iff.1 hd
    exact hq.pos.nodup.idxOf_getElem i h
  have ok := subQuad_ok hq p hp (ds := [d]) (by simp) (by simp) (by simpa using hmem) hc
  rw [axisNodes, if_neg (by omega), quad_project_ok hq hp (by simp) (by simpa using hmem) hc, Out.ok_bind]
  have e : factorOf (coordinate var d) (subQuad q p [d]).position.dirs = .ok (⟨[d], {{({d}, var d)}}⟩ : SFn F) := by
    rw [coordinate, factorOf]
    rw [if_neg (by simp [subQuad, subPos, assemble, isSorted]), if_neg (by simp [subQuad, subPos, assemble]; omega), if_neg]
    · rfl
    · rintro ⟨t, ht, x, ⟨a, ha, hx⟩, hn⟩
      rw [Multiset.mem_singleton] at ht
      subst ht
      rw [Multiset.mem_singleton] at ha
      subst ha
      exact hn (by simpa [subQuad, subPos, assemble] using hx)
  rw [e, Out.ok_bind, quad_discretize_ok he ok (by rfl) (by simp)]
  congr 1
  simp only [value_coordinate hvar]
  have e1 : (subQuad q p [d]).nodes = [q.nodes.getD i []] := by simp [subQuad, sub, relDirs, hi]
  rw [e1, gridPoints, cartesian, cartesian, axis]
  simp only [List.map_cons, List.map_nil]
  rw [← List.map_eq_flatMap, List.map_map]
  refine List.map_congr_left fun t _ => ?_
  simp [subQuad, subPos, assemble, gridPoint, dirData, hi, diagMat, entryOf]

theorem is_diag_of {q : HQuad F} (hq : QuadOk q) : q.position.is_diag := hq.diag.is_diag

omit [Interp F] in
theorem axis_length (q : HQuad F) (i : ℕ) : (axis q i).length = (q.nodes.getD i []).length := by simp [axis]

omit [Interp F] in
theorem gridPoint_one {q : HQuad F} (hq : QuadOk q) {d : ℕ} (hd : q.position.dirs = [d]) (t : ℝ) :
    gridPoint q.position [t] = at1 d (q.position.mean.getD 0 0 + √(entryOf q.position.cov 0 0) * t) := by
  funext k
  have hm : q.position.mean.length = 1 := by rw [hq.pos.mean, ← hq.pos.dirs, hd]; rfl
  rw [gridPoint, hd, at1]
  by_cases h : k = d
  · subst h; simp
  · rw [if_neg h, List.idxOf_cons_ne _ (Ne.symm h)]
    simp [hm]

omit [Interp F] in
theorem gridPoint_two {q : HQuad F} (hq : QuadOk q) {d e : ℕ} (hd : q.position.dirs = [d, e]) (s t : ℝ) :
    gridPoint q.position [s, t] = at2 d e (q.position.mean.getD 0 0 + √(entryOf q.position.cov 0 0) * s)
      (q.position.mean.getD 1 0 + √(entryOf q.position.cov 1 1) * t) := by
  funext k
  have hm : q.position.mean.length = 2 := by rw [hq.pos.mean, ← hq.pos.dirs, hd]; rfl
  rw [gridPoint, hd, at2]
  by_cases h : k = d
  · subst h; simp
  · rw [if_neg h, List.idxOf_cons_ne _ (Ne.symm h)]
    by_cases h' : k = e
    · subst h'; simp
    · rw [if_neg h', List.idxOf_cons_ne _ (Ne.symm h')]
      simp [hm]

theorem grid_one (a : List ℝ) : gridPoints [a] = a.map fun x => [x] := by
  rw [gridPoints, cartesian, cartesian, List.map_eq_flatMap]
  simp

theorem grid_two_getD {α : Type} (b : List ℝ) (h : List ℝ → α) (z : α) : ∀ (a : List ℝ) (i j : ℕ) (_ : i < a.length) (hj : j < b.length),
    ((gridPoints [a, b]).map h).getD (i * b.length + j) z = h [a.getD i 0, b[j]]
  | [], i, j, hi, _ => by simp at hi
  | x :: a, i, j, hi, hj => by
    have e : gridPoints [x :: a, b] = (b.map fun y => [x, y]) ++ gridPoints [a, b] := by
      simp [gridPoints, cartesian, List.map_eq_flatMap, List.flatMap_assoc]
    rw [e, List.map_append]
    cases i with
    | zero =>
      rw [zero_mul, zero_add, List.getD_append _ _ _ _ (by simpa using hj)]
      simp [hj]
    | succ i =>
      have := grid_two_getD b h z a i j (by simpa using hi) hj
      rw [List.getD_append_right _ _ _ _ (by simp; nlinarith)]
      have e : (i + 1) * b.length + j - ((b.map fun y => [x, y]).map h).length = i * b.length + j := by
        simp; rw [add_mul, one_mul]; omega
      rw [e, this]
      simp

theorem grid_two_length (a b : List ℝ) : (gridPoints [a, b]).length = a.length * b.length := by
  rw [gridPoints, length_cartesian]
  simp

theorem reshapeT_grid (a b : List ℝ) (h : List ℝ → ℝ) :
    reshapeT ((gridPoints [a, b]).map h) a.length b.length = .ok (b.map fun y => a.map fun x => h [x, y]) := by
  rw [reshapeT, if_neg (by simp [grid_two_length])]
  congr 1
  refine List.ext_getElem (by simp) fun j h1 h2 => ?_
  simp only [List.length_map, List.length_range] at h1 h2
  simp only [List.getElem_map, List.getElem_range]
  refine List.ext_getElem (by simp) fun i h3 h4 => ?_
  simp only [List.length_map, List.length_range] at h3 h4
  simp only [List.getElem_map, List.getElem_range]
  rw [grid_two_getD b h 0 a i j h3 h1]
  simp [h3]

/-- A plot in one direction. -/
theorem quad_plot_one {slack : ℕ} {eig : Eig} (he : EigDiag eig) {var : ℕ → F} (hvar : ∀ d x, Interp.val {d} (var d) x = x d) {q : HQuad F}
    (hq : QuadOk q) {p : Product F} (hp : q.factor.terms = {p}) {d : ℕ} (hd : q.position.dirs = [d]) (h5 : d < 5) {arg : PlotArg F}
    {factor : PlotFactor F} {bounds : Bool} {lines : List ℝ × List ℝ} (hl : seriesLines q arg bounds = .ok lines) {h : (ℕ → ℝ) → ℝ}
    (hv : plotValues slack eig q arg factor = .ok ((gridPoints q.nodes).map fun p => h (gridPoint q.position p))) :
    ∃ low high, quad_plot slack eig var q arg factor bounds =
        .ok ⟨.curve (axis q 0) ((axis q 0).map fun x => h (at1 d x)), lines.1, lines.2, low, high⟩ ∧
      Extremes low high ((axis q 0).map fun x => h (at1 d x)) := by
  obtain ⟨a, ha⟩ : ∃ a, q.nodes = [a] := by
    have : q.nodes.length = 1 := by rw [hq.dim, ← hq.pos.dirs, hd]; rfl
    exact List.length_eq_one_iff.1 this
  have hax : axis q 0 = a.map fun t => q.position.mean.getD 0 0 + √(entryOf q.position.cov 0 0) * t := by rw [axis, ha]; rfl
  have hval : ((gridPoints q.nodes).map fun p => h (gridPoint q.position p)) = (axis q 0).map fun x => h (at1 d x) := by
    rw [ha, grid_one, hax, List.map_map, List.map_map]
    refine List.map_congr_left fun t _ => ?_
    simp [gridPoint_one hq hd]
  have hne : a ≠ [] := hq.grid.nodes_pos a (by rw [ha]; simp)
  rw [hval] at hv
  obtain ⟨low, high, e1, e2, e3⟩ := extremes_ok (v := (axis q 0).map fun x => h (at1 d x)) (by rw [hax]; simpa using hne)
  refine ⟨low, high, ?_, e3⟩
  have hc : ¬ Couples p.toList [d] := by
    rintro ⟨f, hf, -, y, hy, hy'⟩
    refine hy' ?_
    rw [← hd, ← hq.factorDirs]
    exact hq.factor.vars p (by rw [hp]; simp) f (Multiset.mem_toList.1 hf) y hy
  rw [quad_plot, if_neg (not_not.2 (is_diag_of hq)), hv, Out.ok_bind, hl, Out.ok_bind, hd, List.mapM_cons, List.mapM_nil,
    axisNodes_ok he hvar hq hp (i := 0) (by rw [hd]; rfl) h5 hc]
  simp only [Out.ok_bind, Out.pure_eq, ha, List.map_cons, List.map_nil]
  rw [if_neg (by simp [hax]), e1, Out.ok_bind, e2, Out.ok_bind]

/-- A plot in two directions. -/
theorem quad_plot_two {slack : ℕ} {eig : Eig} (he : EigDiag eig) {var : ℕ → F} (hvar : ∀ d x, Interp.val {d} (var d) x = x d) {q : HQuad F}
    (hq : QuadOk q) {p : Product F} (hp : q.factor.terms = {p}) {d e : ℕ} (hd : q.position.dirs = [d, e]) (h5 : e < 5)
    (hc : ¬ Couples p.toList [d]) {arg : PlotArg F}
    {factor : PlotFactor F} {bounds : Bool} {lines : List ℝ × List ℝ} (hl : seriesLines q arg bounds = .ok lines) {h : (ℕ → ℝ) → ℝ}
    (hv : plotValues slack eig q arg factor = .ok ((gridPoints q.nodes).map fun p => h (gridPoint q.position p))) :
    ∃ low high, quad_plot slack eig var q arg factor bounds = .ok ⟨.surface (axis q 0) (axis q 1) ((axis q 1).map fun y => (axis q 0).map fun x =>
        h (at2 d e x y)), lines.1, lines.2, low, high⟩ ∧
      Extremes low high ((axis q 1).map fun y => (axis q 0).map fun x => h (at2 d e x y)).flatten := by
  obtain ⟨a, b, hab⟩ : ∃ a b, q.nodes = [a, b] := by
    have : q.nodes.length = 2 := by rw [hq.dim, ← hq.pos.dirs, hd]; rfl
    exact List.length_eq_two.1 this
  have hax : axis q 0 = a.map fun t => q.position.mean.getD 0 0 + √(entryOf q.position.cov 0 0) * t := by rw [axis, hab]; rfl
  have hay : axis q 1 = b.map fun t => q.position.mean.getD 1 0 + √(entryOf q.position.cov 1 1) * t := by rw [axis, hab]; rfl
  have hz : (b.map fun y => a.map fun x => h (gridPoint q.position [x, y])) = (axis q 1).map fun y => (axis q 0).map fun x => h (at2 d e x y) := by
    rw [hax, hay, List.map_map]
    refine List.map_congr_left fun t _ => ?_
    simp only [Function.comp_apply, List.map_map]
    refine List.map_congr_left fun s _ => ?_
    simp only [Function.comp_apply, gridPoint_two hq hd]
  have hlt : d < e := by
    have := hq.sorted
    rw [hd] at this
    simpa using this
  have hne := hq.grid.nodes_pos
  have hce : ¬ Couples p.toList [e] := by
    rintro ⟨f, hf, ⟨x, hx, hx'⟩, y, hy, hy'⟩
    have hy2 : y ∈ [d, e] := by
      rw [← hd, ← hq.factorDirs]
      exact hq.factor.vars p (by rw [hp]; simp) f (Multiset.mem_toList.1 hf) y hy
    have hyd : y = d := by
      simp only [List.mem_cons, List.not_mem_nil, or_false] at hy2 hy'
      tauto
    have hxe : x = e := by simpa using hx'
    refine hc ⟨f, hf, ⟨y, hy, by simp [hyd]⟩, x, hx, ?_⟩
    simp [hxe]; omega
  obtain ⟨low, high, e1, e2, e3⟩ := extremes_ok (v := ((axis q 1).map fun y => (axis q 0).map fun x => h (at2 d e x y)).flatten) (by
    rw [hax, hay]
    obtain ⟨x, a, rfl⟩ := List.exists_cons_of_ne_nil (hne a (by rw [hab]; simp))
    obtain ⟨y, b, rfl⟩ := List.exists_cons_of_ne_nil (hne b (by rw [hab]; simp))
    simp)
  refine ⟨low, high, ?_, e3⟩
  rw [quad_plot, if_neg (not_not.2 (is_diag_of hq)), hv, Out.ok_bind, hl, Out.ok_bind, hd, List.mapM_cons, List.mapM_cons, List.mapM_nil,
    axisNodes_ok he hvar hq hp (i := 0) (by rw [hd]; rfl) (by omega) hc, axisNodes_ok he hvar hq hp (i := 1) (by rw [hd]; rfl) h5 hce]
  simp only [Out.ok_bind, Out.pure_eq, hab, List.map_cons, List.map_nil]
  rw [reshapeT_grid a b fun p => h (gridPoint q.position p), Out.ok_bind, hz, e1, Out.ok_bind, e2, Out.ok_bind]

end

end Hermipy
