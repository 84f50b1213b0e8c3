import Verif.Lemmas.Plot
import Verif.Spec.Streams
import Mathlib.Algebra.BigOperators.Intervals

/-! # The stream function -/

namespace Hermipy
open Spec
variable {F : Type}

theorem grow {α : Type} {step : List α → ℕ → Out (List α)} {c : ℕ → α} {N : ℕ}
    (h : ∀ j < N, step ((List.range (j + 1)).map c) j = .ok ((List.range (j + 2)).map c)) :
    ∀ n ≤ N, (List.range n).foldlM step [c 0] = .ok ((List.range (n + 1)).map c)
  | 0, _ => rfl
  | n + 1, hn => by
    rw [List.range_succ, List.foldlM_append, grow h n (by omega), Out.ok_bind, List.foldlM_cons, h n (by omega), Out.ok_bind, List.foldlM_nil,
      Out.pure_eq]

theorem pyget_range {α : Type} (c : ℕ → α) {n i : ℕ} (h : i < n) : pyget ((List.range n).map c) i = .ok (c i) := by
  rw [pyget, List.getElem?_map, List.getElem?_range h]
  rfl

theorem psiRow_ok (X : ℕ → ℝ) (V : ℕ → ℝ) {nx : ℕ} (h : 1 ≤ nx) : psiRow ((List.range nx).map X) ((List.range nx).map V) nx =
    .ok ((List.range nx).map fun i => -∑ l ∈ Finset.range i, V (l + 1) * (X (l + 1) - X l)) := by
  set c : ℕ → ℝ := fun i => -∑ l ∈ Finset.range i, V (l + 1) * (X (l + 1) - X l) with hc
  have hg := grow (step := fun row j => do
    let a ← pyget row j
    let f ← pyget ((List.range nx).map V) (j + 1)
    let x1 ← pyget ((List.range nx).map X) (j + 1)
    let x0 ← pyget ((List.range nx).map X) j
    .ok (row ++ [a - f * (x1 - x0)])) (c := c) (N := nx - 1) (by
      intro j hj
      rw [pyget_range c (by omega), Out.ok_bind, pyget_range V (by omega), Out.ok_bind, pyget_range X (by omega), Out.ok_bind,
        pyget_range X (by omega), Out.ok_bind, List.range_succ (n := j + 1), List.map_append]
      congr 3
      simp only [hc, Finset.sum_range_succ]
      simp
      ring) (nx - 1) (le_refl _)
  have h0 : c 0 = 0 := by simp [hc]
  rw [h0, Nat.sub_add_cancel h] at hg
  exact hg

theorem calc_psi2d_ok (X Y : ℕ → ℝ) (U V : ℕ → ℕ → ℝ) {nx ny : ℕ} (hx : 1 ≤ nx) (hy : 1 ≤ ny) :
    calc_psi2d ((List.range nx).map X) ((List.range ny).map Y) (gridTable ny nx U) (gridTable ny nx V) = .ok (gridTable ny nx (lineIntegral X Y U V)) := by
  set c : ℕ → List ℝ := fun j => (List.range nx).map fun i => lineIntegral X Y U V j i with hc
  have e1 : pyget (gridTable ny nx U) 0 = .ok ((List.range nx).map fun i => U 0 i) := pyget_range _ (by omega)
  have e2 : pyget (gridTable ny nx V) 0 = .ok ((List.range nx).map fun i => V 0 i) := pyget_range _ (by omega)
  have h0 : ((List.range nx).map fun i => -∑ l ∈ Finset.range i, V 0 (l + 1) * (X (l + 1) - X l)) = c 0 := by
    simp [hc, lineIntegral]
  rw [calc_psi2d, e1, Out.ok_bind, e2, Out.ok_bind, List.length_map, List.length_range, psiRow_ok X (V 0) hx, Out.ok_bind, h0]
  have hl : (gridTable ny nx U).length = ny := by simp [gridTable]
  rw [hl]
  have hg := grow (step := fun psi j => do
    let a ← pyget psi j
    let f ← pyget (gridTable ny nx U) (j + 1)
    let y1 ← pyget ((List.range ny).map Y) (j + 1)
    let y0 ← pyget ((List.range ny).map Y) j
    let r ← broadcast (fun a f => a + f * (y1 - y0)) a f
    .ok (psi ++ [r])) (c := c) (N := ny - 1) (by
      intro j hj
      have e : pyget (gridTable ny nx U) (j + 1) = .ok ((List.range nx).map fun i => U (j + 1) i) := pyget_range _ (by omega)
      rw [pyget_range c (by omega), Out.ok_bind, e, Out.ok_bind, pyget_range Y (by omega), Out.ok_bind, pyget_range Y (by omega), Out.ok_bind,
        broadcast, if_pos (by simp [hc]), Out.ok_bind, List.range_succ (n := j + 1), List.map_append]
      congr 3
      simp only [hc, List.zipWith_map, List.zipWith_self]
      congr 1
      funext i
      simp only [lineIntegral, Finset.sum_range_succ]
      ring) (ny - 1) (le_refl _)
  rw [Nat.sub_add_cancel hy] at hg
  exact hg

theorem map_table (a b : List ℝ) (f : ℝ → ℝ → ℝ) : (b.map fun y => a.map fun x => f x y) =
    gridTable b.length a.length fun j i => f (a.getD i 0) (b.getD j 0) := by
  have h : ∀ {α : Type} (l : List ℝ) (g : ℝ → α), l.map g = (List.range l.length).map fun i => g (l.getD i 0) := by
    intro α l g
    refine List.ext_getElem (by simp) fun i h1 h2 => ?_
    simp at h1 ⊢
    rw [List.getElem?_eq_getElem h1]
    rfl
  rw [gridTable, h b]
  refine List.map_congr_left fun j _ => ?_
  rw [h a]

theorem range_getD (l : List ℝ) : l = (List.range l.length).map fun i => l.getD i 0 := by
  refine List.ext_getElem (by simp) fun i h1 h2 => ?_
  simp [h1]

section
variable [Interp F]

theorem quad_streamlines_ok {slack : ℕ} {eig : Eig} (he : EigDiag eig) {var : ℕ → F} (hvar : ∀ d x, Interp.val {d} (var d) x = x d) {q : HQuad F}
    (hq : QuadOk q) {p : Product F} (hp : q.factor.terms = {p}) (hd : q.position.dirs = [0, 1]) (hc : ¬ Couples p.toList [0])
    {fx fy : PlotArg F} {factor : PlotFactor F} {u v : (ℕ → ℝ) → ℝ}
    (hv : streamValues slack eig q fx fy factor = .ok ((gridPoints q.nodes).map fun p => u (gridPoint q.position p),
      (gridPoints q.nodes).map fun p => v (gridPoint q.position p))) :
    let psi := gridTable (axis q 1).length (axis q 0).length (lineIntegral (fun i => (axis q 0).getD i 0) (fun j => (axis q 1).getD j 0)
      (fun j i => u (at2 0 1 ((axis q 0).getD i 0) ((axis q 1).getD j 0))) (fun j i => v (at2 0 1 ((axis q 0).getD i 0) ((axis q 1).getD j 0))))
    ∃ low high, quad_streamlines slack eig var q fx fy factor = .ok ⟨axis q 0, axis q 1, psi, streamLevels low high⟩ ∧
      Extremes low high psi.flatten := by
  intro psi
  obtain ⟨a, b, hab⟩ : ∃ a b, q.nodes = [a, b] := by
    have : q.nodes.length = 2 := by rw [hq.dim, ← hq.pos.dirs, hd]; rfl
    exact List.length_eq_two.1 this
  have hdim : q.position.dim = 2 := by rw [← hq.pos.dirs, hd]; rfl
  have hax : axis q 0 = a.map fun t => q.position.mean.getD 0 0 + √(entryOf q.position.cov 0 0) * t := by rw [axis, hab]; rfl
  have hay : axis q 1 = b.map fun t => q.position.mean.getD 1 0 + √(entryOf q.position.cov 1 1) * t := by rw [axis, hab]; rfl
  have hz : ∀ h : (ℕ → ℝ) → ℝ, (b.map fun y => a.map fun x => h (gridPoint q.position [x, y])) = gridTable (axis q 1).length (axis q 0).length
      fun j i => h (at2 0 1 ((axis q 0).getD i 0) ((axis q 1).getD j 0)) := by
    intro h
    rw [← map_table (axis q 0) (axis q 1) fun x y => h (at2 0 1 x y), hax, hay, List.map_map]
    refine List.map_congr_left fun t _ => ?_
    simp only [Function.comp_apply, List.map_map]
    refine List.map_congr_left fun s _ => ?_
    simp only [Function.comp_apply, gridPoint_two hq hd]
  have hne := hq.grid.nodes_pos
  have hla : 1 ≤ (axis q 0).length := by
    rw [hax, List.length_map]
    exact List.length_pos_iff.2 (hne a (by rw [hab]; simp))
  have hlb : 1 ≤ (axis q 1).length := by
    rw [hay, List.length_map]
    exact List.length_pos_iff.2 (hne b (by rw [hab]; simp))
  have hce : ¬ Couples p.toList [1] := by
    rintro ⟨f, hf, ⟨x, hx, hx'⟩, y, hy, hy'⟩
    have hy2 : y ∈ [0, 1] := by
      rw [← hd, ← hq.factorDirs]
      exact hq.factor.vars p (by rw [hp]; simp) f (Multiset.mem_toList.1 hf) y hy
    have hyd : y = 0 := by
      simp only [List.mem_cons, List.not_mem_nil, or_false] at hy2 hy'
      tauto
    have hxe : x = 1 := by simpa using hx'
    exact hc ⟨f, hf, ⟨y, hy, by simp [hyd]⟩, x, hx, by simp [hxe]⟩
  have hpsi := calc_psi2d_ok (fun i => (axis q 0).getD i 0) (fun j => (axis q 1).getD j 0)
      (fun j i => u (at2 0 1 ((axis q 0).getD i 0) ((axis q 1).getD j 0))) (fun j i => v (at2 0 1 ((axis q 0).getD i 0) ((axis q 1).getD j 0))) hla hlb
  rw [← range_getD, ← range_getD] at hpsi
  obtain ⟨low, high, e1, e2, e3⟩ := extremes_ok (v := psi.flatten) (by
    intro h0
    have := List.flatten_eq_nil_iff.1 h0 _ (List.mem_map.2 ⟨0, List.mem_range.2 hlb, rfl⟩)
    rw [List.map_eq_nil_iff, List.range_eq_nil] at this
    omega)
  refine ⟨low, high, ?_, e3⟩
  have hr : List.range 2 = [0, 1] := rfl
  have p0 : pyget [0, 1] 0 = .ok 0 := rfl
  have p1 : pyget [0, 1] 1 = .ok 1 := rfl
  have p2 : ∀ {α : Type} (x y : α), pyget [x, y] 0 = .ok x := fun _ _ => rfl
  have p3 : ∀ {α : Type} (x y : α), pyget [x, y] 1 = .ok y := fun _ _ => rfl
  rw [quad_streamlines, if_neg (by rw [not_or, not_not, not_not]; exact ⟨is_diag_of hq, hdim⟩), hv, Out.ok_bind, hdim, hr, hd, List.mapM_cons,
    List.mapM_cons, List.mapM_nil, p0, p1, Out.ok_bind, Out.ok_bind,
    axisNodes_ok he hvar hq hp (i := 0) (by rw [hd]; rfl) (by omega) hc, axisNodes_ok he hvar hq hp (i := 1) (by rw [hd]; rfl) (by omega) hce]
  simp only [Out.ok_bind, Out.pure_eq, hab, List.map_cons, List.map_nil, p2, p3]
  rw [reshapeT_grid a b fun p => u (gridPoint q.position p), Out.ok_bind, reshapeT_grid a b fun p => v (gridPoint q.position p), Out.ok_bind,
    hz, hz, hpsi, Out.ok_bind, e1, Out.ok_bind, e2, Out.ok_bind]

end

end Hermipy
