import Verif.Lemmas.QuadProject
import Verif.Lemmas.Series
import Verif.Lemmas.TransformOk
import Mathlib.Tactic.FieldSimp

/-! # Evaluation of a series on the grid of a quadrature -/

namespace Hermipy
open Spec
variable {F : Type}

theorem laInv_diag {v : List ℝ} (hv : ∀ x ∈ v, x ≠ 0) : laInv v.length (diagMat v) = .ok (diagMat (v.map fun x => x⁻¹)) := by
  have hM : (Matrix.of fun (i j : Fin v.length) => entryOf (diagMat v) i j) = Matrix.diagonal fun i => v[i] := by
    ext i j
    rw [Matrix.of_apply, entryOf_diagMat _ i.2 j.2, Matrix.diagonal_apply]
    simp [Fin.ext_iff]
  have hinv : (Matrix.diagonal fun i : Fin v.length => v[i])⁻¹ = Matrix.diagonal fun i => (v[i])⁻¹ := by
    apply Matrix.inv_eq_right_inv
    rw [Matrix.diagonal_mul_diagonal, ← Matrix.diagonal_one]
    congr 1
    ext i
    exact mul_inv_cancel₀ (hv _ (List.getElem_mem _))
  have hdet : ¬ (Matrix.diagonal fun i : Fin v.length => v[i]).det = 0 := by
    rw [Matrix.det_diagonal, Finset.prod_eq_zero_iff]
    rintro ⟨i, -, hi⟩
    exact hv _ (List.getElem_mem _) hi
  rw [laInv]
  simp only [hM]
  rw [if_neg hdet, hinv]
  congr 1
  rw [diagMat]
  simp only [List.length_map]
  apply List.ext_getElem
  · simp
  · intro i h1 h2
    apply List.ext_getElem
    · simp
    · intro j h3 h4
      simp at h1 h2 h3 h4
      simp [Matrix.diagonal_apply, h1, Fin.ext_iff]

theorem matDot_diag {u v : List ℝ} (h : u.length = v.length) : matDot (diagMat u) v = .ok (List.zipWith (· * ·) u v) := by
  rw [matDot, mapM_ok (g := fun r => (List.zipWith (· * ·) r v).sum)]
  · congr 1
    rw [diagMat, List.map_map]
    apply List.ext_getElem
    · simp [h]
    · intro i h1 h2
      simp at h1 h2
      simp only [List.getElem_map, List.getElem_range, Function.comp_apply, List.getElem_zipWith]
      have hz : List.zipWith (· * ·) ((List.range u.length).map fun j => if i = j then u.getD i 0 else 0) v
          = (List.range u.length).map fun j => if i = j then u[i] * v[i] else 0 := by
        apply List.ext_getElem
        · simp [h]
        · intro j h3 h4
          simp at h3 h4
          by_cases hij : i = j
          · subst hij; simp [h1]
          · simp [hij]
      rw [hz]
      have hs : ((List.range u.length).map fun j => if i = j then u[i] * v[i] else 0).sum
          = ∑ j ∈ Finset.range u.length, if i = j then u[i] * v[i] else 0 := rfl
      rw [hs, Finset.sum_ite_eq, if_pos (Finset.mem_range.2 h2.1)]
  · intro r hr
    rw [diagMat] at hr
    obtain ⟨i, -, rfl⟩ := List.mem_map.1 hr
    rw [if_pos (by simp [h])]

theorem broadcast2_diag {u v : List ℝ} (h : u.length = v.length) :
    broadcast2 (· * ·) (diagMat u) (diagMat v) = .ok (diagMat (List.zipWith (· * ·) u v)) := by
  rw [broadcast2, if_pos (by simp [diagMat, h]), mapM_ok (g := fun r => List.zipWith (· * ·) r.1 r.2)]
  · congr 1
    apply List.ext_getElem
    · simp [diagMat, h]
    · intro i h1 h2
      simp [diagMat, h] at h1 h2
      apply List.ext_getElem
      · simp [diagMat, h]
      · intro j h3 h4
        simp [diagMat, h] at h3 h4
        by_cases hij : i = j
        · subst hij; simp [diagMat, h1, h]
        · simp [diagMat, hij]
  · intro r hr
    have h1 := List.of_mem_zip hr
    rw [broadcast, if_pos]
    obtain ⟨i, -, e1⟩ := List.mem_map.1 h1.1
    obtain ⟨j, -, e2⟩ := List.mem_map.1 h1.2
    rw [← e1, ← e2]
    simp [h]

theorem offDiagNorm_diag (v : List ℝ) : offDiagNorm v.length (diagMat v) = 0 := by
  have : (Matrix.of fun (i j : Fin v.length) => if i = j then (0 : ℝ) else entryOf (diagMat v) i j) = 0 := by
    ext i j
    rw [Matrix.of_apply, entryOf_diagMat _ i.2 j.2]
    by_cases hij : i = j
    · simp [hij]
    · simp [hij, Fin.val_ne_of_ne hij]
  rw [offDiagNorm, this, map_zero, norm_zero]

theorem gridPoints_map : ∀ (hs : List (ℝ → ℝ)) (nodes : List (List ℝ)), hs.length = nodes.length →
    gridPoints (List.zipWith (fun h n => n.map h) hs nodes) = (gridPoints nodes).map (List.zipWith (fun h x => h x) hs)
  | [], [], _ => by simp [gridPoints, cartesian]
  | h :: hs, n :: ns, hl => by
    have ih := gridPoints_map hs ns (by simpa using hl)
    rw [gridPoints] at ih ⊢
    rw [gridPoints] at ih ⊢
    simp only [List.zipWith_cons_cons, cartesian, ih, List.flatMap_map, List.map_flatMap, List.map_map]
    rfl
  | [], _ :: _, hl => by simp at hl
  | _ :: _, [], hl => by simp at hl

/-- The coordinate of a node of the quadrature `q` with respect to the position `s`. -/
noncomputable def evalMap (q s : Position) (i : ℕ) (x : ℝ) : ℝ :=
  x * ((√(entryOf s.cov i i))⁻¹ * √(entryOf q.cov i i)) + (√(entryOf s.cov i i))⁻¹ * (q.mean.getD i 0 - s.mean.getD i 0)

theorem evalMap_eq {q s : Position} (hq : PosOk q) (hdirs : s.dirs = q.dirs) {i : ℕ} (hi : i < q.dim) (p : List ℝ) :
    evalMap q s i (p.getD i 0) = (gridPoint q p (s.dirs.getD i 0) - s.mean.getD i 0) / √(entryOf s.cov i i) := by
  have hi' : i < q.dirs.length := by rw [hq.dirs]; exact hi
  have hx : q.dirs.idxOf (s.dirs.getD i 0) = i := by
    rw [hdirs, show q.dirs.getD i 0 = q.dirs[i] by simp [hi'], hq.nodup.idxOf_getElem]
  rw [evalMap, gridPoint, hx, div_eq_mul_inv]
  ring

variable [Interp F]

/-- The nodes with respect to the position of the series, and what remains of `eval`. -/
theorem quad_eval_eq {slack : ℕ} {eig : Eig} (he : EigDiag eig) {q : HQuad F} (hq : QuadOk q) {f : HSeries (SFn F)} (hp : PosOk f.position)
    (hd : Diagonal f.position) (hdirs : f.position.dirs = q.position.dirs) (hvar : ∀ i < f.position.dim, 0 < entryOf f.position.cov i i)
    (hfd : f.factor.dirs = q.position.dirs) (hfv : ∀ p ∈ f.factor.terms, ∀ a ∈ p, ∀ d ∈ a.1, d ∈ f.factor.dirs) :
    quad_eval slack eig q f = (do
      let result ← transform slack f.index_set f.degree f.coeffs
        (List.zipWith (fun h n => n.map h) ((List.range q.nodes.length).map (evalMap q.position f.position)) q.nodes) q.weights q.do_fourier false
      broadcast (· * ·) result ((gridPoints q.nodes).map fun p => f.factor.value (gridPoint q.position p))) := by
  have hdim : f.position.dim = q.position.dim := by rw [← hp.dirs, hdirs, hq.pos.dirs]
  have hσ : ∀ i < q.position.dim, √(entryOf f.position.cov i i) ≠ 0 := fun i hi => (Real.sqrt_pos.2 (hvar i (hdim ▸ hi))).ne'
  have hinv := laInv_diag (v := (List.range f.position.dim).map fun i => √(entryOf f.position.cov i i)) (by
    intro x hx
    obtain ⟨i, hi, rfl⟩ := List.mem_map.1 hx
    exact (Real.sqrt_pos.2 (hvar i (List.mem_range.1 hi))).ne')
  simp only [List.length_map, List.length_range] at hinv
  rw [quad_eval, pos_factor_diag he hp hd, hinv, Out.ok_bind, broadcast, if_pos (by rw [hq.pos.mean, hp.mean, hdim]), Out.ok_bind,
    matDot_diag (by simp [hq.pos.mean, hp.mean, hdim]), Out.ok_bind, pos_factor_diag he hq.pos hq.diag,
    broadcast2_diag (by simp [hdim]), Out.ok_bind]
  have hlen : (diagMat (List.zipWith (· * ·) (((List.range f.position.dim).map fun i => √(entryOf f.position.cov i i)).map fun x => x⁻¹)
      ((List.range q.position.dim).map fun i => √(entryOf q.position.cov i i)))).length =
      (List.zipWith (· * ·) (((List.range f.position.dim).map fun i => √(entryOf f.position.cov i i)).map fun x => x⁻¹)
      ((List.range q.position.dim).map fun i => √(entryOf q.position.cov i i))).length := by simp [diagMat]
  rw [hlen, offDiagNorm_diag, if_neg (by norm_num), quad_discretize_ok he hq hfd hfv]
  rw [mapM_ok (g := fun i => (q.nodes.getD i []).map (evalMap q.position f.position i)), Out.ok_bind]
  · simp only [Out.ok_bind]
    congr 1
    congr 1
    apply List.ext_getElem
    · simp
    · intro i h1 h2
      simp at h1
      simp [h1]
  · intro i hi
    have hi := List.mem_range.1 hi
    have hi' : i < q.position.dim := by rw [← hq.dim]; exact hi
    have hi1 : i < q.position.mean.length := by rw [hq.pos.mean]; exact hi'
    have hi2 : i < f.position.mean.length := by rw [hp.mean, hdim]; exact hi'
    rw [pyget_some (List.getElem?_eq_getElem hi), Out.ok_bind]
    rw [pyget_some (a := (List.range q.position.dim).map fun j => if i = j then (√(entryOf f.position.cov i i))⁻¹ * √(entryOf q.position.cov i i) else 0)
      (by simp [diagMat, hdim, hi']), Out.ok_bind,
      pyget_some (a := (√(entryOf f.position.cov i i))⁻¹ * √(entryOf q.position.cov i i)) (by simp [hi']), Out.ok_bind,
      pyget_some (a := (√(entryOf f.position.cov i i))⁻¹ * (q.position.mean.getD i 0 - f.position.mean.getD i 0))
      (by simp [hdim, hi', hi1, hi2]), Out.ok_bind]
    simp only [hi, List.getD_eq_getElem?_getD, List.getElem?_eq_getElem, Option.getD_some]
    rfl

theorem evalNodes_grid {q : HQuad F} (hq : QuadOk q) (s : Position) : Spec.Grid
    (List.zipWith (fun h n => n.map h) ((List.range q.nodes.length).map (evalMap q.position s)) q.nodes) q.do_fourier where
  dim_pos := by
    have := List.length_pos_iff.2 hq.grid.dim_pos
    rw [← List.length_pos_iff]
    simpa using this
  nodes_pos := by
    intro n hn
    obtain ⟨i, hi, rfl⟩ := List.mem_iff_getElem.1 hn
    simp at hi
    simpa using hq.grid.nodes_pos _ (List.getElem_mem hi)
  flags := ⟨by simpa using hq.grid.flags.1, hq.grid.flags.2⟩
  small := by
    rw [gridPoints_map _ _ (by simp), List.length_map]
    exact hq.grid.small

/-- The values of `eval`. -/
theorem quad_eval_ok {slack : ℕ} {eig : Eig} (he : EigDiag eig) {q : HQuad F} (hq : QuadOk q) {f : HSeries (SFn F)} (hf : SeriesOk f)
    (hd : Diagonal f.position) (hdirs : f.position.dirs = q.position.dirs) (hvar : ∀ i < f.position.dim, 0 < entryOf f.position.cov i i)
    (hfd : f.factor.dirs = q.position.dirs) (hfv : ∀ p ∈ f.factor.terms, ∀ a ∈ p, ∀ d ∈ a.1, d ∈ f.factor.dirs)
    (hdeg : DegreeOk slack f.index_set f.degree q.do_fourier) {L : List IVec} (hL : IterOk f.index_set f.position.dim f.degree L)
    (hlen : f.coeffs.length = L.length) :
    quad_eval slack eig q f = .ok ((gridPoints q.nodes).map fun p =>
      series f.position.dim q.do_fourier L f.coeffs ((List.range f.position.dim).map fun i =>
        (gridPoint q.position p (f.position.dirs.getD i 0) - f.position.mean.getD i 0) / √(entryOf f.position.cov i i)) *
      f.factor.value (gridPoint q.position p)) := by
  have hdim : f.position.dim = q.position.dim := by rw [← hf.pos.dirs, hdirs, hq.pos.dirs]
  have hn : q.nodes.length = f.position.dim := by rw [hq.dim, hdim]
  rw [quad_eval_eq he hq hf.pos hd hdirs hvar hfd hfv]
  have hml : (List.zipWith (fun h n => n.map h) ((List.range q.nodes.length).map (evalMap q.position f.position)) q.nodes).length
    = f.position.dim := by simp [hn]
  rw [transform_backward_ok (L := L) _ (by rw [hml]; exact hf.usable.toSized) (evalNodes_grid hq _) hdeg (by rw [hml]; exact hL) hlen, Out.ok_bind,
    broadcast, if_pos (by rw [gridPoints_map _ _ (by simp)]; simp), gridPoints_map _ _ (by simp), hml]
  congr 1
  rw [List.map_map, List.zipWith_map, List.zipWith_self]
  apply List.map_congr_left
  intro p hp
  have hpl := gridPoints_length hp
  rw [Function.comp_apply]
  congr 2
  apply List.ext_getElem
  · simp [hpl, hn]
  · intro i h1 h2
    simp [hpl] at h1 h2
    have := evalMap_eq hq.pos hdirs (i := i) (by omega) p
    simp only [List.getElem_zipWith, List.getElem_map, List.getElem_range]
    rw [← this]
    simp [hpl, h1]

end Hermipy
