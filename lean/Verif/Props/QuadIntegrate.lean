import Verif.Lemmas.QuadIntegrate
import Mathlib.Tactic.NormNum

/-! # C64: integration factor by factor -/

namespace Hermipy.Props
open Hermipy Spec
variable {F : Type} [Interp F]

/-- C64. On a quadrature with diagonal covariance whose factor is a product, the integral of a function of all the directions is computed
by `integrate` with and without `tensorize`, and is the sum over the grid of weight times value at the point the node stands for; in
whatever order Python iterates over the sets of directions. -/
theorem C64_integrate_partial {order : ℕ → Finset (Finset ℕ) → List (Finset ℕ)} (ho : OrderOk order) (k : ℕ) {slack : ℕ} {eig : Eig}
    (he : EigDiag eig) {q : HQuad F} (hq : QuadOk q) {p : Product F} (hp : q.factor.terms = {p}) (hs : 0 ∈ q.do_fourier → 1 ≤ slack)
    {f : SFn F} (hf : SFnOk f) (hd : f.dirs = q.position.dirs) (hne : f.terms ≠ 0) :
    quad_integrate_tensorize order k slack eig q f = .ok (quadrature q.nodes q.weights fun _ x => f.value (gridPoint q.position x)) ∧
    quad_integrate slack eig q f = .ok (quadrature q.nodes q.weights fun _ x => f.value (gridPoint q.position x)) :=
  ⟨quad_integrate_tensorize_ok ho k he hq hp hs hf hd hne, quad_integrate_ok he hq hs hd hf.vars⟩

/-- `tensorize_at` raises if the factor of the quadrature is not a single product. -/
theorem tensorize_at_sum {R : Type} {order : ℕ → Finset (Finset ℕ) → List (Finset ℕ)} (k : ℕ)
    {func : HQuad F → SFn F → Out R} {tens : List (Finset ℕ × R) → Out R} {scale : R → ℝ → Out R} {plus : R → R → Out R} {q : HQuad F}
    (hq : QuadOk q) (hp : Multiset.card q.factor.terms ≠ 1) {f : SFn F} (hf : SFnOk f) :
    tensorize_at order k func tens scale plus q f = .throws := by
  have hl : (f.toFn.terms).length = Multiset.card f.terms := by simp [SFn.toFn]
  have hlq : (q.factor.toFn.terms).length = Multiset.card q.factor.terms := by simp [SFn.toFn]
  rw [tensorize_at, if_neg (by simpa using hq.diag.is_diag), split_ok hf.fnOk, Out.ok_bind]
  simp only [List.mapM_map]
  cases ht : f.toFn.terms with
  | nil => rfl
  | cons args l =>
    rw [List.mapM_cons]
    have hg := splitTerm_ok (dirs := f.toFn.dirs) hf.fnOk.nodup (hf.fnOk.vars args (by simp [ht]))
    obtain ⟨e0, he0, he0'⟩ := List.mem_map.1 hg.empty
    have hmul : dictGet ∅ ((asFunctions (splitTerm f.toFn.dirs args)).map fun e => (e.1, e.2.2)) = .ok e0.2 := by
      rw [asFunctions_vals, ← he0', dictGet_ok hg.nodup he0]
    simp only [Function.comp_apply]
    rw [hmul, Out.ok_bind, split_ok hq.factor.fnOk, Out.ok_bind]
    rcases hL : q.factor.toFn.terms with _ | ⟨a, _ | ⟨b, L⟩⟩
    · rfl
    · rw [hL] at hlq
      simp at hlq
      omega
    · rfl

/-- C64. If the factor of the quadrature is not a single product, `integrate` with `tensorize` raises. -/
theorem C64_sum_factor {order : ℕ → Finset (Finset ℕ) → List (Finset ℕ)} (k slack : ℕ) (eig : Eig) {q : HQuad F} (hq : QuadOk q)
    (hp : Multiset.card q.factor.terms ≠ 1) {f : SFn F} (hf : SFnOk f) :
    quad_integrate_tensorize order k slack eig q f = .throws := tensorize_at_sum k hq hp hf

/-- What `discretize`, and hence `integrate`, compute for a function of the directions `f.dirs` in general: the coordinate used for the
`i`-th direction of the function is the one of the `i`-th direction of the quadrature. -/
theorem C64_direct {slack : ℕ} {eig : Eig} (he : EigDiag eig) {q : HQuad F} (hq : QuadOk q) (hs : 0 ∈ q.do_fourier → 1 ≤ slack)
    {f : SFn F} (hf : SFnOk f) (hl : f.dirs.length ≤ q.position.dim) :
    quad_integrate slack eig q f = .ok (quadrature q.nodes q.weights fun _ x =>
      f.value fun d => gridPoint q.position x (q.position.dirs.getD (f.dirs.idxOf d) 0)) := by
  have hfac := pos_factor_diag he hq.pos hq.diag
  have key : quad_discretize eig q f = .ok ((gridPoints q.nodes).map fun x =>
      f.value fun d => gridPoint q.position x (q.position.dirs.getD (f.dirs.idxOf d) 0)) := by
    rw [quad_discretize, hfac, discretize_ok (g := fun v => f.value fun d => v.getD (f.dirs.idxOf d) 0) hq.grid.dim_pos hq.grid.small
      (by rw [hq.pos.mean, hq.dim]) (by simp [diagMat, hq.dim]) (by simp [diagMat, hq.dim])]
    · congr 1
      apply List.map_congr_left
      intro p hp
      have hlp := gridPoints_length hp
      apply SFn.value_congr
      intro t ht a ha d hdd
      have hdm := List.idxOf_lt_length_iff.2 (hf.vars t ht a ha d hdd)
      have hi : f.dirs.idxOf d < q.position.dim := by omega
      have hi' : f.dirs.idxOf d < q.position.dirs.length := by rw [hq.pos.dirs]; exact hi
      have hx : q.position.dirs.idxOf (q.position.dirs.getD (f.dirs.idxOf d) 0) = f.dirs.idxOf d := by
        rw [show q.position.dirs.getD (f.dirs.idxOf d) 0 = q.position.dirs[f.dirs.idxOf d] by simp [hi'], hq.pos.nodup.idxOf_getElem]
      rw [affine_diag (by simp [hlp, hq.dim]), gridPoint, hx]
      simp [hlp, hq.dim, hi]
    · intro p hp
      have hlp := gridPoints_length hp
      rw [cfun, if_pos]
      intro t ht a ha d hdd
      have := List.idxOf_lt_length_iff.2 (hf.vars t ht a ha d hdd)
      rw [affine]
      simp only [List.length_map, List.length_range]
      rw [hlp, hq.dim]
      omega
  rw [quad_integrate, key, Out.ok_bind, integrate_ok hq.grid hs hq.weights (by simp)]
  congr 1
  apply quadrature_congr
  intro i p hp
  simp [hp]

/-! ## Functions of fewer directions -/

/-- Factors for the examples: `(s, c)` is the sum of `c` and the coordinates in `s`. -/
noncomputable local instance : Interp ℝ where
  val s c x := c + ∑ d ∈ s, x d
  val_local s c x y h := by rw [Finset.sum_congr rfl h]

/-- Two directions, one node each, means 0 and 5; the weight in the first direction is `w`. -/
noncomputable def quad05 (w : ℝ) : HQuad ℝ := ⟨[[0], [0]], [[w], [1]], ⟨2, [0, 1], [0, 5], diagMat [1, 1], ["fourier", "hermite"]⟩, ⟨[0, 1], {0}⟩⟩

theorem quad05_ok (w : ℝ) : QuadOk (quad05 w) where
  pos := ⟨rfl, rfl, rfl, by simp [quad05, diagMat], rfl, by simp [quad05]⟩
  diag := by
    intro i j r c hij h1 h2
    simp only [quad05, diagMat, List.length_cons, List.length_nil, List.getElem?_map] at h1
    rcases i with _ | _ | i <;> simp at h1
    · subst h1
      rcases j with _ | _ | j <;> simp at h2 hij ⊢
      exact h2.symm
    · subst h1
      rcases j with _ | _ | j <;> simp at h2 hij ⊢
      exact h2.symm
  dim := rfl
  grid := ⟨by simp [quad05], by simp [quad05], ⟨rfl, by simp [quad05, HQuad.do_fourier]⟩, by simp [quad05, gridPoints, cartesian]⟩
  weights := rfl
  uniform := by intro r hr; simp [quad05] at hr ⊢; simp [hr]
  factor := ⟨by simp [quad05], by simp [quad05]⟩
  factorDirs := rfl

/-- Two directions, one node each; the weight in the second direction is `w`. -/
noncomputable def quadW (w : ℝ) : HQuad ℝ := ⟨[[0], [0]], [[1], [w]], ⟨2, [0, 1], [0, 0], diagMat [1, 1], ["hermite", "fourier"]⟩, ⟨[0, 1], {0}⟩⟩

theorem quadW_ok (w : ℝ) : QuadOk (quadW w) where
  pos := ⟨rfl, rfl, rfl, by simp [quadW, diagMat], rfl, by simp [quadW]⟩
  diag := by
    intro i j r c hij h1 h2
    simp only [quadW, diagMat, List.length_cons, List.length_nil, List.getElem?_map] at h1
    rcases i with _ | _ | i <;> simp at h1
    · subst h1
      rcases j with _ | _ | j <;> simp at h2 hij ⊢
      exact h2.symm
    · subst h1
      rcases j with _ | _ | j <;> simp at h2 hij ⊢
      exact h2.symm
  dim := rfl
  grid := ⟨by simp [quadW], by simp [quadW], ⟨rfl, by simp [quadW, HQuad.do_fourier]⟩, by simp [quadW, gridPoints, cartesian]⟩
  weights := rfl
  uniform := by intro r hr; simp [quadW] at hr ⊢; simp [hr]
  factor := ⟨by simp [quadW], by simp [quadW]⟩
  factorDirs := rfl

/-- `Function('y', dirs=[1])`. -/
noncomputable def coord1 : SFn ℝ := ⟨[1], {{({1}, 0)}}⟩

theorem coord1_ok : SFnOk coord1 := ⟨by simp [coord1], by simp [coord1]⟩

theorem quadrature05 (w : ℝ) (g : ℕ → List ℝ → ℝ) : quadrature (quad05 w).nodes (quad05 w).weights g = w * g 0 [0, 0] := by
  simp [quadrature, quad05, gridPoints, gridWeights, cartesian]

theorem direct05 {eig : Eig} (he : EigDiag eig) (w : ℝ) : quad_integrate 1 eig (quad05 w) coord1 = .ok 0 := by
  rw [C64_direct he (quad05_ok w) (fun _ => le_refl 1) coord1_ok (by simp [coord1, quad05]), quadrature05]
  simp [SFn.value, coord1, productValue, Interp.val, gridPoint, quad05]

theorem tensorized05 {order : ℕ → Finset (Finset ℕ) → List (Finset ℕ)} (ho : OrderOk order) (k : ℕ) {eig : Eig} (he : EigDiag eig) (w : ℝ) :
    quad_integrate_tensorize order k 1 eig (quad05 w) coord1 = .ok 5 := by
  have hq := quad05_ok w
  have hnc : ¬ Couples ((0 : Product ℝ).toList) [1] := by rintro ⟨f, hf, -⟩; simp at hf
  have e1 : coord1.toFn = ⟨[1], [[({1}, 0)]]⟩ := by rw [toFn_single (p := {({1}, 0)}) rfl]; simp [coord1]
  have e2 : (quad05 w).factor.toFn = ⟨[0, 1], [[]]⟩ := by rw [toFn_single (p := 0) rfl]; simp [quad05]
  have e3 : splitTerm [1] [(({1}, 0) : Factor ℝ)] = [({1}, {({1}, 0)}), (∅, 0)] := by
    simp [splitTerm, initGroups, dictSet, splitStep]
  have e4 : (splitTerm [0, 1] [] : Groups ℝ) = [({0}, 0), ({1}, 0), (∅, 0)] := by
    simp [splitTerm, initGroups, dictSet]
  have e5 : finest_common order 0 {{1}} {{0}, {1}, ∅} = .ok {{1}} := by
    rw [finest_common, if_pos]
    decide
  have e6 : order k {{1}} = [{1}] := by
    have h := ho k {{1}}
    rw [← List.perm_singleton, List.perm_ext_iff_of_nodup h.1 (by simp)]
    intro b
    rw [h.2]
    simp
  have hproj := quad_project_ok hq (p := 0) rfl (ds := [1]) (by simp) (by simp [quad05]) hnc
  have hsub := subQuad_ok hq 0 rfl (ds := [1]) (by simp) (by simp) (by simp [quad05]) hnc
  have hint := quad_integrate_ok (slack := 1) he hsub (fun _ => le_refl 1) (f := ⟨[1], {{({1}, 0)}}⟩) rfl (by simp)
  rw [quad_integrate_tensorize, tensorize_at, if_neg (by simpa using hq.diag.is_diag), split_ok coord1_ok.fnOk, Out.ok_bind, e1]
  simp only [List.map_cons, List.map_nil, List.mapM_cons, List.mapM_nil, e3]
  rw [split_ok hq.factor.fnOk, e2]
  simp only [List.map_cons, List.map_nil, e4, asFunctions, dictGet, Out.ok_bind]
  have hmk : mkFunction {(({1}, 0) : Factor ℝ)} [1] = .ok ([1], {({1}, 0)}) := mkFunction_ok (by simp [isSorted]) (by simp)
  simp [e5, e6, newAddStep, hproj, SFn.ofProduct, hmk, hint]
  simp [quadrature, subQuad, sub, relDirs, quad05, gridPoints, gridWeights, cartesian, SFn.value, productValue, Interp.val, gridPoint,
    subPos, assemble, dirData, entryOf, diagMat, constPart, pure]

/-- C64 is false for a function of fewer directions: without `tensorize`, the coordinate of another direction is used. (The weights are
both one.) -/
theorem C64_coordinate_false {order : ℕ → Finset (Finset ℕ) → List (Finset ℕ)} (ho : OrderOk order) (k : ℕ) {eig : Eig} (he : EigDiag eig) :
    quad_integrate_tensorize order k 1 eig (quad05 1) coord1 = .ok 5 ∧ quad_integrate 1 eig (quad05 1) coord1 = .ok 0 :=
  ⟨tensorized05 ho k he 1, direct05 he 1⟩

/-- `Function('1', dim=1)`. -/
noncomputable def one0 : SFn ℝ := ⟨[0], {0}⟩

theorem one0_ok : SFnOk one0 := ⟨by simp [one0], by simp [one0]⟩

/-- C64 is false for a function of fewer directions: with `tensorize`, the weights of the other directions are left out. (Here the weight
of direction 1 is `w`.) -/
theorem C64_weights_false {order : ℕ → Finset (Finset ℕ) → List (Finset ℕ)} (ho : OrderOk order) (k : ℕ) {eig : Eig} (he : EigDiag eig) (w : ℝ) :
    quad_integrate_tensorize order k 1 eig (quadW w) one0 = .ok 1 ∧ quad_integrate 1 eig (quadW w) one0 = .ok w := by
  have hq := quadW_ok w
  have hnc : ¬ Couples ((0 : Product ℝ).toList) [0] := by rintro ⟨f, hf, -⟩; simp at hf
  have e1 : one0.toFn = ⟨[0], [[]]⟩ := by rw [toFn_single (p := 0) rfl]; simp [one0]
  have e2 : (quadW w).factor.toFn = ⟨[0, 1], [[]]⟩ := by rw [toFn_single (p := 0) rfl]; simp [quadW]
  have e3 : (splitTerm [0] [] : Groups ℝ) = [({0}, 0), (∅, 0)] := by simp [splitTerm, initGroups, dictSet]
  have e4 : (splitTerm [0, 1] [] : Groups ℝ) = [({0}, 0), ({1}, 0), (∅, 0)] := by simp [splitTerm, initGroups, dictSet]
  have e5 : finest_common order 0 {{0}} {{0}, {1}, ∅} = .ok {{0}} := by
    rw [finest_common, if_pos]
    decide
  have e6 : order k {{0}} = [{0}] := by
    have h := ho k {{0}}
    rw [← List.perm_singleton, List.perm_ext_iff_of_nodup h.1 (by simp)]
    intro b
    rw [h.2]
    simp
  have hproj := quad_project_ok hq (p := 0) rfl (ds := [0]) (by simp) (by simp [quadW]) hnc
  have hsub := subQuad_ok hq 0 rfl (ds := [0]) (by simp) (by simp) (by simp [quadW]) hnc
  have hint := quad_integrate_ok (slack := 1) he hsub (fun _ => le_refl 1) (f := ⟨[0], {0}⟩) rfl (by simp)
  constructor
  · rw [quad_integrate_tensorize, tensorize_at, if_neg (by simpa using hq.diag.is_diag), split_ok one0_ok.fnOk, Out.ok_bind, e1]
    simp only [List.map_cons, List.map_nil, List.mapM_cons, List.mapM_nil, e3]
    rw [split_ok hq.factor.fnOk, e2]
    simp only [List.map_cons, List.map_nil, e4, asFunctions, dictGet, Out.ok_bind]
    have hmk : mkFunction (0 : Product ℝ) [0] = .ok ([0], 0) := mkFunction_ok (by simp [isSorted]) (by simp)
    simp [e5, e6, newAddStep, hproj, SFn.ofProduct, hmk, hint]
    simp [quadrature, subQuad, sub, relDirs, quadW, gridPoints, gridWeights, cartesian, SFn.value, productValue, pure]
  · rw [C64_direct he hq (fun _ => le_refl 1) one0_ok (by simp [one0, quadW])]
    simp [quadrature, quadW, gridPoints, gridWeights, cartesian, SFn.value, productValue, one0]

/-! ## The hypotheses can be met -/

/-- An eigenvalue decomposition of diagonal matrices. -/
theorem eigDiag_exists : ∃ eig, EigDiag eig :=
  ⟨fun A => ((List.range A.length).map fun i => entryOf A i i, diagMat (List.replicate A.length 1)), fun v => by
    have h : (diagMat v).length = v.length := by simp [diagMat]
    simp only [h, Prod.mk.injEq, and_true]
    apply List.ext_getElem
    · simp
    · intro i h1 h2
      rw [List.getElem_map, List.getElem_range, entryOf_diagMat _ h2 h2]
      simp [h2]⟩

/-- The function `3 (x + 1) y`, and its integral. -/
example (eig : Eig) (he : EigDiag eig) : quad_integrate_tensorize (fun _ S => S.toList) 0 1 eig (quad05 7)
    ⟨[0, 1], {{(∅, 3), ({0}, 1), ({1}, 0)}}⟩ = .ok 105 := by
  rw [(C64_integrate_partial (fun _ S => ⟨S.nodup_toList, fun b => Finset.mem_toList⟩) 0 he (quad05_ok 7) (p := 0) rfl (fun _ => le_refl 1)
    (f := ⟨[0, 1], {{(∅, 3), ({0}, 1), ({1}, 0)}}⟩) ⟨by simp, by simp; rintro a b (⟨rfl, rfl⟩ | ⟨rfl, rfl⟩ | ⟨rfl, rfl⟩) <;> simp⟩ rfl (by simp)).1, quadrature05]
  simp [SFn.value, productValue, Interp.val, gridPoint, quad05]
  norm_num

end Hermipy.Props
