import Verif.Lemmas.QuadTransform
import Verif.Props.QuadEval
import Verif.Props.QuadIntegrate

/-! # C68: `Quad.transform`, directly and with `tensorize` -/

namespace Hermipy.Props
open Hermipy Hermipy.Spec
variable {F : Type} [DecidableEq F] [Interp F]

omit [DecidableEq F] in
/-- C68. The coefficient at `m` which `Quad.transform` computes is the quadrature of the function divided by the factor, times the basis
function of `m`. -/
theorem C68_direct {slack : ℕ} {eig : Eig} (he : EigDiag eig) {q : HQuad F} (hq : QuadOk q) {s : IndexSet} {degree : ℕ}
    (hu : Usable s q.position.dim degree) (hds : DegreeOk slack s degree q.do_fourier)
    (hnz : ∀ x ∈ gridPoints q.nodes, q.factor.value (gridPoint q.position x) ≠ 0) {f : SFn F} (hf : SFnOk f) (hd : f.dirs = q.position.dirs) :
    ∃ S, quad_transform slack eig degree s q f = .ok S ∧ SeriesOk S ∧ S.position = q.position ∧ S.factor = q.factor ∧ S.index_set = s ∧
      ∀ m y, Coef S m y ↔ InSet s q.position.dim degree m ∧ y = quadrature q.nodes q.weights fun _ x =>
        f.value (gridPoint q.position x) / q.factor.value (gridPoint q.position x) * basis q.nodes.length q.do_fourier m x := by
  obtain ⟨L, hL⟩ := iterOk_exists hu.toSized.fits'
  rw [quad_transform, quad_discretize_ok he hq hd hf.vars, Out.ok_bind, quad_transform_grid,
    quad_discretize_ok he hq hq.factorDirs hq.factor.vars, Out.ok_bind, guardedDiv, broadcast, if_pos (by simp), Out.ok_bind,
    List.zipWith_map, List.zipWith_self, transform_forward_ok (L := L) (by rw [hq.dim]; exact hu.toSized) hq.grid hds
    hq.weights (by rw [hq.dim]; exact hL) (by simp), Out.ok_bind]
  obtain ⟨S, e, ok, h1, h2, h3, h4, h5, -⟩ := mkSeries_ok (factor := q.factor) hq.pos hq.dirs_ne hu hL (coeffs := L.map _) (by simp)
  refine ⟨S, e, ok, h2, h3, h4, fun m y => ?_⟩
  rw [coef_iff (L := L) (by rw [h4, h2]; exact h5.list), h1, ← hL.mem]
  have key : ∀ m, (quadrature q.nodes q.weights fun i x => ((gridPoints q.nodes).map fun x => (f.value (gridPoint q.position x)) /
      (1 / 10 ^ 300 * (if q.factor.value (gridPoint q.position x) = 0 then 1 else 0) + q.factor.value (gridPoint q.position x))).getD i 0 *
        basis q.nodes.length q.do_fourier m x) = quadrature q.nodes q.weights fun _ x =>
        f.value (gridPoint q.position x) / q.factor.value (gridPoint q.position x) * basis q.nodes.length q.do_fourier m x := by
    intro m
    apply quadrature_congr
    intro i x hx
    simp [hx, hnz x (List.mem_of_getElem? hx)]
  constructor
  · rintro ⟨k, hk1, hk2⟩
    rw [List.getElem?_map, hk1, Option.map_some, Option.some.injEq] at hk2
    exact ⟨List.mem_of_getElem? hk1, by rw [← hk2]; exact key m⟩
  · rintro ⟨hm, rfl⟩
    refine ⟨_, getElem?_idxOf' hm, ?_⟩
    rw [List.getElem?_map, getElem?_idxOf' hm, Option.map_some, Option.some.injEq]
    exact key m

/-- Sizes that the library can handle are not limited to 4 directions: hyperbolic crosses of degree at most 250 with fewer than `2^32`
multi-indices in the surrounding cube. -/
theorem usableTo_cross {dim degree : ℕ} (hd : degree ≤ 250) (h : (max 1 degree + 1) ^ dim < 2 ^ 32) : UsableTo .cross dim degree := by
  intro n h1 hn
  have hf : Fits .cross n degree := ⟨h1, by simp⟩
  have hc : card .cross n degree < u32 := by
    obtain ⟨L, hL⟩ := iterOk_exists (s := .cube) (dim := n) (degree := max 1 degree) ⟨h1, by simp⟩
    have hcube : card .cube n (max 1 degree) < u32 := by
      rw [← hL.length, hL.length_cube]
      exact lt_of_le_of_lt (Nat.pow_le_pow_right (by omega) hn) h
    refine lt_of_le_of_lt (Set.ncard_le_ncard (fun m hm => ?_) (finite_inSet .cube n (max 1 degree))) hcube
    have hm : InSet .cross n degree m := hm
    refine ⟨inSet_length hm, fun x hx => ?_⟩
    have := hm.2
    rw [← ones_eq] at this
    have h5 := le_ones_prod hx
    omega
  refine ⟨sized_of hf hc, ?_⟩
  obtain ⟨L, hL⟩ := iterOk_exists hf
  by_cases h0 : degree = 0
  · subst h0
    refine ⟨L, 1, hL.list, ?_, fun k m => Iff.rfl⟩
    rw [hL.length, card_cross_zero (Or.inl rfl)]
    exact get_degree_cross h1 (by omega) (by omega)
  · exact ⟨L, degree, hL.list, by rw [hL.length]; exact get_degree_cross h1 h0 hd, fun k m => Iff.rfl⟩

example : UsableTo .cross 15 3 := usableTo_cross (by omega) (by norm_num)

/-- C68 for sizes that the library can handle and a factor which is one product and does not vanish on the grid: with
`tensorize`, where the function is split into sums of products of functions of fewer directions, which are transformed separately, the
result is the same. -/
theorem C68_tensorize_partial {order : ℕ → Finset (Finset ℕ) → List (Finset ℕ)} (ho : OrderOk order) (k : ℕ) {slack : ℕ} {eig : Eig}
    (he : EigDiag eig) {q : HQuad F} (hq : QuadOk q) {p : Product F} (hp : q.factor.terms = {p}) {s : IndexSet} {degree : ℕ}
    (hU : UsableTo s q.position.dim degree) (hds : DegreeOk slack s degree q.do_fourier)
    (hnz : ∀ x ∈ gridPoints q.nodes, q.factor.value (gridPoint q.position x) ≠ 0)
    {f : SFn F} (hf : SFnOk f) (hd : f.dirs = q.position.dirs) (hne : f.terms ≠ 0) :
    ∃ S, quad_transform_tensorize order k slack eig degree s q f = .ok S ∧ quad_transform slack eig degree s q f = .ok S := by
  have h1 : 1 ≤ q.position.dim := Nat.one_le_iff_ne_zero.2 (PosOk.dim_pos hq.pos hq.dirs_ne)
  obtain ⟨L, hL⟩ := iterOk_exists (hU _ h1 le_rfl).toSized.fits'
  exact ⟨_, quad_transform_tensorize_ok ho k he hq hp hU hds hnz hf hd hne hL, quad_transform_ok he hq hU hds hL hd hf.vars⟩

/-- C68. If the factor of the quadrature is not a single product, `transform` with `tensorize` raises. -/
theorem C68_sum_factor {order : ℕ → Finset (Finset ℕ) → List (Finset ℕ)} (k slack : ℕ) (eig : Eig) (degree : ℕ) (s : IndexSet) {q : HQuad F}
    (hq : QuadOk q) (hp : Multiset.card q.factor.terms ≠ 1) {f : SFn F} (hf : SFnOk f) :
    quad_transform_tensorize order k slack eig degree s q f = .throws := tensorize_at_sum k hq hp hf

/-! ## A factor which vanishes on the grid -/

/-- Factors for the examples: `(s, c)` is the sum of `c` and the coordinates in `s`. -/
noncomputable local instance interp68 : Interp ℝ where
  val s c x := c + ∑ d ∈ s, x d
  val_local s c x y h := by rw [Finset.sum_congr rfl h]

noncomputable local instance decEq68 : DecidableEq ℝ := Classical.decEq ℝ

/-- Two directions, with the single node 0, and factor `x y`. -/
noncomputable def quadZ : HQuad ℝ :=
  ⟨[[0], [0]], [[1], [1]], ⟨2, [0, 1], [0, 0], diagMat [1, 1], ["hermite", "hermite"]⟩, ⟨[0, 1], {{({0}, 0), ({1}, 0)}}⟩⟩

theorem quadZ_ok : QuadOk quadZ where
  pos := ⟨rfl, rfl, rfl, by simp [quadZ, diagMat], rfl, by simp [quadZ]⟩
  diag := by
    intro i j r c hij h1 h2
    simp only [quadZ, diagMat, List.length_cons, List.length_nil, List.getElem?_map] at h1
    rcases i with _ | _ | i <;> simp at h1
    · subst h1
      rcases j with _ | _ | j <;> simp at h2 hij ⊢
      exact h2.symm
    · subst h1
      rcases j with _ | _ | j <;> simp at h2 hij ⊢
      exact h2.symm
  dim := rfl
  grid := ⟨by simp [quadZ], by simp [quadZ], ⟨rfl, by simp [quadZ, HQuad.do_fourier]⟩, by simp [quadZ, gridPoints, cartesian]⟩
  weights := rfl
  uniform := by intro r hr; simp [quadZ] at hr ⊢; simp [hr]
  factor := ⟨by simp [quadZ], by simp [quadZ]; rintro a b (⟨rfl, rfl⟩ | ⟨rfl, rfl⟩) <;> simp⟩
  factorDirs := rfl

/-- C68 is false for a factor which vanishes on the grid: for the constant 1 the coefficient is `1e300` directly and `1e600` with
`tensorize`. -/
theorem C68_zero_false {order : ℕ → Finset (Finset ℕ) → List (Finset ℕ)} (ho : OrderOk order) (k : ℕ) {eig : Eig} (he : EigDiag eig) :
    (∃ S, quad_transform_tensorize order k 1 eig 0 .triangle quadZ ⟨[0, 1], {0}⟩ = .ok S ∧ S.coeffs = [10 ^ 600]) ∧
    (∃ S, quad_transform 1 eig 0 .triangle quadZ ⟨[0, 1], {0}⟩ = .ok S ∧ S.coeffs = [10 ^ 300]) := by
  have hL : IterOk .triangle quadZ.position.dim 0 [[0, 0]] := by
    obtain ⟨L, hL⟩ := iterOk_exists (usable_small .triangle (dim := 2) (degree := 0) (by simp) (by simp) (by simp)).toSized.fits'
    have : L = [[0, 0]] := by
      refine List.perm_singleton.1 ((List.perm_ext_iff_of_nodup hL.nodup (by simp)).2 fun m => ?_)
      rw [hL.mem, List.mem_singleton]
      constructor
      · rintro ⟨h1, h2⟩
        match m, h1 with
        | [a, b], _ =>
          simp at h2
          simp; omega
      · rintro rfl
        exact ⟨rfl, by simp⟩
    rw [← this]
    exact hL
  have hds : DegreeOk 1 .triangle 0 quadZ.do_fourier := ⟨by simp [quadZ, HQuad.do_fourier], fun _ => Or.inr (le_refl 1), by simp⟩
  constructor
  · rw [quad_transform_tensorize_gen ho k he quadZ_ok (p := {({0}, 0), ({1}, 0)}) rfl (usableTo_small _ (by simp [quadZ]) (by norm_num)) hds
      (f := ⟨[0, 1], {0}⟩) ⟨by simp, by simp⟩ rfl (by simp) hL (T := fun _ _ => 10 ^ 600) ?_]
    · exact ⟨_, rfl, by simp⟩
    · intro args hargs bs hb m hm
      rw [Multiset.mem_singleton] at hargs
      subst hargs
      rw [List.mem_singleton] at hm
      subst hm
      have hperm : bs.Perm [{0}, {1}] := by
        have hT : IsPartition quadZ.position.dirs.toFinset ({{0}, {1}} : Finset (Finset ℕ)) := by
          refine ⟨by simp, by simp, fun x => by simp [quadZ]⟩
        have hsub := hb.least _ hT (by simp) (by simp)
        have h1 : ∀ b ∈ bs, b = {0} ∨ b = {1} := by
          intro b hbb
          obtain ⟨c, hc, hbc⟩ := hsub b (List.mem_toFinset.2 hbb)
          have hne := hb.partition.nonempty b (List.mem_toFinset.2 hbb)
          simp only [Finset.mem_insert, Finset.mem_singleton] at hc
          rcases hc with rfl | rfl
          · exact Or.inl ((Finset.subset_singleton_iff.1 hbc).resolve_left hne.ne_empty)
          · exact Or.inr ((Finset.subset_singleton_iff.1 hbc).resolve_left hne.ne_empty)
        refine (List.perm_ext_iff_of_nodup hb.nodup (by simp)).2 fun b => ⟨fun hbb => by simpa using h1 b hbb, fun hbb => ?_⟩
        have h2 : ∀ x ∈ quadZ.position.dirs.toFinset, ({x} : Finset ℕ) ∈ bs := by
          intro x hx
          obtain ⟨c, hc, hxc⟩ := (hb.partition.cover x).1 hx
          rw [List.mem_toFinset] at hc
          rcases h1 c hc with rfl | rfl
          · rw [Finset.mem_singleton.1 hxc]; exact hc
          · rw [Finset.mem_singleton.1 hxc]; exact hc
        simp only [List.mem_cons, List.not_mem_nil, or_false] at hbb
        rcases hbb with rfl | rfl
        · exact h2 0 (by simp [quadZ])
        · exact h2 1 (by simp [quadZ])
      rw [(hperm.map _).prod_eq]
      have s0 : subProduct ({({0}, 0), ({1}, 0)} : Product ℝ) 0 [0] = {({0}, 0)} := by
        simp [subProduct, Multiset.insert_eq_cons, Multiset.filter_singleton]
      have s1 : subProduct ({({0}, 0), ({1}, 0)} : Product ℝ) 0 [1] = {({1}, 0)} := by
        simp [subProduct, Multiset.insert_eq_cons, Multiset.filter_singleton]
      have q0 : subQuad quadZ {({0}, 0), ({1}, 0)} [0] = ⟨[[0]], [[1]], ⟨1, [0], [0], [[1]], ["hermite"]⟩, ⟨[0], {{({0}, 0)}}⟩⟩ := by
        simp [subQuad, subPos, quadZ, sub, relDirs, assemble, dirData, entryOf, diagMat]
        exact s0
      have q1 : subQuad quadZ {({0}, 0), ({1}, 0)} [1] = ⟨[[0]], [[1]], ⟨1, [1], [0], [[1]], ["hermite"]⟩, ⟨[1], {{({1}, 0)}}⟩⟩ := by
        simp [subQuad, subPos, quadZ, sub, relDirs, assemble, dirData, entryOf, diagMat]
        exact s1
      simp only [List.map_cons, List.map_nil, Finset.sort_singleton, q0, q1]
      simp [transformCoef, quadrature, gridPoints, gridWeights, cartesian, gdiv, SFn.value, productValue, Interp.val,
        basis, phi, HQuad.do_fourier, herm_zero, gridPoint, blockPart, constPart, at', quadZ]
      rw [← pow_add]
  · rw [quad_transform_ok he quadZ_ok (usableTo_small _ (by simp [quadZ]) (by norm_num)) hds hL rfl (by simp)]
    refine ⟨_, rfl, ?_⟩
    simp [transformCoef, quadrature, quadZ, gridPoints, gridWeights, cartesian, gdiv, SFn.value, productValue, Interp.val, basis, phi,
      HQuad.do_fourier, herm_zero, gridPoint, Finset.prod_range_succ]

/-! ## The hypotheses can be met -/

/-- Two directions, two nodes each, means 1 and 2, variances 1 and 4, factor `3 (4 + x) y`; the first direction is trigonometric. -/
noncomputable def quadH : HQuad ℝ :=
  ⟨[[0, 1], [-1, 1]], [[1 / 2, 1 / 2], [1 / 2, 1 / 2]], ⟨2, [0, 1], [1, 2], diagMat [1, 4], ["fourier", "hermite"]⟩,
    ⟨[0, 1], {{(∅, 3), ({0}, 4), ({1}, 1)}}⟩⟩

theorem quadH_ok : QuadOk quadH where
  pos := ⟨rfl, rfl, rfl, by simp [quadH, diagMat], rfl, by simp [quadH]⟩
  diag := by
    intro i j r c hij h1 h2
    simp only [quadH, diagMat, List.length_cons, List.length_nil, List.getElem?_map] at h1
    rcases i with _ | _ | i <;> simp at h1
    · subst h1
      rcases j with _ | _ | j <;> simp at h2 hij ⊢
      exact h2.symm
    · subst h1
      rcases j with _ | _ | j <;> simp at h2 hij ⊢
      exact h2.symm
  dim := rfl
  grid := ⟨by simp [quadH], by simp [quadH], ⟨rfl, by simp [quadH, HQuad.do_fourier]⟩, by simp [quadH, gridPoints, cartesian]⟩
  weights := rfl
  uniform := by intro r hr; simp [quadH] at hr ⊢; rcases hr with rfl | rfl <;> rfl
  factor := ⟨by simp [quadH], by simp [quadH]; rintro a b (⟨rfl, rfl⟩ | ⟨rfl, rfl⟩ | ⟨rfl, rfl⟩) <;> simp⟩
  factorDirs := rfl

/-- The transform of `(x + 1) y + 2 (x + y)`, with three kinds of factors. -/
example {order : ℕ → Finset (Finset ℕ) → List (Finset ℕ)} (ho : OrderOk order) (k : ℕ) {eig : Eig} (he : EigDiag eig) :
    ∃ S, quad_transform_tensorize order k 1 eig 10 .cross quadH ⟨[0, 1], {{({0}, 1), ({1}, 0)}, {(∅, 2), ({0, 1}, 0)}}⟩ = .ok S ∧
      quad_transform 1 eig 10 .cross quadH ⟨[0, 1], {{({0}, 1), ({1}, 0)}, {(∅, 2), ({0, 1}, 0)}}⟩ = .ok S := by
  refine C68_tensorize_partial ho k he quadH_ok rfl (usableTo_small _ (by simp [quadH]) (by norm_num))
    ⟨by simp [quadH, HQuad.do_fourier], fun _ => Or.inr (le_refl 1), by simp⟩ ?_ ⟨by simp, ?_⟩ rfl (by simp)
  · have h : √(4 : ℝ) = 2 := by rw [show (4 : ℝ) = 2 ^ 2 by norm_num]; exact Real.sqrt_sq (by norm_num)
    simp [quadH, gridPoints, cartesian, SFn.value, productValue, Interp.val, gridPoint, entryOf, diagMat, h]
    norm_num
  · simp
    constructor
    · rintro a b (⟨rfl, rfl⟩ | ⟨rfl, rfl⟩) <;> simp
    · rintro a b (⟨rfl, rfl⟩ | ⟨rfl, rfl⟩) <;> simp

end Hermipy.Props
