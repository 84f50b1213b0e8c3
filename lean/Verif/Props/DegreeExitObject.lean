import Verif.Props.DegreeExit
import Verif.Props.DiscretizeOp
import Verif.Props.QuadEval
import Verif.Props.QuadVarf

/-! # C11, C68, C70, C71, C72: transforms, forms and operators of degree above 250 end the process -/

namespace Hermipy.Props
open Hermipy Hermipy.Spec

/-- C11: series. With a number of coefficients below the size for degree 0 or above the size for degree 250, the process exits with code 0 when a
series is made of them; with a number in between that is not a size, with code 1. -/
theorem C11_series_exits {Φ : Type} (coeffs : List ℝ) (factor : Φ) {s : IndexSet} (hs : s ≠ .cross) {p : Position} (hp : PosOk p) (hne : p.dirs ≠ [])
    (h4 : p.dim ≤ 4) :
    ∃ a b, s.s_size p.dim 0 = .ok a ∧ s.s_size p.dim 250 = .ok b ∧
      (coeffs.length < a ∨ b < coeffs.length → mkSeries coeffs p factor s = .exit 0) ∧
      (a ≤ coeffs.length → coeffs.length ≤ b → (∀ d ≤ 250, s.s_size p.dim d ≠ .ok coeffs.length) → mkSeries coeffs p factor s = .exit 1) := by
  have h1 : 1 ≤ p.dim := Nat.one_le_iff_ne_zero.2 (PosOk.dim_pos hp hne)
  obtain ⟨a, b, ha, hb, h⟩ := C11_exit_code s hs p.dim h1 h4
  refine ⟨a, b, ha, hb, fun h' => ?_, fun ha' hb' h' => ?_⟩
  · rw [mkSeries, if_neg hne, (h _).1.2 h']; rfl
  · rw [mkSeries, if_neg hne, (h _).2.2 ⟨ha', hb', h'⟩]; rfl

/-- C11: in five and more directions no series and no forms of triangles and cubes can be made: the search for their degree is undefined, whatever the
coefficients. -/
theorem C11_dim5_series {Φ : Type} (coeffs : List ℝ) (sparse : Bool) (matrix : List (List ℝ)) (factor : Φ) {s : IndexSet} (hs : s = .triangle ∨ s = .cube)
    {p : Position} (hp : PosOk p) (h5 : 5 ≤ p.dim) : mkSeries coeffs p factor s = .ub ∧ mkVarf sparse matrix p factor s = .ub := by
  have hx : ∀ n, s.s_get_degree p.dim n = .ub := by
    intro n
    rcases hs with rfl | rfl
    · exact (C10_dim5_undefined p.dim n h5).1
    · exact (C10_dim5_undefined p.dim n h5).2
  have hne : p.dirs ≠ [] := by
    intro h
    have := hp.dirs
    simp [h] at this
    omega
  constructor
  · rw [mkSeries, if_neg hne, hx]; rfl
  · rw [mkVarf, hx]; rfl

/-- The size of a set of degree above 250, with the code with which the process exits. -/
theorem high_degree_exit {s : IndexSet} (hs : s ≠ .cross) {dim degree : ℕ} (h4 : dim ≤ 4) (hd : 250 < degree) (hz : Sized s dim degree)
    {L : List (List ℕ)} (hL : IterOk s dim degree L) : s.s_get_degree dim L.length = .exit 0 := by
  obtain ⟨n, h1, h2⟩ := C11_high_degree_false s hs dim degree hz.dim_pos h4 hd hz.fits hz.small
  rw [hL.size hz.dim_pos (by rw [hL.length]; exact hz.card_lt)] at h1
  injection h1 with h1
  rw [h1]
  exact h2

variable {F : Type} [Interp F]

/-- C68 is false for degrees above 250: all coefficients are computed, and then the process exits with code 0. -/
theorem C68_high_degree_false {slack : ℕ} {eig : Eig} (he : EigDiag eig) {q : HQuad F} (hq : QuadOk q) {s : IndexSet} (hs : s ≠ .cross) {degree : ℕ}
    (h4 : q.position.dim ≤ 4) (hdeg : 250 < degree) (hz : Sized s q.position.dim degree) (hds : DegreeOk slack s degree q.do_fourier)
    {f : SFn F} (hf : SFnOk f) (hd : f.dirs = q.position.dirs) :
    quad_transform slack eig degree s q f = .exit 0 := by
  obtain ⟨L, hL⟩ := iterOk_exists hz.fits'
  rw [quad_transform, quad_discretize_ok he hq hd hf.vars, Out.ok_bind, quad_transform_grid,
    quad_discretize_ok he hq hq.factorDirs hq.factor.vars, Out.ok_bind, guardedDiv, broadcast, if_pos (by simp), Out.ok_bind,
    List.zipWith_map, List.zipWith_self, transform_forward_ok (L := L) (by rw [hq.dim]; exact hz) hq.grid hds
    hq.weights (by rw [hq.dim]; exact hL) (by simp), Out.ok_bind, mkSeries, if_neg hq.dirs_ne, List.length_map,
    high_degree_exit hs h4 hdeg hz hL]
  rfl

/-- C68 is false for degrees above 250 and the `cross` set: the listing for degree 250 is read past its end. -/
theorem C68_high_degree_cross {slack : ℕ} {eig : Eig} (he : EigDiag eig) {q : HQuad F} (hq : QuadOk q) {degree : ℕ}
    (hdeg : 250 < degree) (hz : Sized .cross q.position.dim degree) (hds : DegreeOk slack .cross degree q.do_fourier)
    {f : SFn F} (hf : SFnOk f) (hd : f.dirs = q.position.dirs) :
    quad_transform slack eig degree .cross q f = .ub := by
  obtain ⟨L, hL⟩ := iterOk_exists hz.fits'
  obtain ⟨L0, hL0, h0⟩ := C11_cross_range q.position.dim hz.dim_pos
  have hx : IndexSet.cross.s_get_degree q.position.dim L.length = .ub := by
    refine (h0 _).1.2 (Or.inr ?_)
    rw [(IterOk.of_list ⟨hz.dim_pos, by simp⟩ hL0).length, hL.length]
    exact card_strict hz.dim_pos hdeg (by omega)
  rw [quad_transform, quad_discretize_ok he hq hd hf.vars, Out.ok_bind, quad_transform_grid,
    quad_discretize_ok he hq hq.factorDirs hq.factor.vars, Out.ok_bind, guardedDiv, broadcast, if_pos (by simp), Out.ok_bind,
    List.zipWith_map, List.zipWith_self, transform_forward_ok (L := L) (by rw [hq.dim]; exact hz) hq.grid hds
    hq.weights (by rw [hq.dim]; exact hL) (by simp), Out.ok_bind, mkSeries, if_neg hq.dirs_ne, List.length_map, hx]
  rfl

/-- C68 is false for triangles and cubes in five and more directions, for all degrees and functions: all coefficients are computed, and then the search
for the degree is undefined. -/
theorem C68_dim5_undefined {slack : ℕ} {eig : Eig} (he : EigDiag eig) {q : HQuad F} (hq : QuadOk q) {s : IndexSet} (hs : s = .triangle ∨ s = .cube)
    {degree : ℕ} (h5 : 5 ≤ q.position.dim) (hz : Sized s q.position.dim degree) (hds : DegreeOk slack s degree q.do_fourier)
    {f : SFn F} (hf : SFnOk f) (hd : f.dirs = q.position.dirs) :
    quad_transform slack eig degree s q f = .ub := by
  obtain ⟨L, hL⟩ := iterOk_exists hz.fits'
  rw [quad_transform, quad_discretize_ok he hq hd hf.vars, Out.ok_bind, quad_transform_grid,
    quad_discretize_ok he hq hq.factorDirs hq.factor.vars, Out.ok_bind, guardedDiv, broadcast, if_pos (by simp), Out.ok_bind,
    List.zipWith_map, List.zipWith_self, transform_forward_ok (L := L) (by rw [hq.dim]; exact hz) hq.grid hds
    hq.weights (by rw [hq.dim]; exact hL) (by simp), Out.ok_bind, (C11_dim5_series _ false [] _ hs hq.pos h5).1]

/-- C70 is false for degrees above 250 in one direction: the matrix is computed, and then the process exits with code 0. -/
theorem C70_high_degree_false {sparse : Bool} {slack : ℕ} {eig : Eig} (he : EigDiag eig) {q : HQuad F} (hq : QuadOk q) {s : IndexSet}
    (hs : s ≠ .cross) {degree : ℕ} (h1 : q.position.dim = 1) (hdeg : 250 < degree) (hz : Sized s q.position.dim degree)
    (hz2 : Sized s q.position.dim (2 * degree)) (hds : DegreeOk slack s degree q.do_fourier) {f : SFn F} (hf : SFnOk f) (hd : f.dirs = q.position.dirs) :
    quad_varf sparse slack eig degree s q f = .exit 0 := by
  obtain ⟨L, hL⟩ := iterOk_exists hz.fits'
  obtain ⟨L2, hL2⟩ := iterOk_exists hz2.fits'
  have hne : L ≠ [] := hL.runs.ne_nil
  have hform : FormOk slack s degree q.nodes q.weights q.do_fourier :=
    ⟨by rw [hq.dim]; exact hz, by rw [hq.dim]; exact hz2, fun k hk hk' => by rw [hq.dim] at hk'; omega, hq.grid, hds, hq.weights⟩
  have hx := high_degree_exit hs (by omega) hdeg hz hL
  have hLn := hL
  have hL2n := hL2
  rw [← hq.dim] at hLn hL2n
  rw [quad_varf]
  cases sparse with
  | true =>
    obtain ⟨R, e, hR⟩ := quad_varf_mat_ok (SpMat ℝ) he hq hform hLn hL2n hd hf.vars
    rw [if_pos rfl, quad_varf_as, e, Out.ok_bind, rowsOf_list hne hR (G := keptForm q L2 f.value) (fun _ _ _ _ => rfl), Out.ok_bind,
      mkVarf, List.length_map, hx]
    rfl
  | false =>
    obtain ⟨R, e, hR⟩ := quad_varf_mat_ok (BMat ℝ) he hq hform hLn hL2n hd hf.vars
    rw [if_neg (by simp), quad_varf_as, e, Out.ok_bind, rowsOf_list hne hR (G := keptForm q L2 f.value) (fun _ _ _ _ => rfl), Out.ok_bind,
      mkVarf, List.length_map, hx]
    rfl

/-- C71 is false for degrees above 250 in one direction, whatever the derivatives: the process exits with code 0 after the form without derivatives. -/
theorem C71_high_degree_false {sparse : Bool} {slack : ℕ} {eig : Eig} (he : EigDiag eig) {q : HQuad F} (hq : QuadOk q) {s : IndexSet}
    (hs : s ≠ .cross) {degree : ℕ} (h1 : q.position.dim = 1) (hdeg : 250 < degree) (hz : Sized s q.position.dim degree)
    (hz2 : Sized s q.position.dim (2 * degree)) (hds : DegreeOk slack s degree q.do_fourier) (ds : List ℕ) {f : SFn F} (hf : SFnOk f)
    (hd : f.dirs = q.position.dirs) : quad_varfd sparse slack eig degree s ds q f = .exit 0 := by
  obtain ⟨L, hL⟩ := iterOk_exists hz.fits'
  obtain ⟨L2, hL2⟩ := iterOk_exists hz2.fits'
  have hne : L ≠ [] := hL.runs.ne_nil
  have hform : FormOk slack s degree q.nodes q.weights q.do_fourier :=
    ⟨by rw [hq.dim]; exact hz, by rw [hq.dim]; exact hz2, fun k hk hk' => by rw [hq.dim] at hk'; omega, hq.grid, hds, hq.weights⟩
  have hx := high_degree_exit hs (by omega) hdeg hz hL
  have hLn := hL
  have hL2n := hL2
  rw [← hq.dim] at hLn hL2n
  rw [quad_varfd]
  cases sparse with
  | true =>
    obtain ⟨R, e, hR⟩ := quad_varf_mat_ok (SpMat ℝ) he hq hform hLn hL2n hd hf.vars
    rw [if_pos rfl, quad_varfd_as, e, Out.ok_bind, rowsOf_list hne hR (G := keptForm q L2 f.value) (fun _ _ _ _ => rfl), Out.ok_bind,
      mkVarf, List.length_map, hx]
    rfl
  | false =>
    obtain ⟨R, e, hR⟩ := quad_varf_mat_ok (BMat ℝ) he hq hform hLn hL2n hd hf.vars
    rw [if_neg (by simp), quad_varfd_as, e, Out.ok_bind, rowsOf_list hne hR (G := keptForm q L2 f.value) (fun _ _ _ _ => rfl), Out.ok_bind,
      mkVarf, List.length_map, hx]
    rfl

/-- C72 is false for degrees above 250 in one direction: the process exits with code 0 for all operators, after the form of the first term. -/
theorem C72_high_degree_false [DecidableEq F] {K : Type} [CommRing K] [Algebra ℚ K] [DecidableEq K] {sparse : Bool} {slack : ℕ} {eig : Eig} (he : EigDiag eig)
    {q : HQuad F} (hq : QuadOk q) {s : IndexSet} (hs : s ≠ .cross) {degree : ℕ} (h1 : q.position.dim = 1) (hdeg : 250 < degree)
    (hz : Sized s q.position.dim degree) (hz2 : Sized s q.position.dim (2 * degree)) (hds : DegreeOk slack s degree q.do_fourier) {fn : K → SFn F}
    (hfn : ∀ c, SFnOk (fn c) ∧ (fn c).dirs = q.position.dirs) {vars : List K}
    (hvars : vars.length = q.position.dim) {T : List (OpTerm K)} (hc : ∀ t ∈ T, t.coeff ≠ 0) (hl : ∀ t ∈ T, t.index.length = q.position.dim)
    (h5 : ∀ t ∈ T, t.index.sum ≤ 5) :
    discretize_op (quad_varf sparse slack eig degree s q) (fun f ds => quad_varfd sparse slack eig degree s ds q f) fn q q.position.dirs
      (argsOf vars T) = .exit 0 := by
  obtain ⟨parts, hsplit, -⟩ := C59_split vars T hc (by rw [hvars]; exact hl) h5
  rw [hvars, ← hq.pos.dirs] at hsplit
  rw [discretize_op, if_neg (by simp), hsplit, Out.ok_bind]
  cases parts with
  | nil => exact C70_high_degree_false he hq hs h1 hdeg hz hz2 hds (hfn 0).1 (hfn 0).2
  | cons e es =>
    have h := C71_high_degree_false (sparse := sparse) he hq hs h1 hdeg hz hz2 hds (dVector q.position.dirs e.1) (hfn e.2).1 (hfn e.2).2
    simp only [h]
    rfl

/-! ## The hypotheses can be met -/

noncomputable local instance interpExit : Interp ℝ where
  val s c x := c + ∑ d ∈ s, x d
  val_local s c x y h := by rw [Finset.sum_congr rfl h]

theorem sized_line (d : ℕ) (h : d + 1 < 2 ^ 32) : Sized .triangle 1 d := by
  obtain ⟨⟨L, hL, hlen⟩, -⟩ := C06_closed_forms 1 d le_rfl
  exact ⟨le_rfl, by simp, L, hL, by rw [hlen, Nat.choose_one_right]; exact h⟩

/-- Degree 251 in one direction, for `quadG` and the function `x`. -/
example {eig : Eig} (he : EigDiag eig) (sparse : Bool) : quad_transform 1 eig 251 .triangle (quadG 0 1) ⟨[0], {{({0}, 0)}}⟩ = .exit 0 ∧
    quad_varf sparse 1 eig 251 .triangle (quadG 0 1) ⟨[0], {{({0}, 0)}}⟩ = .exit 0 ∧
    quad_varfd sparse 1 eig 251 .triangle [0, 0] (quadG 0 1) ⟨[0], {{({0}, 0)}}⟩ = .exit 0 := by
  have hds : DegreeOk 1 .triangle 251 (quadG 0 1).do_fourier := ⟨by simp [quadG, HQuad.do_fourier], fun _ => Or.inr (le_refl 1), by simp⟩
  have hf : SFnOk (⟨[0], {{({0}, 0)}}⟩ : SFn ℝ) := ⟨by simp, by simp⟩
  exact ⟨C68_high_degree_false he (quadG_ok 0 1) (by simp) (by simp [quadG]) (by omega) (sized_line 251 (by norm_num)) hds hf rfl,
    C70_high_degree_false he (quadG_ok 0 1) (by simp) rfl (by omega) (sized_line 251 (by norm_num)) (sized_line (2 * 251) (by norm_num)) hds hf rfl,
    C71_high_degree_false he (quadG_ok 0 1) (by simp) rfl (by omega) (sized_line 251 (by norm_num)) (sized_line (2 * 251) (by norm_num)) hds [0, 0] hf rfl⟩

noncomputable local instance decEqExit : DecidableEq ℝ := Classical.decEq ℝ

/-- The operator `3 ∂²` at degree 251. -/
example {eig : Eig} (he : EigDiag eig) (sparse : Bool) :
    discretize_op (quad_varf sparse 1 eig 251 .triangle (quadG 0 1)) (fun f ds => quad_varfd sparse 1 eig 251 .triangle ds (quadG 0 1) f)
      (fun c : ℝ => ⟨[0], {{(∅, c)}}⟩) (quadG 0 1) [0] (argsOf [7] [⟨3, [2]⟩]) = .exit 0 :=
  C72_high_degree_false he (quadG_ok 0 1) (by simp) rfl (by omega) (sized_line 251 (by norm_num)) (sized_line (2 * 251) (by norm_num))
    ⟨by simp [quadG, HQuad.do_fourier], fun _ => Or.inr (le_refl 1), by simp⟩ (fun c => ⟨⟨by simp, by simp⟩, rfl⟩) rfl (by simp) (by simp [quadG]) (by simp)

/-- The cross of degree 251 in one direction. -/
example {eig : Eig} (he : EigDiag eig) : quad_transform 1 eig 251 .cross (quadG 0 1) ⟨[0], {{({0}, 0)}}⟩ = .ub := by
  obtain ⟨L, hL⟩ := iterOk_exists (s := .cross) (dim := 1) (degree := 251) ⟨le_rfl, by simp⟩
  refine C68_high_degree_cross he (quadG_ok 0 1) (by omega) ⟨le_rfl, by simp, L, hL.list, ?_⟩
    ⟨by simp [quadG, HQuad.do_fourier], fun _ => Or.inr (le_refl 1), by simp⟩ ⟨by simp, by simp⟩ rfl
  have hsub : L ⊆ (List.range 252).map fun i => [i] := by
    intro m hm
    have h := (hL.mem m).1 hm
    obtain ⟨a, rfl⟩ := List.length_eq_one_iff.1 (inSet_length h)
    have h2 : a ≤ 251 := by simpa [InSet, InCross] using h
    exact List.mem_map.2 ⟨a, List.mem_range.2 (by omega), rfl⟩
  have := (hL.nodup.subperm hsub).length_le
  simp at this
  omega

/-- Five directions, with the single node 0. -/
noncomputable def quad5 : HQuad ℝ :=
  ⟨List.replicate 5 [0], List.replicate 5 [1], ⟨5, [0, 1, 2, 3, 4], List.replicate 5 0, diagMat (List.replicate 5 1), List.replicate 5 "hermite"⟩,
    ⟨[0, 1, 2, 3, 4], {0}⟩⟩

theorem quad5_ok : QuadOk quad5 where
  pos := ⟨rfl, rfl, rfl, by simp [quad5, diagMat], rfl, by simp [quad5]⟩
  diag := by
    intro i j r c hij h1 h2
    simp only [quad5, diagMat, List.length_replicate, List.getElem?_map, Option.map_eq_some_iff] at h1
    obtain ⟨a, ha, rfl⟩ := h1
    rw [List.getElem?_map, Option.map_eq_some_iff] at h2
    obtain ⟨b, hb, rfl⟩ := h2
    simp only [List.getElem?_eq_some_iff, List.getElem_range] at ha hb
    obtain ⟨-, rfl⟩ := ha
    obtain ⟨-, rfl⟩ := hb
    exact if_neg hij
  dim := rfl
  grid := ⟨by simp [quad5], by simp [quad5], ⟨rfl, by simp [quad5, HQuad.do_fourier]⟩, by simp [quad5, gridPoints, cartesian]⟩
  weights := rfl
  uniform := by intro r hr; simp [quad5] at hr ⊢; simp [hr]
  factor := ⟨by simp [quad5], by simp [quad5]⟩
  factorDirs := rfl

/-- Degree 2 in five directions. -/
example {eig : Eig} (he : EigDiag eig) : quad_transform 1 eig 2 .triangle quad5 ⟨[0, 1, 2, 3, 4], {{({0, 4}, 0)}}⟩ = .ub := by
  obtain ⟨⟨L, hL, hlen⟩, -⟩ := C06_closed_forms 5 2 (by omega)
  exact C68_dim5_undefined he quad5_ok (Or.inl rfl) le_rfl ⟨by simp [quad5], by simp, L, hL, by rw [hlen]; decide⟩
    ⟨by simp [quad5, HQuad.do_fourier], fun _ => Or.inr (le_refl 1), by simp⟩ ⟨by simp, by simp⟩ rfl

/-- A series of no coefficients in two directions. -/
example (factor : ℝ) : mkSeries [] ⟨2, [0, 1], [0, 0], diagMat [1, 1], ["hermite", "hermite"]⟩ factor .triangle = .exit 0 := by
  have hp : PosOk ⟨2, [0, 1], [0, 0], diagMat [1, 1], ["hermite", "hermite"]⟩ := ⟨rfl, rfl, rfl, by simp [diagMat], rfl, by simp⟩
  obtain ⟨a, b, ha, -, h, -⟩ := C11_series_exits [] factor (s := .triangle) (by simp) hp (by simp) (by simp)
  have h0 : IndexSet.triangle.s_size 2 0 = .ok 1 := by decide
  have ha' : (1 : ℕ) = a := Out.ok.inj (h0.symm.trans ha)
  exact h (Or.inl (ha' ▸ Nat.one_pos))

end Hermipy.Props
