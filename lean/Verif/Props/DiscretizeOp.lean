import Verif.Lemmas.DiscretizeOp
import Verif.Props.QuadVarfd

/-! # C72: `Quad.discretize_op` -/

namespace Hermipy.Props
open Hermipy Hermipy.Spec
variable {F : Type} [Interp F] [DecidableEq F] {K : Type} [CommRing K] [Algebra ℚ K] [DecidableEq K]

/-- C72: `discretize_op` without `tensorize`, for sizes that the library can handle and positive variances. `ev` maps a coefficient to
the function it stands for, and `fn` makes a `Function` of it. When the terms are of order at most 5 and the form of each coefficient is exact,
the entry at `(I, J)` is the quadrature of the basis function of `I` times the operator applied to the basis function of `J`. -/
theorem C72_direct_partial {sparse : Bool} {slack : ℕ} {eig : Eig} (he : EigDiag eig) {q : HQuad F} (hq : QuadOk q) (hvar : VarPos q.position)
    {s : IndexSet} {degree : ℕ} (hU : UsableTo s q.position.dim degree) (hz2 : Sized s q.position.dim (2 * degree)) (hds : DegreeOk slack s degree q.do_fourier) {fn : K → SFn F}
    (hfn : ∀ c, SFnOk (fn c) ∧ (fn c).dirs = q.position.dirs) {ev : K →+ ((ℕ → ℝ) → ℝ)} (hev : ∀ c, (fn c).value = ev c) {vars : List K}
    (hvars : vars.length = q.position.dim) {T : List (OpTerm K)} (hc : ∀ t ∈ T, t.coeff ≠ 0) (hl : ∀ t ∈ T, t.index.length = q.position.dim)
    (h5 : ∀ t ∈ T, t.index.sum ≤ 5) (hcl : Closed s q.nodes.length degree q.do_fourier)
    (hex : ∀ m, coeffAt T m ≠ 0 → Exact s degree q (ev (coeffAt T m)) ∧ DiffClosed s degree q (orderDirs q.position.dirs m)) :
    ∃ A, discretize_op (quad_varf sparse slack eig degree s q) (fun f ds => quad_varfd sparse slack eig degree s ds q f) fn q q.position.dirs
        (argsOf vars T) = .ok A ∧ VarfOk A ∧ A.is_sparse = sparse ∧ A.position = q.position ∧ A.factor = q.factor ∧ A.index_set = s ∧
      SameSets s A.degree degree ∧
      ∀ I J, InSet s q.position.dim degree I → InSet s q.position.dim degree J → Entry A I J (opEntry q ev T I J) := by
  have h1 : 1 ≤ q.position.dim := Nat.one_le_iff_ne_zero.2 (PosOk.dim_pos hq.pos hq.dirs_ne)
  obtain ⟨L, hL⟩ := iterOk_exists (hU _ h1 le_rfl).toSized.fits'
  obtain ⟨ok, hent⟩ := form_of_entries (sparse := sparse) (fun I J => opEntry q ev T I J) hq.pos hq.dirs_ne (hU _ h1 le_rfl)
    (factor := q.factor) hL
  refine ⟨_, discretize_op_gen hq hU hL hvars hc hl h5 hev ?_ ?_, ok, rfl, rfl, rfl, rfl, recDegree_same s degree, hent⟩
  · intro _
    refine quad_varf_exact he hq hU hz2 hds (hfn 0).1.vars (hfn 0).2 ⟨hcl, fun L2 _ m _ => ?_⟩ hL
    left
    have hz : ∀ k, (gridValues q (fn 0).value).getD k 0 = 0 := by
      intro k
      rw [hev, map_zero]
      by_cases hk : k < (gridPoints q.nodes).length
      · simp [gridValues, hk]
      · simp [gridValues, Nat.le_of_not_lt hk]
    rw [fcoef]
    simp only [hz, quadrature, zero_mul, mul_zero, Finset.sum_const_zero]
  · intro m hm
    have e := quad_varfd_exact (sparse := sparse) he hq hvar hU hz2 hds (hfn (coeffAt T m)).1.vars (hfn (coeffAt T m)).2
      (by rw [hev]; exact (hex m hm).1) (hex m hm).2 hL
    rw [List.filter_eq_self.2 (by simpa using fun d hd => mem_orderDirs hd)] at e
    exact e

/-- C72: the same with `tensorize`, for a factor which is one product. The form of each coefficient has to be exact in each block. -/
theorem C72_tensorize_partial {order : ℕ → Finset (Finset ℕ) → List (Finset ℕ)} (ho : OrderOk order) (k : ℕ) {sparse : Bool} {slack : ℕ}
    {eig : Eig} (he : EigDiag eig) {q : HQuad F} (hq : QuadOk q) (hvar : VarPos q.position) {p : Product F} (hp : q.factor.terms = {p})
    {s : IndexSet} {degree : ℕ} (hU : UsableTo s q.position.dim degree) (hz2 : Sized s q.position.dim (2 * degree)) (hds : DegreeOk slack s degree q.do_fourier) {fn : K → SFn F}
    (hfn : ∀ c, SFnOk (fn c) ∧ (fn c).dirs = q.position.dirs ∧ (fn c).terms ≠ 0) {ev : K →+ ((ℕ → ℝ) → ℝ)} (hev : ∀ c, (fn c).value = ev c)
    {vars : List K} (hvars : vars.length = q.position.dim) {T : List (OpTerm K)} (hc : ∀ t ∈ T, t.coeff ≠ 0)
    (hl : ∀ t ∈ T, t.index.length = q.position.dim) (h5 : ∀ t ∈ T, t.index.sum ≤ 5)
    (hex0 : (∀ m, coeffAt T m = 0) → ∀ args ∈ (fn 0).terms, ∀ bs, BlocksOk q.position.dirs.toFinset args p bs → ∀ b ∈ bs,
      Exact s degree (subQuad q p (b.sort (· ≤ ·))) (productValue (blockPart args b)))
    (hex : ∀ m, coeffAt T m ≠ 0 → ∀ args ∈ (fn (coeffAt T m)).terms, ∀ bs, BlocksOk q.position.dirs.toFinset args p bs → ∀ b ∈ bs,
      Exact s degree (subQuad q p (b.sort (· ≤ ·))) (productValue (blockPart args b)) ∧
      DiffClosed s degree (subQuad q p (b.sort (· ≤ ·))) (orderDirs q.position.dirs m)) :
    ∃ A, discretize_op (quad_varf_tensorize order k sparse slack eig degree s q)
        (fun f ds => quad_varfd_tensorize order k sparse slack eig degree s ds q f) fn q q.position.dirs
        (argsOf vars T) = .ok A ∧ VarfOk A ∧ A.is_sparse = sparse ∧ A.position = q.position ∧ A.factor = q.factor ∧ A.index_set = s ∧
      SameSets s A.degree degree ∧
      ∀ I J, InSet s q.position.dim degree I → InSet s q.position.dim degree J → Entry A I J (opEntry q ev T I J) := by
  have h1 : 1 ≤ q.position.dim := Nat.one_le_iff_ne_zero.2 (PosOk.dim_pos hq.pos hq.dirs_ne)
  obtain ⟨L, hL⟩ := iterOk_exists (hU _ h1 le_rfl).toSized.fits'
  obtain ⟨ok, hent⟩ := form_of_entries (sparse := sparse) (fun I J => opEntry q ev T I J) hq.pos hq.dirs_ne (hU _ h1 le_rfl)
    (factor := q.factor) hL
  refine ⟨_, discretize_op_gen hq hU hL hvars hc hl h5 hev ?_ ?_, ok, rfl, rfl, rfl, rfl, recDegree_same s degree, hent⟩
  · intro h0
    exact quad_varf_tensorize_exact ho k he hq hp hU hz2 hds (hfn 0).1 (hfn 0).2.1 (hfn 0).2.2 (hex0 h0) hL
  · intro m hm
    have e := quad_varfd_tensorize_exact (sparse := sparse) ho k he hq hvar hp hU hz2 hds (hfn (coeffAt T m)).1 (hfn (coeffAt T m)).2.1
      (hfn (coeffAt T m)).2.2 (hex m hm) hL
    rw [List.filter_eq_self.2 (by simpa using fun d hd => mem_orderDirs hd)] at e
    exact e

omit [Interp F] in
/-- C72. An operator in other directions than those of the quadrature is rejected. -/
theorem C72_directions (varf : SFn F → Out (HVarf (SFn F))) (varfd : SFn F → List ℕ → Out (HVarf (SFn F))) (fn : K → SFn F) (q : HQuad F)
    {dirs : List ℕ} (h : dirs ≠ q.position.dirs) (args : List (OpArg K)) : discretize_op varf varfd fn q dirs args = .throws := by
  rw [discretize_op, if_pos h]

omit [Interp F] in
/-- C72. An operator with a term of order above 5 is rejected. -/
theorem C72_order (varf : SFn F → Out (HVarf (SFn F))) (varfd : SFn F → List ℕ → Out (HVarf (SFn F))) (fn : K → SFn F) {q : HQuad F}
    {vars : List K} (hvars : vars.length = q.position.dirs.length) (T : List (OpTerm K)) (hc : ∀ t ∈ T, t.coeff ≠ 0)
    (hl : ∀ t ∈ T, t.index.length = vars.length) (h : ∃ t ∈ T, 5 < t.index.sum) :
    discretize_op varf varfd fn q q.position.dirs (argsOf vars T) = .throws := by
  rw [discretize_op, if_neg (by simp), ← hvars, C59_raises vars T hc hl h]
  rfl

/-! ## The hypotheses can be met -/

attribute [local instance] interp70 decEq70

/-- Constant coefficients. -/
noncomputable def constFn (c : ℝ) : SFn ℝ := ⟨[0, 1], {{(∅, c)}}⟩

/-- The functions that they stand for. -/
noncomputable def constEv : ℝ →+ ((ℕ → ℝ) → ℝ) := ⟨⟨fun c _ => c, rfl⟩, fun _ _ => rfl⟩

/-- The operator `f_x + f_yy`, with two Fourier directions and the cube. -/
example {eig : Eig} (he : EigDiag eig) (sparse : Bool) :
    ∃ A, discretize_op (quad_varf sparse 0 eig 2 .cube (quadXX "fourier" 0)) (fun f ds => quad_varfd sparse 0 eig 2 .cube ds (quadXX "fourier" 0) f)
        constFn (quadXX "fourier" 0) [0, 1] (argsOf [(5 : ℝ), 7] [⟨1, [1, 0]⟩, ⟨1, [0, 2]⟩]) = .ok A ∧
      ∀ I J, InSet .cube 2 2 I → InSet .cube 2 2 J →
        Entry A I J (opEntry (quadXX "fourier" 0) constEv [⟨1, [1, 0]⟩, ⟨1, [0, 2]⟩] I J) := by
  have hfl : (quadXX "fourier" 0).do_fourier = [1, 1] := by simp [quadXX, HQuad.do_fourier]
  have hcl : Closed .cube 2 2 [1, 1] := C35_closed _ _ _ _ rfl (by simp) (by simp) (by simp)
  obtain ⟨A, e, -, -, -, -, -, -, h⟩ := C72_direct_partial (K := ℝ) (F := ℝ) (sparse := sparse) he (quadXX_ok "fourier" 0) (quadXX_var _ _)
    (usableTo_small _ (by simp [quadXX]) (show 2 ≤ 250 by omega)) (sizedXX _ _ _ (by simp)) (slack := 0) (s := .cube) (by rw [hfl]; exact ⟨by simp, by simp, by simp⟩) (fn := constFn)
    (fun c => ⟨⟨by simp [constFn], by simp [constFn]⟩, rfl⟩) (ev := constEv)
    (fun c => by funext x; simp [constFn, SFn.value, productValue, Interp.val, constEv]) (vars := [5, 7]) (by simp [quadXX])
    (T := [⟨1, [1, 0]⟩, ⟨1, [0, 2]⟩]) (by simp) (by simp [quadXX]) (by simp) (by rw [hfl]; exact hcl) (by
      intro m hm
      have h1 : coeffAt [(⟨1, [1, 0]⟩ : OpTerm ℝ), ⟨1, [0, 2]⟩] m = 1 := by
        have := coeffAt_index hm
        simp only [List.map_cons, List.map_nil, List.mem_cons, List.not_mem_nil, or_false] at this
        rcases this with rfl | rfl <;> simp [coeffAt]
      rw [h1]
      refine ⟨⟨by rw [hfl]; exact hcl, fun L2 hL2 => ?_⟩, fun d _ _ _ => C40_closed _ _ _ _ rfl (by simp) (by simp)⟩
      have hv : gridValues (quadXX "fourier" 0) (constEv 1) = [1] := by
        simp [gridValues, quadXX, gridPoints, cartesian, constEv]
      rw [hv, hfl]
      exact noDrop_origin L2 hL2)
  exact ⟨A, e, h⟩

/-- The same operator with `tensorize`, with the triangle (without `tensorize`, this raises, see `C71_triangle`). -/
example {order : ℕ → Finset (Finset ℕ) → List (Finset ℕ)} (ho : OrderOk order) (k : ℕ) {eig : Eig} (he : EigDiag eig) (sparse : Bool) :
    ∃ A, discretize_op (quad_varf_tensorize order k sparse 0 eig 2 .triangle (quadXX "fourier" 0))
        (fun f ds => quad_varfd_tensorize order k sparse 0 eig 2 .triangle ds (quadXX "fourier" 0) f)
        constFn (quadXX "fourier" 0) [0, 1] (argsOf [(5 : ℝ), 7] [⟨1, [1, 0]⟩, ⟨1, [0, 2]⟩]) = .ok A ∧
      ∀ I J, InSet .triangle 2 2 I → InSet .triangle 2 2 J →
        Entry A I J (opEntry (quadXX "fourier" 0) constEv [⟨1, [1, 0]⟩, ⟨1, [0, 2]⟩] I J) := by
  have hfl : (quadXX "fourier" 0).do_fourier = [1, 1] := by simp [quadXX, HQuad.do_fourier]
  have hne : coeffAt [(⟨1, [1, 0]⟩ : OpTerm ℝ), ⟨1, [0, 2]⟩] [1, 0] ≠ 0 := by simp [coeffAt]
  obtain ⟨A, e, -, -, -, -, -, -, h⟩ := C72_tensorize_partial (K := ℝ) (F := ℝ) (sparse := sparse) ho k he (quadXX_ok "fourier" 0) (quadXX_var _ _)
    (p := 0) rfl (usableTo_small _ (by simp [quadXX]) (show 2 ≤ 250 by omega)) (sizedXX _ _ _ (by simp)) (slack := 0) (s := .triangle) (by rw [hfl]; exact ⟨by simp, by simp, by simp⟩)
    (fn := constFn) (fun c => ⟨⟨by simp [constFn], by simp [constFn]⟩, rfl, by simp [constFn]⟩) (ev := constEv)
    (fun c => by funext x; simp [constFn, SFn.value, productValue, Interp.val, constEv]) (vars := [5, 7]) (by simp [quadXX])
    (T := [⟨1, [1, 0]⟩, ⟨1, [0, 2]⟩]) (by simp) (by simp [quadXX]) (by simp) (fun h0 => absurd (h0 _) hne) (by
      intro m hm args hargs bs hb b hbb
      rw [constFn, Multiset.mem_singleton] at hargs
      subst hargs
      obtain ⟨d, hd, rfl⟩ := blocks_singleton hb (by simp) (by simp) b hbb
      have hd' : d = 0 ∨ d = 1 := by simpa [quadXX] using hd
      rw [Finset.sort_singleton, subXX _ _ hd']
      refine ⟨⟨?_, fun L2 hL2 => ?_⟩, fun d' _ _ _ => C40_closed _ _ _ _ rfl (by simp) (by simp)⟩
      · exact C35_closed _ _ _ _ rfl (by simp) (by simp) (by simp)
      · have e1 : gridValues (⟨[[0]], [[1]], ⟨1, [d], [0], [[1]], ["fourier"]⟩, ⟨[d], {0}⟩⟩ : HQuad ℝ)
            (productValue (blockPart ({(∅, coeffAt [(⟨1, [1, 0]⟩ : OpTerm ℝ), ⟨1, [0, 2]⟩] m)} : Product ℝ) {d})) = [1] := by
          simp [gridValues, gridPoints, cartesian, productValue, blockPart, Multiset.filter_singleton]
        rw [e1]
        exact noDrop_origin_line .triangle L2 hL2)
  exact ⟨A, e, h⟩

end Hermipy.Props
