import Verif.Lemmas.DropBlocks
import Verif.Props.DiscretizeOp
import Verif.Props.CompQuad

/-! # C98: `Quad.varf`, `Quad.varfd` and `Quad.discretize_op` when small coefficients are dropped -/

namespace Hermipy.Props
open Hermipy Hermipy.Spec
variable {F : Type} [Interp F]

/-- C98: `Quad.varf` without `tensorize`, for sizes that the library can handle, when the index set represents products. Whatever coefficients are
dropped, the entry at `(I, J)` is the quadrature of the function times the two basis functions up to the tolerance times the sum of the means of
`φ_m φ_I φ_J` in absolute value. -/
theorem C98_varf {sparse : Bool} {slack : ℕ} {eig : Eig} (he : EigDiag eig) {q : HQuad F} (hq : QuadOk q) {s : IndexSet} {degree : ℕ}
    (hU : UsableTo s q.position.dim degree) (hz2 : Sized s q.position.dim (2 * degree)) (hds : DegreeOk slack s degree q.do_fourier) {f : SFn F}
    (hf : SFnOk f) (hd : f.dirs = q.position.dirs) (hcl : Closed s q.nodes.length degree q.do_fourier) {L2 : List (List ℕ)}
    (hL2 : s.s_list q.position.dim (2 * degree) = .ok L2) :
    ∃ A, quad_varf sparse slack eig degree s q f = .ok A ∧ VarfOk A ∧ A.is_sparse = sparse ∧ A.position = q.position ∧ A.factor = q.factor ∧
      A.index_set = s ∧ SameSets s A.degree degree ∧
      ∀ I J, InSet s q.position.dim degree I → InSet s q.position.dim degree J →
        ∃ x, Entry A I J x ∧ |x - formEntry q f.value I J| ≤ dropBound q L2 f.value I J := by
  have h1 : 1 ≤ q.position.dim := Nat.one_le_iff_ne_zero.2 (PosOk.dim_pos hq.pos hq.dirs_ne)
  obtain ⟨L, hL⟩ := iterOk_exists (hU _ h1 le_rfl).toSized.fits'
  have hL2 := IterOk.of_list hz2.fits' hL2
  obtain ⟨ok, hent⟩ := form_of_entries (sparse := sparse) (fun I J => keptForm q L2 f.value I J) hq.pos hq.dirs_ne (hU _ h1 le_rfl)
    (factor := q.factor) hL
  refine ⟨_, quad_varf_ok he hq hU hz2 hds hL hL2 hd hf.vars, ok, rfl, rfl, rfl, rfl, recDegree_same s degree, fun I J hI hJ =>
    ⟨_, hent I J hI hJ, ?_⟩⟩
  rw [← hq.dim] at hI hJ hL2
  exact keptForm_close (quad_formOk hq hU hz2 hds) hcl _ hL2 hI hJ

/-- C98. The tolerance is absolute for small functions: if all coefficients are below `10⁻¹²`, all entries of the form are 0. -/
theorem C98_small {sparse : Bool} {slack : ℕ} {eig : Eig} (he : EigDiag eig) {q : HQuad F} (hq : QuadOk q) {s : IndexSet} {degree : ℕ}
    (hU : UsableTo s q.position.dim degree) (hz2 : Sized s q.position.dim (2 * degree)) (hds : DegreeOk slack s degree q.do_fourier) {f : SFn F}
    (hf : SFnOk f) (hd : f.dirs = q.position.dirs)
    (hs : ∀ m, InSet s q.position.dim (2 * degree) m → |fcoef q.nodes q.weights q.do_fourier (gridValues q f.value) m| < 1 / 10 ^ 12) :
    ∃ A, quad_varf sparse slack eig degree s q f = .ok A ∧ VarfOk A ∧ A.is_sparse = sparse ∧ A.position = q.position ∧ A.factor = q.factor ∧
      A.index_set = s ∧ SameSets s A.degree degree ∧
      ∀ I J, InSet s q.position.dim degree I → InSet s q.position.dim degree J → Entry A I J 0 := by
  have h1 : 1 ≤ q.position.dim := Nat.one_le_iff_ne_zero.2 (PosOk.dim_pos hq.pos hq.dirs_ne)
  obtain ⟨L, hL⟩ := iterOk_exists (hU _ h1 le_rfl).toSized.fits'
  obtain ⟨L2, hL2⟩ := iterOk_exists hz2.fits'
  obtain ⟨ok, hent⟩ := form_of_entries (sparse := sparse) (fun I J => keptForm q L2 f.value I J) hq.pos hq.dirs_ne (hU _ h1 le_rfl)
    (factor := q.factor) hL
  refine ⟨_, quad_varf_ok he hq hU hz2 hds hL hL2 hd hf.vars, ok, rfl, rfl, rfl, rfl, recDegree_same s degree, fun I J hI hJ => ?_⟩
  have e := keptForm_small q (fun m hm => hs m ((hL2.mem m).1 hm)) I J
  have h := hent I J hI hJ
  beta_reduce at h
  rwa [e] at h

/-- C98: `Quad.varfd` without `tensorize`, for positive variances. The derivative of `φ_J` is a multiple `c φ_J'` of a basis function of the set, and
the error of the entry at `(I, J)` is at most `|c|` times the bound for the entry of `Quad.varf` at `(I, J')`. -/
theorem C98_varfd {sparse : Bool} {slack : ℕ} {eig : Eig} (he : EigDiag eig) {q : HQuad F} (hq : QuadOk q) (hvar : VarPos q.position)
    {s : IndexSet} {degree : ℕ} (hU : UsableTo s q.position.dim degree) (hz2 : Sized s q.position.dim (2 * degree)) (hds : DegreeOk slack s degree q.do_fourier) {f : SFn F}
    (hf : SFnOk f) (hd : f.dirs = q.position.dirs) (hcl : Closed s q.nodes.length degree q.do_fourier) {ds : List ℕ}
    (hin : ∀ d ∈ ds, d ∈ q.position.dirs) (hc : DiffClosed s degree q ds) {L2 : List (List ℕ)} (hL2 : s.s_list q.position.dim (2 * degree) = .ok L2) :
    ∃ A, quad_varfd sparse slack eig degree s ds q f = .ok A ∧ VarfOk A ∧ A.is_sparse = sparse ∧ A.position = q.position ∧ A.factor = q.factor ∧
      A.index_set = s ∧ SameSets s A.degree degree ∧
      ∀ I J, InSet s q.position.dim degree I → InSet s q.position.dim degree J →
        ∃ x c J', Entry A I J x ∧ InSet s q.position.dim degree J' ∧ Derives q ds J c J' ∧
          |x - dformEntry q f.value ds I J| ≤ |c| * dropBound q L2 f.value I J' := by
  have h1 : 1 ≤ q.position.dim := Nat.one_le_iff_ne_zero.2 (PosOk.dim_pos hq.pos hq.dirs_ne)
  obtain ⟨L, hL⟩ := iterOk_exists (hU _ h1 le_rfl).toSized.fits'
  have hL2 := IterOk.of_list hz2.fits' hL2
  obtain ⟨ok, hent⟩ := form_of_entries (sparse := sparse) (fun I J => ds.foldl (qStep q) (keptForm q L2 f.value I) J) hq.pos hq.dirs_ne
    (hU _ h1 le_rfl) (factor := q.factor) hL
  have hfilter : ds.filter (fun d => decide (d ∈ q.position.dirs)) = ds := List.filter_eq_self.2 (by simpa using hin)
  have e := quad_varfd_ok (sparse := sparse) he hq hU hz2 hds hL hL2 hd hf.vars hc
  have hdc := hc.dirs
  rw [hfilter] at e hdc
  refine ⟨_, e, ok, rfl, rfl, rfl, rfl, recDegree_same s degree, fun I J hI hJ => ?_⟩
  obtain ⟨c, J', hJ', hE, hD⟩ := qSteps_one hq.pos ds hin hdc J hJ
  refine ⟨_, c, J', hent I J hI hJ, hJ', hD, ?_⟩
  rw [← fold_formEntry hq hvar f.value hin I (inSet_length hJ), hE, hE, ← mul_sub, abs_mul]
  rw [← hq.dim] at hI hJ' hL2
  exact mul_le_mul_of_nonneg_left (keptForm_close (quad_formOk hq hU hz2 hds) hcl _ hL2 hI hJ') (abs_nonneg _)

variable [DecidableEq F] {K : Type} [CommRing K] [Algebra ℚ K] [DecidableEq K]

/-- C98: `discretize_op` without `tensorize`. The error of an entry is at most the sum of the errors of the derivatives that occur in the operator. -/
theorem C98_op {sparse : Bool} {slack : ℕ} {eig : Eig} (he : EigDiag eig) {q : HQuad F} (hq : QuadOk q) (hvar : VarPos q.position)
    {s : IndexSet} {degree : ℕ} (hU : UsableTo s q.position.dim degree) (hz2 : Sized s q.position.dim (2 * degree)) (hds : DegreeOk slack s degree q.do_fourier) {fn : K → SFn F}
    (hfn : ∀ c, SFnOk (fn c) ∧ (fn c).dirs = q.position.dirs) {ev : K →+ ((ℕ → ℝ) → ℝ)} (hev : ∀ c, (fn c).value = ev c) {vars : List K}
    (hvars : vars.length = q.position.dim) {T : List (OpTerm K)} (hc : ∀ t ∈ T, t.coeff ≠ 0) (hl : ∀ t ∈ T, t.index.length = q.position.dim)
    (h5 : ∀ t ∈ T, t.index.sum ≤ 5) (hcl : Closed s q.nodes.length degree q.do_fourier)
    (hdc : ∀ m, coeffAt T m ≠ 0 → DiffClosed s degree q (orderDirs q.position.dirs m)) {L2 : List (List ℕ)}
    (hL2 : s.s_list q.position.dim (2 * degree) = .ok L2) :
    ∃ A, discretize_op (quad_varf sparse slack eig degree s q) (fun f ds => quad_varfd sparse slack eig degree s ds q f) fn q q.position.dirs
        (argsOf vars T) = .ok A ∧ VarfOk A ∧ A.is_sparse = sparse ∧ A.position = q.position ∧ A.factor = q.factor ∧ A.index_set = s ∧
      SameSets s A.degree degree ∧
      ∀ I J, InSet s q.position.dim degree I → InSet s q.position.dim degree J →
        ∃ (x : ℝ) (c : List ℕ → ℝ) (J' : List ℕ → List ℕ), Entry A I J x ∧
          (∀ m ∈ ordersOf T, InSet s q.position.dim degree (J' m) ∧ Derives q (orderDirs q.position.dirs m) J (c m) (J' m)) ∧
          |x - opEntry q ev T I J| ≤ ∑ m ∈ ordersOf T, |c m| * dropBound q L2 (ev (coeffAt T m)) I (J' m) := by
  have h1 : 1 ≤ q.position.dim := Nat.one_le_iff_ne_zero.2 (PosOk.dim_pos hq.pos hq.dirs_ne)
  obtain ⟨L, hL⟩ := iterOk_exists (hU _ h1 le_rfl).toSized.fits'
  have hL2 := IterOk.of_list hz2.fits' hL2
  have hin : ∀ m, ∀ d ∈ orderDirs q.position.dirs m, d ∈ q.position.dirs := fun m d hd => mem_orderDirs hd
  have hfilter : ∀ m, (orderDirs q.position.dirs m).filter (fun d => decide (d ∈ q.position.dirs)) = orderDirs q.position.dirs m :=
    fun m => List.filter_eq_self.2 (by simpa using hin m)
  obtain ⟨ok, hent⟩ := form_of_entries (sparse := sparse) (fun I J => ∑ m ∈ ordersOf T,
    (orderDirs q.position.dirs m).foldl (qStep q) (keptForm q L2 (ev (coeffAt T m)) I) J) hq.pos hq.dirs_ne (hU _ h1 le_rfl)
    (factor := q.factor) hL
  refine ⟨_, discretize_op_parts (G := fun m I J => (orderDirs q.position.dirs m).foldl (qStep q) (keptForm q L2 (ev (coeffAt T m)) I) J)
    hq hU hL hvars hc hl h5 ?_ ?_, ok, rfl, rfl, rfl, rfl, recDegree_same s degree, fun I J hI hJ => ?_⟩
  · intro _
    have hz : ∀ m, fcoef q.nodes q.weights q.do_fourier (gridValues q (fn 0).value) m = 0 := by
      have hz : ∀ k, (gridValues q (fn 0).value).getD k 0 = 0 := by
        intro k
        rw [hev, map_zero]
        by_cases hk : k < (gridPoints q.nodes).length
        · simp [gridValues, hk]
        · simp [gridValues, Nat.le_of_not_lt hk]
      intro m
      rw [fcoef]
      simp only [hz, quadrature, zero_mul, mul_zero, Finset.sum_const_zero]
    rw [quad_varf_ok (sparse := sparse) he hq hU hz2 hds hL hL2 (hfn 0).2 (hfn 0).1.vars]
    congr 2
    apply List.map_congr_left
    intro I _
    apply List.map_congr_left
    intro J _
    exact keptForm_small q (fun m _ => by rw [hz]; norm_num) I J
  · intro m hm
    have e := quad_varfd_ok (sparse := sparse) he hq hU hz2 hds hL hL2 (hfn (coeffAt T m)).2 (hfn (coeffAt T m)).1.vars (hdc m hm)
    rw [hfilter, hev] at e
    exact e
  · have hone : ∀ m ∈ ordersOf T, ∃ (c : ℝ) (J' : List ℕ), InSet s q.position.dim degree J' ∧
        (∀ E : List ℕ → ℝ, (orderDirs q.position.dirs m).foldl (qStep q) E J = c * E J') ∧ Derives q (orderDirs q.position.dirs m) J c J' := by
      intro m hm
      have h := (hdc m (Finset.mem_filter.1 hm).2).dirs
      rw [hfilter] at h
      exact qSteps_one hq.pos _ (hin m) h J hJ
    choose! c J' hJ' hE hD using hone
    refine ⟨_, c, J', hent I J hI hJ, fun m hm => ⟨hJ' m hm, hD m hm⟩, ?_⟩
    rw [opEntry_orders q ev (vars := vars) hc (by rw [hvars]; exact hl) h5, ← Finset.sum_sub_distrib]
    refine (Finset.abs_sum_le_sum_abs _ _).trans (Finset.sum_le_sum fun m hm => ?_)
    rw [← fold_formEntry hq hvar (ev (coeffAt T m)) (hin m) I (inSet_length hJ), hE m hm, hE m hm, ← mul_sub, abs_mul]
    have hJm := hJ' m hm
    rw [← hq.dim] at hI hJm hL2
    exact mul_le_mul_of_nonneg_left (keptForm_close (quad_formOk hq hU hz2 hds) hcl _ hL2 hI hJm) (abs_nonneg _)

/-- C98: `Quad.varf` with `tensorize`, for a factor which is one product. The coefficients are dropped block by block: for each summand of the function, the
errors of the blocks propagate as in a product. `blocks` gives the finest division of the directions such that each factor depends on the
directions of one block, and `L2` the sets for twice the degree. -/
theorem C98_tensorize {order : ℕ → Finset (Finset ℕ) → List (Finset ℕ)} (ho : OrderOk order) (k : ℕ) {sparse : Bool} {slack : ℕ}
    {eig : Eig} (he : EigDiag eig) {q : HQuad F} (hq : QuadOk q) {p : Product F} (hp : q.factor.terms = {p}) {s : IndexSet} {degree : ℕ}
    (hU : UsableTo s q.position.dim degree) (hz2 : Sized s q.position.dim (2 * degree)) (hds : DegreeOk slack s degree q.do_fourier) {f : SFn F} (hf : SFnOk f)
    (hd : f.dirs = q.position.dirs) (hne : f.terms ≠ 0) {blocks : Product F → List (Finset ℕ)}
    (hbl : ∀ args ∈ f.terms, BlocksOk q.position.dirs.toFinset args p (blocks args))
    (hcl : ∀ args ∈ f.terms, ∀ b ∈ blocks args, Closed s b.card degree (subQuad q p (b.sort (· ≤ ·))).do_fourier)
    {L2 : ℕ → List (List ℕ)} (hL2 : ∀ n, 1 ≤ n → n ≤ q.position.dim → s.s_list n (2 * degree) = .ok (L2 n)) :
    ∃ A, quad_varf_tensorize order k sparse slack eig degree s q f = .ok A ∧ VarfOk A ∧ A.is_sparse = sparse ∧ A.position = q.position ∧
      A.factor = q.factor ∧ A.index_set = s ∧ SameSets s A.degree degree ∧
      ∀ I J, InSet s q.position.dim degree I → InSet s q.position.dim degree J →
        ∃ x, Entry A I J x ∧ |x - formEntry q f.value I J| ≤ (f.terms.map fun args => blockBound q p (blocks args) L2 args I J).sum := by
  have h1 : 1 ≤ q.position.dim := Nat.one_le_iff_ne_zero.2 (PosOk.dim_pos hq.pos hq.dirs_ne)
  obtain ⟨L, hL⟩ := iterOk_exists (hU _ h1 le_rfl).toSized.fits'
  have hL2 : ∀ n, 1 ≤ n → n ≤ q.position.dim → IterOk s n (2 * degree) (L2 n) := fun n h h' => IterOk.of_list (hz2.sub h h').fits' (hL2 n h h')
  obtain ⟨T, hT, e⟩ := quad_varf_tensorize_kept ho k (sparse := sparse) he hq hp hU hz2 hds hf hd hne hL2 hL
  obtain ⟨ok, hent⟩ := form_of_entries (sparse := sparse) (fun I J => (f.terms.map fun args => T args I J).sum) hq.pos hq.dirs_ne (hU _ h1 le_rfl)
    (factor := q.factor) hL
  refine ⟨_, e, ok, rfl, rfl, rfl, rfl, recDegree_same s degree, fun I J hI hJ => ⟨_, hent I J hI hJ, ?_⟩⟩
  have hsum : formEntry q f.value I J = (f.terms.map fun args => formEntry q (productValue args) I J).sum := by
    rw [formEntry_sum]
    rfl
  rw [hsum, ← Multiset.sum_map_sub]
  refine (Multiset.abs_sum_le_sum_abs).trans ?_
  rw [Multiset.map_map]
  refine Multiset.sum_map_le_sum_map _ _ fun args hargs => ?_
  have hb := hbl args hargs
  show |T args I J - formEntry q (productValue args) I J| ≤ _
  rw [hT args _ hb, ← formEntry_blocks hq hb I J, ← sub_mul, abs_mul, blockBound, mul_comm]
  refine mul_le_mul_of_nonneg_left (prod_close fun b hbb => ?_) (abs_nonneg _)
  have hB := blockFacts hq hp hds hb hbb
  have hcard : (b.sort (· ≤ ·)).length = b.card := Finset.length_sort _
  have hdim : (subQuad q p (b.sort (· ≤ ·))).nodes.length = b.card := by rw [hB.ok.dim, hB.dim, hcard]
  have hin : ∀ {I : List ℕ}, InSet s q.position.dim degree I →
      InSet s (subQuad q p (b.sort (· ≤ ·))).nodes.length degree ((b.sort (· ≤ ·)).map (at' q.position.dirs I)) := by
    intro I hI
    have h : InSet s (b.sort (· ≤ ·)).length degree (along q.position.dirs (b.sort (· ≤ ·)) I) :=
      inSet_along hq.sorted (sorted_sort b) (hb.sort_ne hbb) hB.mem (by rw [hq.pos.dirs]; exact hI)
    rw [hdim, ← hcard]
    exact h
  refine keptForm_close (quad_formOk hB.ok (by rw [hB.dim]; exact fun n h h' => hU n h (h'.trans hB.le))
    (by rw [hB.dim]; exact hz2.sub hB.one hB.le) hB.degree) ?_ _ ?_ (hin hI) (hin hJ)
  · rw [hdim]
    exact hcl args hargs b hbb
  · rw [hB.ok.dim, hB.dim]
    exact hL2 _ hB.one hB.le

/-- C98: for a composite quadrature, the error is at most the weighted sum of the errors. -/
theorem C98_comp {q0 : HQuad F} {qs : List (HQuad F)} {ws : List ℝ} {c : HComp F} (hc : comp_init (q0 :: qs) ws = .ok c)
    {sparse : Bool} {slack : ℕ} {eig : Eig} (he : EigDiag eig) {s : IndexSet} {degree : ℕ} (hU : UsableTo s q0.position.dim degree)
    (hz2 : Sized s q0.position.dim (2 * degree)) {f : SFn F} (hf : SFnOk f) (hd : f.dirs = q0.position.dirs)
    (hq : ∀ q ∈ q0 :: qs, QuadOk q ∧ q.factor = q0.factor ∧ DegreeOk slack s degree q.do_fourier ∧ Closed s q0.position.dim degree q.do_fourier)
    {L2 : List (List ℕ)} (hL2 : s.s_list q0.position.dim (2 * degree) = .ok L2) :
    ∃ R, comp_varf (quad_varf sparse slack eig degree s · f) c = .ok (.object R) ∧ VarfOk R ∧ R.position = q0.position ∧ R.factor = q0.factor ∧
      R.index_set = s ∧ SameSets s R.degree degree ∧
      ∀ I J, InSet s q0.position.dim degree I → InSet s q0.position.dim degree J →
        ∃ x, Entry R I J x ∧ |x - (List.zipWith (fun q w => w * formEntry q f.value I J) (q0 :: qs) ws).sum| ≤
          (List.zipWith (fun q w => |w| * dropBound q L2 f.value I J) (q0 :: qs) ws).sum := by
  obtain ⟨_, _, ⟨rfl, rfl⟩, hl, hp, rfl⟩ := C82_init.1 hc
  have h0 := (hq q0 (by simp)).1
  have h1 : 1 ≤ q0.position.dim := Nat.one_le_iff_ne_zero.2 (PosOk.dim_pos h0.pos h0.dirs_ne)
  obtain ⟨L, hL⟩ := iterOk_exists (hU _ h1 le_rfl).toSized.fits'
  have hL2 := IterOk.of_list hz2.fits' hL2
  have hss := recDegree_same s degree
  obtain ⟨R, e1, e2, e3⟩ := C82_varf (V := fun q => ⟨sparse, L.map fun I => L.map fun J => keptForm q L2 f.value I J, q.position, recDegree s degree,
      q.factor, s⟩) (varf := (quad_varf sparse slack eig degree s · f)) (entry := fun q I J => keptForm q L2 f.value I J) hc (by
    intro q hqm
    obtain ⟨ok, hfac, hds, hex⟩ := hq q hqm
    have hdim : q.position.dim = q0.position.dim := dim_of_dirs ok.pos h0.pos (hp q hqm).1
    have hL' : IterOk s q.position.dim degree L := by rw [hdim]; exact hL
    obtain ⟨okf, hent⟩ := form_of_entries (sparse := sparse) (fun I J => keptForm q L2 f.value I J) ok.pos ok.dirs_ne (by rw [hdim]; exact hU _ h1 le_rfl)
      (factor := q.factor) hL'
    refine ⟨quad_varf_ok he ok (by rw [hdim]; exact hU) (by rw [hdim]; exact hz2) hds hL' (by rw [hdim]; exact hL2) (hd.trans (hp q hqm).1.symm) hf.vars,
      okf, rfl, rfl, hfac, rfl, ?_⟩
    intro I J hI hJ
    rw [← hdim] at hI hJ
    exact hent I J ((hss _ _).1 hI) ((hss _ _).1 hJ))
  refine ⟨R, e1, e2.ok, e2.position, e2.factor, e2.index_set, by rw [e2.degree]; exact hss, fun I J hI hJ =>
    ⟨_, e3 I J ((hss _ _).2 hI) ((hss _ _).2 hJ), ?_⟩⟩
  have hclose : ∀ q ∈ q0 :: qs, |keptForm q L2 f.value I J - formEntry q f.value I J| ≤ dropBound q L2 f.value I J := by
    intro q hqm
    obtain ⟨ok, hfac, hds, hex⟩ := hq q hqm
    have hdim : q.nodes.length = q0.position.dim := ok.dim.trans (dim_of_dirs ok.pos h0.pos (hp q hqm).1)
    have hdim' : q.position.dim = q0.position.dim := dim_of_dirs ok.pos h0.pos (hp q hqm).1
    refine keptForm_close (quad_formOk ok (by rw [hdim']; exact hU) (by rw [hdim']; exact hz2) hds) ?_ _ ?_ ?_ ?_
    · rw [hdim]; exact hex
    · rw [hdim]; exact hL2
    · rw [hdim]; exact hI
    · rw [hdim]; exact hJ
  have key : ∀ (l : List (HQuad F)) (ws : List ℝ), (∀ q ∈ l, |keptForm q L2 f.value I J - formEntry q f.value I J| ≤ dropBound q L2 f.value I J) →
      |(List.zipWith (fun q w => w * keptForm q L2 f.value I J) l ws).sum - (List.zipWith (fun q w => w * formEntry q f.value I J) l ws).sum| ≤
        (List.zipWith (fun q w => |w| * dropBound q L2 f.value I J) l ws).sum := by
    intro l
    induction l with
    | nil => intro ws _; simp
    | cons q l ih =>
      intro ws h
      cases ws with
      | nil => simp
      | cons w ws =>
        simp only [List.zipWith_cons_cons, List.sum_cons]
        have h3 := ih ws fun q' hq' => h q' (by simp [hq'])
        have h4 : |w * keptForm q L2 f.value I J - w * formEntry q f.value I J| ≤ |w| * dropBound q L2 f.value I J := by
          rw [← mul_sub, abs_mul]
          exact mul_le_mul_of_nonneg_left (h q (by simp)) (abs_nonneg _)
        rw [add_sub_add_comm]
        exact (abs_add_le _ _).trans (add_le_add h4 h3)
  exact key _ _ hclose

/-! ## The hypotheses can be met, and coefficients are dropped -/

attribute [local instance] interp70 decEq70

theorem coef98 (c : ℝ) (m : List ℕ) : fcoef [[0], [0]] [[1], [1]] [1, 1] [c] m = c * (trig (m.getD 0 0) 0 * trig (m.getD 1 0) 0) := by
  rw [fcoef, quadrature_point]
  simp [basis_two, phi]

/-- The constant `10⁻¹³`: all coefficients are dropped and the entries are 0, although the quadrature at the index 0 is positive. -/
example {eig : Eig} (he : EigDiag eig) (sparse : Bool) :
    ∃ A, quad_varf sparse 0 eig 2 .cube (quadXX "fourier" 0) (constFn (1 / 10 ^ 13)) = .ok A ∧ Entry A [0, 0] [0, 0] 0 ∧
      0 < formEntry (quadXX "fourier" 0) (constFn (1 / 10 ^ 13)).value [0, 0] [0, 0] := by
  have hfl : (quadXX "fourier" 0).do_fourier = [1, 1] := by simp [quadXX, HQuad.do_fourier]
  have hval : (constFn (1 / 10 ^ 13)).value = fun _ => 1 / 10 ^ 13 := by
    funext x
    simp [constFn, SFn.value, productValue, Interp.val]
  have hv : gridValues (quadXX "fourier" 0) (constFn (1 / 10 ^ 13)).value = [1 / 10 ^ 13] := by
    rw [hval]
    simp [gridValues, quadXX, gridPoints, cartesian]
  obtain ⟨A, e, -, -, -, -, -, -, h⟩ := C98_small (F := ℝ) (sparse := sparse) he (quadXX_ok "fourier" 0)
    (usableTo_small _ (by simp [quadXX]) (show 2 ≤ 250 by omega)) (sizedXX _ _ _ (by simp)) (slack := 0) (s := .cube)
    (by rw [hfl]; exact ⟨by simp, by simp, by simp⟩) (f := constFn (1 / 10 ^ 13)) ⟨by simp [constFn], by simp [constFn]⟩ rfl (by
      intro m _
      rw [hv, hfl]
      show |fcoef [[0], [0]] [[1], [1]] [1, 1] [1 / 10 ^ 13] m| < _
      rw [coef98, abs_mul, abs_mul]
      have := mul_le_one₀ (abs_trig_le (m.getD 0 0) 0) (abs_nonneg _) (abs_trig_le (m.getD 1 0) 0)
      rw [abs_of_pos (by positivity : (0 : ℝ) < 1 / 10 ^ 13)]
      nlinarith)
  refine ⟨A, e, h _ _ ⟨rfl, by simp⟩ ⟨rfl, by simp⟩, ?_⟩
  rw [formEntry, hval, hfl]
  show 0 < quadrature [[0], [0]] [[1], [1]] _
  rw [quadrature_point]
  have : 0 < trig 0 0 := by simp [trig]; positivity
  simp [basis_two, phi, quadXX]
  positivity

/-- The operator `f_x + 10⁻¹³ f_yy`, whose second coefficient is dropped. -/
example {eig : Eig} (he : EigDiag eig) (sparse : Bool) : ∃ A L2,
    discretize_op (quad_varf sparse 0 eig 2 .cube (quadXX "fourier" 0)) (fun f ds => quad_varfd sparse 0 eig 2 .cube ds (quadXX "fourier" 0) f)
        constFn (quadXX "fourier" 0) [0, 1] (argsOf [(5 : ℝ), 7] [⟨1, [1, 0]⟩, ⟨1 / 10 ^ 13, [0, 2]⟩]) = .ok A ∧
      IndexSet.cube.s_list 2 4 = .ok L2 ∧
      ∀ I J, InSet .cube 2 2 I → InSet .cube 2 2 J → ∃ (x : ℝ) (c : List ℕ → ℝ) (J' : List ℕ → List ℕ), Entry A I J x ∧
        |x - opEntry (quadXX "fourier" 0) constEv [⟨1, [1, 0]⟩, ⟨1 / 10 ^ 13, [0, 2]⟩] I J| ≤
          ∑ m ∈ ordersOf [(⟨1, [1, 0]⟩ : OpTerm ℝ), ⟨1 / 10 ^ 13, [0, 2]⟩], |c m| *
            dropBound (quadXX "fourier" 0) L2 (constEv (coeffAt [⟨1, [1, 0]⟩, ⟨1 / 10 ^ 13, [0, 2]⟩] m)) I (J' m) := by
  have hfl : (quadXX "fourier" 0).do_fourier = [1, 1] := by simp [quadXX, HQuad.do_fourier]
  have hcl : Closed .cube 2 2 [1, 1] := C35_closed _ _ _ _ rfl (by simp) (by simp) (by simp)
  obtain ⟨L2, hL2⟩ := iterOk_exists (sizedXX "fourier" 0 .cube (degree := 2) (by simp)).fits'
  obtain ⟨A, e, -, -, -, -, -, -, h⟩ := C98_op (K := ℝ) (F := ℝ) (sparse := sparse) he (quadXX_ok "fourier" 0) (quadXX_var _ _)
    (usableTo_small _ (by simp [quadXX]) (show 2 ≤ 250 by omega)) (sizedXX _ _ _ (by simp)) (slack := 0) (s := .cube)
    (by rw [hfl]; exact ⟨by simp, by simp, by simp⟩) (fn := constFn)
    (fun c => ⟨⟨by simp [constFn], by simp [constFn]⟩, rfl⟩) (ev := constEv)
    (fun c => by funext x; simp [constFn, SFn.value, productValue, Interp.val, constEv]) (vars := [5, 7]) (by simp [quadXX])
    (T := [⟨1, [1, 0]⟩, ⟨1 / 10 ^ 13, [0, 2]⟩]) (by simp) (by simp [quadXX]) (by simp) (by rw [hfl]; exact hcl)
    (fun m _ d _ _ _ => C40_closed _ _ _ _ rfl (by simp) (by simp)) hL2.list
  refine ⟨A, L2, e, hL2.list, fun I J hI hJ => ?_⟩
  obtain ⟨x, c, J', h2, -, h3⟩ := h I J hI hJ
  exact ⟨x, c, J', h2, h3⟩

/-- The hypotheses of `C98_tensorize` hold for `(c + x) (c + y)`, the triangle and two Fourier directions. -/
example {order : ℕ → Finset (Finset ℕ) → List (Finset ℕ)} (ho : OrderOk order) (k : ℕ) {eig : Eig} (he : EigDiag eig) (sparse : Bool) (c : ℝ) :
    ∃ A L2, quad_varf_tensorize order k sparse 0 eig 2 .triangle (quadXX "fourier" 0) (prod70 c) = .ok A ∧
      ∀ I J, InSet .triangle 2 2 I → InSet .triangle 2 2 J → ∃ x, Entry A I J x ∧
        |x - formEntry (quadXX "fourier" 0) (prod70 c).value I J| ≤
          ((prod70 c).terms.map fun args => blockBound (quadXX "fourier" 0) 0 [{0}, {1}] L2 args I J).sum := by
  have hfl : (quadXX "fourier" 0).do_fourier = [1, 1] := by simp [quadXX, HQuad.do_fourier]
  have hex : ∀ n, ∃ L, 1 ≤ n → n ≤ (quadXX "fourier" 0).position.dim → IndexSet.triangle.s_list n (2 * 2) = .ok L := by
    intro n
    by_cases hn : 1 ≤ n ∧ n ≤ (quadXX "fourier" 0).position.dim
    · obtain ⟨L, hL⟩ := iterOk_exists ((sizedXX "fourier" 0 .triangle (degree := 2) (by simp)).sub hn.1 hn.2).fits'
      exact ⟨L, fun _ _ => hL.list⟩
    · exact ⟨[], fun h1 h2 => absurd ⟨h1, h2⟩ hn⟩
  choose L2 hL2 using hex
  obtain ⟨A, e, -, -, -, -, -, -, h⟩ := C98_tensorize (F := ℝ) (sparse := sparse) ho k he (quadXX_ok "fourier" 0) (p := 0) rfl
    (usableTo_small _ (by simp [quadXX]) (show 2 ≤ 250 by omega)) (sizedXX _ _ _ (by simp)) (slack := 0) (s := .triangle)
    (by rw [hfl]; exact ⟨by simp, by simp, by simp⟩) (prod70_ok c) rfl (by simp [prod70]) (blocks := fun _ => [{0}, {1}]) (by
      intro args hargs
      rw [prod70, Multiset.mem_singleton] at hargs
      subst hargs
      refine ⟨by simp, ⟨by simp, ?_, ?_⟩, ?_, by simp, ?_⟩
      · intro b hb c hc x hx hx'
        simp at hb hc
        rcases hb with rfl | rfl <;> rcases hc with rfl | rfl <;> simp at hx hx' ⊢ <;> omega
      · intro x
        simp [quadXX]
      · intro a ha _
        simp at ha
        rcases ha with rfl | rfl
        · exact ⟨{0}, by simp, by simp⟩
        · exact ⟨{1}, by simp, by simp⟩
      · intro T hT h1 _ b hb
        simp at hb
        rcases hb with rfl | rfl
        · exact h1 ({0}, c) (by simp) (by simp)
        · exact h1 ({1}, c) (by simp) (by simp)) (by
      intro args _ b hb
      simp at hb
      rcases hb with rfl | rfl
      · rw [Finset.sort_singleton, subXX _ _ (Or.inl rfl)]
        exact C35_closed _ _ _ _ rfl (by simp) (by simp) (by simp)
      · rw [Finset.sort_singleton, subXX _ _ (Or.inr rfl)]
        exact C35_closed _ _ _ _ rfl (by simp) (by simp) (by simp)) hL2
  exact ⟨A, L2, e, h⟩

/-- The hypotheses of `C98_comp` hold for two quadratures with different nodes and the weights 1/3 and 2/3. -/
example {eig : Eig} (he : EigDiag eig) (sparse : Bool) (c : ℝ) : ∃ C R L2, comp_init [quadXX "fourier" 0, quadXX "fourier" 1] [1 / 3, 2 / 3] = .ok C ∧
    comp_varf (quad_varf sparse 0 eig 2 .cube · (prod70 c)) C = .ok (.object R) ∧ IndexSet.cube.s_list 2 4 = .ok L2 ∧
      ∀ I J, InSet .cube 2 2 I → InSet .cube 2 2 J → ∃ x, Entry R I J x ∧
        |x - (1 / 3 * formEntry (quadXX "fourier" 0) (prod70 c).value I J + 2 / 3 * formEntry (quadXX "fourier" 1) (prod70 c).value I J)| ≤
          1 / 3 * dropBound (quadXX "fourier" 0) L2 (prod70 c).value I J + 2 / 3 * dropBound (quadXX "fourier" 1) L2 (prod70 c).value I J := by
  have hfl : ∀ x, (quadXX "fourier" x).do_fourier = [1, 1] := fun x => by simp [quadXX, HQuad.do_fourier]
  obtain ⟨L2, hL2⟩ := iterOk_exists (sizedXX "fourier" 0 .cube (degree := 2) (by simp)).fits'
  have hc : comp_init [quadXX "fourier" 0, quadXX "fourier" 1] [1 / 3, 2 / 3] =
      .ok ⟨[quadXX "fourier" 0, quadXX "fourier" 1], [1 / 3, 2 / 3], (quadXX "fourier" 0).position⟩ :=
    C82_init.2 ⟨_, _, rfl, rfl, by
      intro q hq
      simp at hq
      rcases hq with rfl | rfl <;> exact pos_eq_self _, rfl⟩
  obtain ⟨R, e, -, -, -, -, -, h⟩ := C98_comp (F := ℝ) (sparse := sparse) (slack := 0) hc he (s := .cube) (degree := 2)
    (usableTo_small _ (by simp [quadXX]) (show 2 ≤ 250 by omega)) (sizedXX _ _ _ (by simp)) (prod70_ok c) rfl (by
      intro q hq
      simp at hq
      rcases hq with rfl | rfl <;> refine ⟨quadXX_ok _ _, rfl, ?_, ?_⟩ <;> rw [hfl]
      · exact ⟨by simp, by simp, by simp⟩
      · exact C35_closed _ _ _ _ rfl (by simp) (by simp) (by simp)
      · exact ⟨by simp, by simp, by simp⟩
      · exact C35_closed _ _ _ _ rfl (by simp) (by simp) (by simp)) hL2.list
  refine ⟨_, R, L2, hc, e, hL2.list, fun I J hI hJ => ?_⟩
  obtain ⟨x, h1, h2⟩ := h I J hI hJ
  refine ⟨x, h1, ?_⟩
  simp only [List.zipWith_cons_cons, List.zipWith_nil_right, List.sum_cons, List.sum_nil, add_zero] at h2
  rwa [abs_of_pos (by norm_num : (0 : ℝ) < 1 / 3), abs_of_pos (by norm_num : (0 : ℝ) < 2 / 3)] at h2

end Hermipy.Props
