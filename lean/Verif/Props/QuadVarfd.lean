import Verif.Lemmas.QuadVarfd
import Verif.Props.QuadVarf
import Verif.Props.Varfd

/-! # C71: `Quad.varfd`, directly and with `tensorize` -/

namespace Hermipy.Props
open Hermipy Hermipy.Spec
variable {F : Type} [Interp F]

theorem quad_varfd_steps {sparse : Bool} {slack : ℕ} {eig : Eig} (he : EigDiag eig) {q : HQuad F} (hq : QuadOk q) {s : IndexSet} {degree : ℕ}
    (hU : UsableTo s q.position.dim degree) (hz2 : Sized s q.position.dim (2 * degree)) (hds : DegreeOk slack s degree q.do_fourier) {f : SFn F}
    (hv : ∀ p ∈ f.terms, ∀ a ∈ p, ∀ d ∈ a.1, d ∈ f.dirs) (hd : f.dirs = q.position.dirs) (hex : Exact s degree q f.value) {ds : List ℕ}
    (hc : DiffClosed s degree q ds) {L : List (List ℕ)} (hL : IterOk s q.position.dim degree L) :
    quad_varfd sparse slack eig degree s ds q f = .ok ⟨sparse, L.map fun I => L.map fun J =>
      (ds.filter fun d => d ∈ q.position.dirs).foldl (qStep q) (formEntry q f.value I) J, q.position, recDegree s degree, q.factor, s⟩ := by
  have h1 : 1 ≤ q.position.dim := Nat.one_le_iff_ne_zero.2 (PosOk.dim_pos hq.pos hq.dirs_ne)
  obtain ⟨L2, hL2⟩ := iterOk_exists hz2.fits'
  have hform := quad_formOk hq hU hz2 hds
  rw [quad_varfd_ok (sparse := sparse) he hq hU hz2 hds hL hL2 hd hv hc]
  congr 2
  apply List.map_congr_left
  intro I hI
  apply List.map_congr_left
  intro J hJ
  refine qSteps_congr hc.dirs (fun J hJ => ?_) J ((hL.mem J).1 hJ)
  have hI' := (hL.mem I).1 hI
  rw [← hq.dim] at hI' hJ hL2
  exact keptForm_exact hform hex hL2 hI' hJ

theorem quad_varfd_exact {sparse : Bool} {slack : ℕ} {eig : Eig} (he : EigDiag eig) {q : HQuad F} (hq : QuadOk q) (hvar : VarPos q.position)
    {s : IndexSet} {degree : ℕ} (hU : UsableTo s q.position.dim degree) (hz2 : Sized s q.position.dim (2 * degree)) (hds : DegreeOk slack s degree q.do_fourier) {f : SFn F}
    (hv : ∀ p ∈ f.terms, ∀ a ∈ p, ∀ d ∈ a.1, d ∈ f.dirs) (hd : f.dirs = q.position.dirs) (hex : Exact s degree q f.value) {ds : List ℕ}
    (hc : DiffClosed s degree q ds) {L : List (List ℕ)} (hL : IterOk s q.position.dim degree L) :
    quad_varfd sparse slack eig degree s ds q f = .ok ⟨sparse, L.map fun I => L.map fun J =>
      dformEntry q f.value (ds.filter fun d => d ∈ q.position.dirs) I J, q.position, recDegree s degree, q.factor, s⟩ := by
  rw [quad_varfd_steps (sparse := sparse) he hq hU hz2 hds hv hd hex hc hL]
  congr 2
  apply List.map_congr_left
  intro I _
  apply List.map_congr_left
  intro J hJ
  exact fold_formEntry hq hvar _ (by simp) I (inSet_length ((hL.mem J).1 hJ))

/-- C71: `Quad.varfd` without `tensorize`, for sizes that the library can handle and positive variances. When the index set represents
products and the derivatives asked for, and no coefficient is dropped, the entry at `(I, J)` is the quadrature of the function times the
basis function of `I` times the derivative of the basis function of `J` in the directions of the list. -/
theorem C71_direct_partial {sparse : Bool} {slack : ℕ} {eig : Eig} (he : EigDiag eig) {q : HQuad F} (hq : QuadOk q) (hvar : VarPos q.position)
    {s : IndexSet} {degree : ℕ} (hU : UsableTo s q.position.dim degree) (hz2 : Sized s q.position.dim (2 * degree)) (hds : DegreeOk slack s degree q.do_fourier) {f : SFn F}
    (hf : SFnOk f) (hd : f.dirs = q.position.dirs) (hex : Exact s degree q f.value) {ds : List ℕ} (hin : ∀ d ∈ ds, d ∈ q.position.dirs)
    (hc : DiffClosed s degree q ds) :
    ∃ A, quad_varfd sparse slack eig degree s ds q f = .ok A ∧ VarfOk A ∧ A.is_sparse = sparse ∧ A.position = q.position ∧ A.factor = q.factor ∧
      A.index_set = s ∧ SameSets s A.degree degree ∧
      ∀ I J, InSet s q.position.dim degree I → InSet s q.position.dim degree J → Entry A I J (dformEntry q f.value ds I J) := by
  have h1 : 1 ≤ q.position.dim := Nat.one_le_iff_ne_zero.2 (PosOk.dim_pos hq.pos hq.dirs_ne)
  obtain ⟨L, hL⟩ := iterOk_exists (hU _ h1 le_rfl).toSized.fits'
  obtain ⟨ok, hent⟩ := form_of_entries (sparse := sparse) (fun I J => dformEntry q f.value ds I J) hq.pos hq.dirs_ne (hU _ h1 le_rfl)
    (factor := q.factor) hL
  have e := quad_varfd_exact (sparse := sparse) he hq hvar hU hz2 hds hf.vars hd hex hc hL
  rw [List.filter_eq_self.2 (by simpa using hin)] at e
  exact ⟨_, e, ok, rfl, rfl, rfl, rfl, recDegree_same s degree, hent⟩

/-- C71. Directions that do not belong to the quadrature are left out. -/
theorem C71_filter (sparse : Bool) (slack : ℕ) (eig : Eig) (degree : ℕ) (s : IndexSet) (ds : List ℕ) (q : HQuad F) (f : SFn F) :
    quad_varfd sparse slack eig degree s ds q f =
      quad_varfd sparse slack eig degree s (ds.filter fun d => d ∈ q.position.dirs) q f := by
  simp only [quad_varfd, quad_varfd_as, List.filter_filter, Bool.and_self]

/-- C71. In a Fourier direction, when the set does not contain with each sine the cosine of the same wave number, the dense form raises. -/
theorem C71_throws {slack : ℕ} {eig : Eig} (he : EigDiag eig) {q : HQuad F} (hq : QuadOk q) {s : IndexSet} {degree : ℕ}
    (hU : UsableTo s q.position.dim degree) (hz2 : Sized s q.position.dim (2 * degree)) (hds : DegreeOk slack s degree q.do_fourier) {f : SFn F} (hf : SFnOk f)
    (hd : f.dirs = q.position.dirs) {d : ℕ} (hin : d ∈ q.position.dirs) (hfl : q.do_fourier.getD (q.position.dirs.idxOf d) 0 = 1)
    (hnc : ¬ PairClosed s q.position.dim degree (q.position.dirs.idxOf d)) (ds : List ℕ) :
    quad_varfd false slack eig degree s (d :: ds) q f = .throws := by
  have h1 : 1 ≤ q.position.dim := Nat.one_le_iff_ne_zero.2 (PosOk.dim_pos hq.pos hq.dirs_ne)
  have hz := (hU _ h1 le_rfl).toSized
  obtain ⟨L, hL⟩ := iterOk_exists hz.fits'
  obtain ⟨L2, hL2⟩ := iterOk_exists hz2.fits'
  have hLn := hL
  rw [← hq.dim] at hLn hL2
  have hil : q.position.dirs.idxOf d < q.position.dim := by rw [← hq.pos.dirs]; exact List.idxOf_lt_length_iff.2 hin
  have hfl' : q.do_fourier[q.position.dirs.idxOf d]? = some 1 := by
    have : q.position.dirs.idxOf d < q.do_fourier.length := by rw [hq.grid.flags.1, hq.dim]; exact hil
    rw [← hfl]
    simp [this]
  obtain ⟨R, e, hR⟩ := quad_varf_mat_ok (BMat ℝ) he hq (quad_formOk hq hU hz2 hds) hLn hL2 hd hf.vars
  rw [quad_varfd, if_neg (by simp), quad_varfd_as, e, Out.ok_bind,
    rowsOf_list hL.runs.ne_nil hR (G := keptForm q L2 f.value) (fun _ _ _ _ => rfl), Out.ok_bind,
    mkVarf_small (hU _ h1 le_rfl) hL (by simp), Out.ok_bind, List.filter_cons_of_pos (by simpa using hin), List.foldlM_cons, varfdDir, pyindex,
    if_pos hin, Out.ok_bind, pyget_some hfl', Out.ok_bind, (C40_returns_iff s _ degree _ hz hil L hL.list R _ hR).2 hnc]
  rfl

variable [DecidableEq F]

theorem quad_varfd_tensorize_exact {order : ℕ → Finset (Finset ℕ) → List (Finset ℕ)} (ho : OrderOk order) (k : ℕ) {sparse : Bool} {slack : ℕ}
    {eig : Eig} (he : EigDiag eig) {q : HQuad F} (hq : QuadOk q) (hvar : VarPos q.position) {p : Product F} (hp : q.factor.terms = {p})
    {s : IndexSet} {degree : ℕ} (hU : UsableTo s q.position.dim degree) (hz2 : Sized s q.position.dim (2 * degree)) (hds : DegreeOk slack s degree q.do_fourier) {f : SFn F}
    (hf : SFnOk f) (hd : f.dirs = q.position.dirs) (hne : f.terms ≠ 0) {ds : List ℕ}
    (hex : ∀ args ∈ f.terms, ∀ bs, BlocksOk q.position.dirs.toFinset args p bs → ∀ b ∈ bs,
      Exact s degree (subQuad q p (b.sort (· ≤ ·))) (productValue (blockPart args b)) ∧
      DiffClosed s degree (subQuad q p (b.sort (· ≤ ·))) ds) {L : List (List ℕ)}
    (hL : IterOk s q.position.dim degree L) :
    quad_varfd_tensorize order k sparse slack eig degree s ds q f = .ok ⟨sparse, L.map fun I => L.map fun J =>
      dformEntry q f.value (ds.filter fun d => d ∈ q.position.dirs) I J, q.position, recDegree s degree, q.factor, s⟩ := by
  have e := varf_tensorize_gen ho k (sparse := sparse) (func := quad_varfd sparse slack eig degree s ds) hq hp hU
    hf hd hne hL
    (C := fun args b m n => (ds.filter fun d => d ∈ b.sort (· ≤ ·)).foldl (qStep (subQuad q p (b.sort (· ≤ ·))))
      (formEntry (subQuad q p (b.sort (· ≤ ·))) (productValue (blockPart args b)) m) n)
    (by
      intro args hargs bs hb b hbb Lb hLb
      have hB := blockFacts hq hp hds hb hbb
      have hv : (⟨b.sort (· ≤ ·), {blockPart args b}⟩ : SFn F).value = productValue (blockPart args b) := by funext x; simp [SFn.value]
      rw [quad_varfd_steps he hB.ok (by rw [hB.dim]; exact fun n h h' => hU n h (h'.trans hB.le)) (by rw [hB.dim]; exact hz2.sub hB.one hB.le) hB.degree hB.vars rfl (by rw [hv]; exact (hex args hargs bs hb b hbb).1)
        (hex args hargs bs hb b hbb).2 (by rw [hB.dim]; exact hLb), hv]
      rfl)
    (T := fun args m n => dformEntry q (productValue args) (ds.filter fun d => d ∈ q.position.dirs) m n)
    (by
      intro args _ bs hb m _ n hn
      have hnl := inSet_length ((hL.mem n).1 hn)
      have h := qSteps_blocks hq hb (productValue (constPart args) (fun _ => 0)) (ds.filter fun d => d ∈ q.position.dirs) (by simp)
        (formEntry q (productValue args) m) (fun b => formEntry (subQuad q p (b.sort (· ≤ ·))) (productValue (blockPart args b))
          ((b.sort (· ≤ ·)).map (at' q.position.dirs m))) (fun J _ => formEntry_blocks hq hb m J) n hnl
      rw [fold_formEntry hq hvar _ (by simp) m hnl] at h
      rw [← h]
      congr 2
      apply List.map_congr_left
      intro b hbb
      have hfil : ((ds.filter fun d => d ∈ q.position.dirs).filter fun d => d ∈ b.sort (· ≤ ·)) = ds.filter fun d => d ∈ b.sort (· ≤ ·) := by
        rw [List.filter_filter]
        apply List.filter_congr
        intro d _
        by_cases h0 : d ∈ b.sort (· ≤ ·)
        · have := List.mem_toFinset.1 (hb.sort_mem hbb d h0)
          simp only [h0, this, decide_true, Bool.and_self]
        · simp only [h0, decide_false, Bool.false_and]
      rw [hfil])
  rw [quad_varfd_tensorize, e]
  simp only [dformEntry_sum]
  rfl

/-- C71: `Quad.varfd` with `tensorize`, for sizes that the library can handle, positive variances and a factor which is one product.
When for each block of directions the index set represents products and the derivatives asked for, and no coefficient is dropped, the entry
at `(I, J)` is the quadrature of the function times the basis function of `I` times the derivative of the basis function of `J`. -/
theorem C71_tensorize_partial {order : ℕ → Finset (Finset ℕ) → List (Finset ℕ)} (ho : OrderOk order) (k : ℕ) {sparse : Bool} {slack : ℕ}
    {eig : Eig} (he : EigDiag eig) {q : HQuad F} (hq : QuadOk q) (hvar : VarPos q.position) {p : Product F} (hp : q.factor.terms = {p})
    {s : IndexSet} {degree : ℕ} (hU : UsableTo s q.position.dim degree) (hz2 : Sized s q.position.dim (2 * degree)) (hds : DegreeOk slack s degree q.do_fourier) {f : SFn F}
    (hf : SFnOk f) (hd : f.dirs = q.position.dirs) (hne : f.terms ≠ 0) {ds : List ℕ} (hin : ∀ d ∈ ds, d ∈ q.position.dirs)
    (hex : ∀ args ∈ f.terms, ∀ bs, BlocksOk q.position.dirs.toFinset args p bs → ∀ b ∈ bs,
      Exact s degree (subQuad q p (b.sort (· ≤ ·))) (productValue (blockPart args b)) ∧
      DiffClosed s degree (subQuad q p (b.sort (· ≤ ·))) ds) :
    ∃ A, quad_varfd_tensorize order k sparse slack eig degree s ds q f = .ok A ∧ VarfOk A ∧ A.is_sparse = sparse ∧ A.position = q.position ∧
      A.factor = q.factor ∧ A.index_set = s ∧ SameSets s A.degree degree ∧
      ∀ I J, InSet s q.position.dim degree I → InSet s q.position.dim degree J → Entry A I J (dformEntry q f.value ds I J) := by
  have h1 : 1 ≤ q.position.dim := Nat.one_le_iff_ne_zero.2 (PosOk.dim_pos hq.pos hq.dirs_ne)
  obtain ⟨L, hL⟩ := iterOk_exists (hU _ h1 le_rfl).toSized.fits'
  obtain ⟨ok, hent⟩ := form_of_entries (sparse := sparse) (fun I J => dformEntry q f.value ds I J) hq.pos hq.dirs_ne (hU _ h1 le_rfl)
    (factor := q.factor) hL
  have e := quad_varfd_tensorize_exact (sparse := sparse) ho k he hq hvar hp hU hz2 hds hf hd hne hex hL
  rw [List.filter_eq_self.2 (by simpa using hin)] at e
  exact ⟨_, e, ok, rfl, rfl, rfl, rfl, recDegree_same s degree, hent⟩

/-- C71: directly and with `tensorize`, the same form. -/
theorem C71_agree_partial {order : ℕ → Finset (Finset ℕ) → List (Finset ℕ)} (ho : OrderOk order) (k : ℕ) {sparse : Bool} {slack : ℕ}
    {eig : Eig} (he : EigDiag eig) {q : HQuad F} (hq : QuadOk q) (hvar : VarPos q.position) {p : Product F} (hp : q.factor.terms = {p})
    {s : IndexSet} {degree : ℕ} (hU : UsableTo s q.position.dim degree) (hz2 : Sized s q.position.dim (2 * degree)) (hds : DegreeOk slack s degree q.do_fourier) {f : SFn F}
    (hf : SFnOk f) (hd : f.dirs = q.position.dirs) (hne : f.terms ≠ 0) {ds : List ℕ} (hex : Exact s degree q f.value) (hc : DiffClosed s degree q ds)
    (hexb : ∀ args ∈ f.terms, ∀ bs, BlocksOk q.position.dirs.toFinset args p bs → ∀ b ∈ bs,
      Exact s degree (subQuad q p (b.sort (· ≤ ·))) (productValue (blockPart args b)) ∧
      DiffClosed s degree (subQuad q p (b.sort (· ≤ ·))) ds) :
    ∃ A, quad_varfd sparse slack eig degree s ds q f = .ok A ∧ quad_varfd_tensorize order k sparse slack eig degree s ds q f = .ok A := by
  have h1 : 1 ≤ q.position.dim := Nat.one_le_iff_ne_zero.2 (PosOk.dim_pos hq.pos hq.dirs_ne)
  obtain ⟨L, hL⟩ := iterOk_exists (hU _ h1 le_rfl).toSized.fits'
  exact ⟨_, quad_varfd_exact he hq hvar hU hz2 hds hf.vars hd hex hc hL,
    quad_varfd_tensorize_exact ho k he hq hvar hp hU hz2 hds hf hd hne hexb hL⟩

/-- C71. If the factor of the quadrature is not a single product, `varfd` with `tensorize` raises. -/
theorem C71_sum_factor {order : ℕ → Finset (Finset ℕ) → List (Finset ℕ)} (k : ℕ) (sparse : Bool) (slack : ℕ) (eig : Eig) (degree : ℕ)
    (s : IndexSet) (ds : List ℕ) {q : HQuad F} (hq : QuadOk q) (hp : Multiset.card q.factor.terms ≠ 1) {f : SFn F} (hf : SFnOk f) :
    quad_varfd_tensorize order k sparse slack eig degree s ds q f = .throws := tensorize_at_sum k hq hp hf

/-! ## The hypotheses can be met -/

attribute [local instance] interp70 decEq70

theorem quadXX_var (t : String) (x : ℝ) : VarPos (quadXX t x).position := by
  intro i hi
  have : i = 0 ∨ i = 1 := by simp [quadXX] at hi; omega
  rcases this with rfl | rfl <;> simp [quadXX, entryOf, diagMat]

theorem blocks71 (s : IndexSet) (ds : List ℕ) : ∀ args ∈ (prod70 1).terms, ∀ bs, BlocksOk (quadXX "fourier" 0).position.dirs.toFinset args 0 bs →
    ∀ b ∈ bs, Exact s 2 (subQuad (quadXX "fourier" 0) 0 (b.sort (· ≤ ·))) (productValue (blockPart args b)) ∧
      DiffClosed s 2 (subQuad (quadXX "fourier" 0) 0 (b.sort (· ≤ ·))) ds := by
  intro args hargs bs hb b hbb
  rw [prod70, Multiset.mem_singleton] at hargs
  subst hargs
  obtain ⟨d, hd, rfl, hbp⟩ := blocksXX _ _ _ hb hbb
  rw [hbp, Finset.sort_singleton, subXX _ _ hd]
  refine ⟨⟨?_, ?_⟩, ?_⟩
  · exact C35_closed _ _ _ _ rfl (by simp) (by simp) (by simp)
  · intro L2 hL2
    have e1 : gridValues (⟨[[0]], [[1]], ⟨1, [d], [0], [[1]], ["fourier"]⟩, ⟨[d], {0}⟩⟩ : HQuad ℝ) (productValue ({({d}, 1)} : Product ℝ)) = [1] := by
      simp [gridValues, gridPoints, cartesian, productValue, Interp.val, gridPoint]
    rw [e1]
    exact noDrop_origin_line s L2 hL2
  · intro d' _ _ _
    exact C40_closed _ _ _ _ rfl (by simp) (by simp)

theorem exact71 : Exact .cube 2 (quadXX "fourier" 0) (prod70 1).value := by
  have hfl : (quadXX "fourier" 0).do_fourier = [1, 1] := by simp [quadXX, HQuad.do_fourier]
  have hv : gridValues (quadXX "fourier" 0) (prod70 1).value = [1] := by
    simp [gridValues, quadXX, gridPoints, cartesian, prod70, SFn.value, productValue, Interp.val, gridPoint]
  constructor
  · rw [hfl]
    exact C35_closed _ _ _ _ rfl (by simp) (by simp) (by simp)
  · intro L2 hL2
    rw [hv, hfl]
    exact noDrop_origin L2 hL2

/-- The hypotheses of `C71_agree_partial` hold for the cube with two Fourier directions and all derivatives. -/
example {order : ℕ → Finset (Finset ℕ) → List (Finset ℕ)} (ho : OrderOk order) (k : ℕ) {eig : Eig} (he : EigDiag eig) (sparse : Bool)
    (ds : List ℕ) : ∃ A, quad_varfd sparse 0 eig 2 .cube ds (quadXX "fourier" 0) (prod70 1) = .ok A ∧
      quad_varfd_tensorize order k sparse 0 eig 2 .cube ds (quadXX "fourier" 0) (prod70 1) = .ok A := by
  have hfl : (quadXX "fourier" 0).do_fourier = [1, 1] := by simp [quadXX, HQuad.do_fourier]
  refine C71_agree_partial ho k he (quadXX_ok _ _) (quadXX_var _ _) (p := 0) rfl (usableTo_small _ (by simp [quadXX]) (by norm_num))
    (sizedXX _ _ _ (by simp)) (by rw [hfl]; exact ⟨by simp, by simp, by simp⟩) (prod70_ok 1) rfl (by simp [prod70]) exact71 ?_ (blocks71 _ ds)
  intro d _ _ _
  exact C40_closed _ _ _ _ rfl (by simp) (by simp)

/-- C71 is false for a direction that does not belong to the quadrature: the derivative in this direction is 0, but the form is that
without derivative. -/
theorem C71_outside_false {eig : Eig} (he : EigDiag eig) (sparse : Bool) :
    ∃ A c, quad_varfd sparse 0 eig 2 .cube [5] (quadXX "fourier" 0) (prod70 1) = .ok A ∧ Entry A [0, 0] [0, 0] c ∧ c ≠ 0 ∧
      dformEntry (quadXX "fourier" 0) (prod70 1).value [5] [0, 0] [0, 0] = 0 := by
  have hfl : (quadXX "fourier" 0).do_fourier = [1, 1] := by simp [quadXX, HQuad.do_fourier]
  obtain ⟨A, e, -, -, -, -, -, -, h⟩ := C71_direct_partial (sparse := sparse) he (quadXX_ok _ _) (quadXX_var _ _) (usableTo_small _ (by simp [quadXX]) (show 2 ≤ 250 by omega))
    (sizedXX _ _ _ (by simp)) (slack := 0) (by rw [hfl]; exact ⟨by simp, by simp, by simp⟩) (prod70_ok 1) rfl exact71 (ds := []) (by simp)
    (fun d hd => absurd hd (by simp))
  refine ⟨A, _, by rw [C71_filter]; exact e, h [0, 0] [0, 0] ⟨rfl, by simp⟩ ⟨rfl, by simp⟩, ?_, ?_⟩
  · refine ne_of_eq_of_ne (quadrature_point 0 0 _) ?_
    have := (Real.sqrt_pos.2 Real.pi_pos).ne'
    simp [quadXX, prod70, SFn.value, productValue, Interp.val, gridPoint, basis, pds, coordBasis, phi, trig, HQuad.do_fourier,
      Finset.prod_range_succ]
    exact this
  · refine (quadrature_point 0 0 _).trans ?_
    have : pds [5] (coordBasis (quadXX "fourier" 0).position (quadXX "fourier" 0).do_fourier [0, 0]) = fun _ => 0 := by
      funext x
      simp [pds, pd, coordBasis, quadXX, Finset.prod_range_succ]
    rw [this]
    simp

/-- C71. With the triangle in two Fourier directions, `varfd` raises when it is called directly; with `tensorize`, it returns the quadratures. -/
theorem C71_triangle {order : ℕ → Finset (Finset ℕ) → List (Finset ℕ)} (ho : OrderOk order) (k : ℕ) {eig : Eig} (he : EigDiag eig) :
    quad_varfd false 0 eig 2 .triangle [0] (quadXX "fourier" 0) (prod70 1) = .throws ∧
    ∃ A, quad_varfd_tensorize order k false 0 eig 2 .triangle [0] (quadXX "fourier" 0) (prod70 1) = .ok A ∧
      ∀ I J, InSet .triangle 2 2 I → InSet .triangle 2 2 J → Entry A I J (dformEntry (quadXX "fourier" 0) (prod70 1).value [0] I J) := by
  have hfl : (quadXX "fourier" 0).do_fourier = [1, 1] := by simp [quadXX, HQuad.do_fourier]
  have hds : DegreeOk 0 .triangle 2 (quadXX "fourier" 0).do_fourier := by rw [hfl]; exact ⟨by simp, by simp, by simp⟩
  constructor
  · exact C71_throws he (quadXX_ok _ _) (usableTo_small _ (by simp [quadXX]) (show 2 ≤ 250 by omega)) (sizedXX _ _ _ (by simp)) hds (prod70_ok 1) rfl (by simp [quadXX]) (by simp [quadXX, HQuad.do_fourier])
      (by simpa [quadXX] using not_pairClosed .triangle 2 (by omega) rfl (by simp) (by simp)) []
  · obtain ⟨A, e, -, -, -, -, -, -, h⟩ := C71_tensorize_partial (sparse := false) ho k he (quadXX_ok _ _) (quadXX_var _ _) (p := 0) rfl
      (usableTo_small _ (by simp [quadXX]) (show 2 ≤ 250 by omega)) (sizedXX _ _ _ (by simp)) hds (prod70_ok 1) rfl (by simp [prod70]) (ds := [0]) (by simp [quadXX]) (blocks71 _ _)
    exact ⟨A, e, h⟩

end Hermipy.Props
