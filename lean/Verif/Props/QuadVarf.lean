import Verif.Lemmas.QuadVarf
import Verif.Props.VarfTensorize
import Verif.Props.VarfProduct
import Verif.Props.QuadIntegrate

/-! # C70: `Quad.varf`, directly and with `tensorize` -/

namespace Hermipy.Props
open Hermipy Hermipy.Spec
variable {F : Type} [Interp F]

omit [Interp F] in
/-- The form whose matrix has given entries. -/
theorem form_of_entries {sparse : Bool} {L : List (List ℕ)} (G : List ℕ → List ℕ → ℝ) {p : Position} (hp : PosOk p) (hdirs : p.dirs ≠ [])
    {degree : ℕ} {factor : SFn F} {s : IndexSet} (hu : Usable s p.dim degree) (hL : IterOk s p.dim degree L) :
    VarfOk (⟨sparse, L.map fun I => L.map fun J => G I J, p, recDegree s degree, factor, s⟩ : HVarf (SFn F)) ∧
      ∀ I J, InSet s p.dim degree I → InSet s p.dim degree J →
        Entry (⟨sparse, L.map fun I => L.map fun J => G I J, p, recDegree s degree, factor, s⟩ : HVarf (SFn F)) I J (G I J) := by
  have h1 : 1 ≤ p.dim := Nat.one_le_iff_ne_zero.2 (PosOk.dim_pos hp hdirs)
  obtain ⟨A, eA, okA, a1, a2, a3, a4, a5, a6, a7⟩ := mkVarf_ok (b := sparse) (factor := factor) hp hdirs hu hL
    (M := L.map fun I => L.map fun J => G I J) (by simp) (by intro r hr; obtain ⟨I, -, rfl⟩ := List.mem_map.1 hr; simp)
  rw [mkVarf_small hu hL (by simp)] at eA
  cases eA
  refine ⟨okA, fun I J hI hJ => ?_⟩
  have hmI := (hL.mem I).2 hI
  have hmJ := (hL.mem J).2 hJ
  refine ⟨L, L.idxOf I, L.idxOf J, L.map fun J => G I J, a6.list, getElem?_idxOf' hmI, getElem?_idxOf' hmJ, ?_, ?_⟩
  · simp [getElem?_idxOf' hmI]
  · simp [getElem?_idxOf' hmJ]

/-- The blocks into which a product is divided are as small as they can be. -/
theorem blocks_singleton {U : Finset ℕ} {args p : Product F} {bs : List (Finset ℕ)} (h : BlocksOk U args p bs)
    (h1 : ∀ a ∈ args, a.1 ≠ ∅ → ∃ x ∈ U, a.1 = {x}) (h2 : ∀ a ∈ p, a.1 ≠ ∅ → ∃ x ∈ U, a.1 = {x}) : ∀ b ∈ bs, ∃ x ∈ U, b = {x} := by
  have hT : IsPartition U (U.image fun x => {x}) := by
    refine ⟨?_, ?_, ?_⟩
    · simp
    · simp only [Finset.mem_image]
      rintro _ ⟨x, -, rfl⟩ _ ⟨y, -, rfl⟩ z h1 h2
      rw [← Finset.mem_singleton.1 h1, ← Finset.mem_singleton.1 h2]
    · intro x
      simp
  have hfin := h.least _ hT (by
    intro a ha hne
    obtain ⟨x, hx, e⟩ := h1 a ha hne
    exact ⟨{x}, Finset.mem_image_of_mem _ hx, e.le⟩) (by
    intro a ha hne
    obtain ⟨x, hx, e⟩ := h2 a ha hne
    exact ⟨{x}, Finset.mem_image_of_mem _ hx, e.le⟩)
  intro b hb
  obtain ⟨c, hc, hbc⟩ := hfin b (List.mem_toFinset.2 hb)
  obtain ⟨x, hx, rfl⟩ := Finset.mem_image.1 hc
  exact ⟨x, hx, (Finset.subset_singleton_iff.1 hbc).resolve_left (h.partition.nonempty b (List.mem_toFinset.2 hb)).ne_empty⟩

theorem quad_varf_exact {sparse : Bool} {slack : ℕ} {eig : Eig} (he : EigDiag eig) {q : HQuad F} (hq : QuadOk q) {s : IndexSet} {degree : ℕ}
    (hU : UsableTo s q.position.dim degree) (hz2 : Sized s q.position.dim (2 * degree)) (hds : DegreeOk slack s degree q.do_fourier) {f : SFn F}
    (hv : ∀ p ∈ f.terms, ∀ a ∈ p, ∀ d ∈ a.1, d ∈ f.dirs) (hd : f.dirs = q.position.dirs) (hex : Exact s degree q f.value) {L : List (List ℕ)}
    (hL : IterOk s q.position.dim degree L) :
    quad_varf sparse slack eig degree s q f = .ok ⟨sparse, L.map fun I => L.map fun J => formEntry q f.value I J, q.position, recDegree s degree,
      q.factor, s⟩ := by
  have h1 : 1 ≤ q.position.dim := Nat.one_le_iff_ne_zero.2 (PosOk.dim_pos hq.pos hq.dirs_ne)
  obtain ⟨L2, hL2⟩ := iterOk_exists hz2.fits'
  have hform := quad_formOk hq hU hz2 hds
  rw [quad_varf_ok (sparse := sparse) he hq hU hz2 hds hL hL2 hd hv]
  congr 2
  apply List.map_congr_left
  intro I hI
  apply List.map_congr_left
  intro J hJ
  have hI' := (hL.mem I).1 hI
  have hJ' := (hL.mem J).1 hJ
  rw [← hq.dim] at hI' hJ' hL2
  exact keptForm_exact hform hex hL2 hI' hJ'

/-- C70: `Quad.varf` without `tensorize`, for sizes that the library can handle. When the index set represents products and no
coefficient is dropped, the entry at `(I, J)` is the quadrature of the function times the two basis functions. -/
theorem C70_direct_partial {sparse : Bool} {slack : ℕ} {eig : Eig} (he : EigDiag eig) {q : HQuad F} (hq : QuadOk q) {s : IndexSet} {degree : ℕ}
    (hU : UsableTo s q.position.dim degree) (hz2 : Sized s q.position.dim (2 * degree)) (hds : DegreeOk slack s degree q.do_fourier) {f : SFn F} (hf : SFnOk f)
    (hd : f.dirs = q.position.dirs) (hex : Exact s degree q f.value) :
    ∃ A, quad_varf sparse slack eig degree s q f = .ok A ∧ VarfOk A ∧ A.is_sparse = sparse ∧ A.position = q.position ∧ A.factor = q.factor ∧
      A.index_set = s ∧ SameSets s A.degree degree ∧
      ∀ I J, InSet s q.position.dim degree I → InSet s q.position.dim degree J → Entry A I J (formEntry q f.value I J) := by
  have h1 : 1 ≤ q.position.dim := Nat.one_le_iff_ne_zero.2 (PosOk.dim_pos hq.pos hq.dirs_ne)
  obtain ⟨L, hL⟩ := iterOk_exists (hU _ h1 le_rfl).toSized.fits'
  obtain ⟨ok, hent⟩ := form_of_entries (sparse := sparse) (fun I J => formEntry q f.value I J) hq.pos hq.dirs_ne (hU _ h1 le_rfl)
    (factor := q.factor) hL
  exact ⟨_, quad_varf_exact he hq hU hz2 hds hf.vars hd hex hL, ok, rfl, rfl, rfl, rfl, recDegree_same s degree, hent⟩

variable [DecidableEq F]

theorem quad_varf_tensorize_exact {order : ℕ → Finset (Finset ℕ) → List (Finset ℕ)} (ho : OrderOk order) (k : ℕ) {sparse : Bool} {slack : ℕ}
    {eig : Eig} (he : EigDiag eig) {q : HQuad F} (hq : QuadOk q) {p : Product F} (hp : q.factor.terms = {p}) {s : IndexSet} {degree : ℕ}
    (hU : UsableTo s q.position.dim degree) (hz2 : Sized s q.position.dim (2 * degree)) (hds : DegreeOk slack s degree q.do_fourier) {f : SFn F} (hf : SFnOk f)
    (hd : f.dirs = q.position.dirs) (hne : f.terms ≠ 0)
    (hex : ∀ args ∈ f.terms, ∀ bs, BlocksOk q.position.dirs.toFinset args p bs → ∀ b ∈ bs,
      Exact s degree (subQuad q p (b.sort (· ≤ ·))) (productValue (blockPart args b))) {L : List (List ℕ)}
    (hL : IterOk s q.position.dim degree L) :
    quad_varf_tensorize order k sparse slack eig degree s q f = .ok ⟨sparse, L.map fun I => L.map fun J => formEntry q f.value I J, q.position,
      recDegree s degree, q.factor, s⟩ := by
  have e := varf_tensorize_gen ho k (sparse := sparse) (func := quad_varf sparse slack eig degree s) hq hp hU hf hd hne hL
    (C := fun args b => formEntry (subQuad q p (b.sort (· ≤ ·))) (productValue (blockPart args b)))
    (by
      intro args hargs bs hb b hbb Lb hLb
      have hB := blockFacts hq hp hds hb hbb
      have hv : (⟨b.sort (· ≤ ·), {blockPart args b}⟩ : SFn F).value = productValue (blockPart args b) := by funext x; simp [SFn.value]
      rw [quad_varf_exact he hB.ok (by rw [hB.dim]; exact fun n h h' => hU n h (h'.trans hB.le)) (by rw [hB.dim]; exact hz2.sub hB.one hB.le) hB.degree hB.vars rfl (by rw [hv]; exact hex args hargs bs hb b hbb)
        (by rw [hB.dim]; exact hLb), hv])
    (T := fun args m n => formEntry q (productValue args) m n)
    (fun args _ bs hb m _ n _ => formEntry_blocks hq hb m n)
  rw [quad_varf_tensorize, e]
  simp only [formEntry_sum]
  rfl

/-- C70: `Quad.varf` with `tensorize`, for sizes that the library can handle and a factor which is one product. When for each block
of directions the index set represents products and no coefficient is dropped, the entry at `(I, J)` is the quadrature of the function times
the two basis functions. -/
theorem C70_tensorize_partial {order : ℕ → Finset (Finset ℕ) → List (Finset ℕ)} (ho : OrderOk order) (k : ℕ) {sparse : Bool} {slack : ℕ}
    {eig : Eig} (he : EigDiag eig) {q : HQuad F} (hq : QuadOk q) {p : Product F} (hp : q.factor.terms = {p}) {s : IndexSet} {degree : ℕ}
    (hU : UsableTo s q.position.dim degree) (hz2 : Sized s q.position.dim (2 * degree)) (hds : DegreeOk slack s degree q.do_fourier) {f : SFn F} (hf : SFnOk f)
    (hd : f.dirs = q.position.dirs) (hne : f.terms ≠ 0)
    (hex : ∀ args ∈ f.terms, ∀ bs, BlocksOk q.position.dirs.toFinset args p bs → ∀ b ∈ bs,
      Exact s degree (subQuad q p (b.sort (· ≤ ·))) (productValue (blockPart args b))) :
    ∃ A, quad_varf_tensorize order k sparse slack eig degree s q f = .ok A ∧ VarfOk A ∧ A.is_sparse = sparse ∧ A.position = q.position ∧
      A.factor = q.factor ∧ A.index_set = s ∧ SameSets s A.degree degree ∧
      ∀ I J, InSet s q.position.dim degree I → InSet s q.position.dim degree J → Entry A I J (formEntry q f.value I J) := by
  have h1 : 1 ≤ q.position.dim := Nat.one_le_iff_ne_zero.2 (PosOk.dim_pos hq.pos hq.dirs_ne)
  obtain ⟨L, hL⟩ := iterOk_exists (hU _ h1 le_rfl).toSized.fits'
  obtain ⟨ok, hent⟩ := form_of_entries (sparse := sparse) (fun I J => formEntry q f.value I J) hq.pos hq.dirs_ne (hU _ h1 le_rfl)
    (factor := q.factor) hL
  exact ⟨_, quad_varf_tensorize_exact ho k he hq hp hU hz2 hds hf hd hne hex hL, ok, rfl, rfl, rfl, rfl, recDegree_same s degree, hent⟩

/-- C70: directly and with `tensorize`, the same form. -/
theorem C70_agree_partial {order : ℕ → Finset (Finset ℕ) → List (Finset ℕ)} (ho : OrderOk order) (k : ℕ) {sparse : Bool} {slack : ℕ}
    {eig : Eig} (he : EigDiag eig) {q : HQuad F} (hq : QuadOk q) {p : Product F} (hp : q.factor.terms = {p}) {s : IndexSet} {degree : ℕ}
    (hU : UsableTo s q.position.dim degree) (hz2 : Sized s q.position.dim (2 * degree)) (hds : DegreeOk slack s degree q.do_fourier) {f : SFn F} (hf : SFnOk f)
    (hd : f.dirs = q.position.dirs) (hne : f.terms ≠ 0) (hex : Exact s degree q f.value)
    (hexb : ∀ args ∈ f.terms, ∀ bs, BlocksOk q.position.dirs.toFinset args p bs → ∀ b ∈ bs,
      Exact s degree (subQuad q p (b.sort (· ≤ ·))) (productValue (blockPart args b))) :
    ∃ A, quad_varf sparse slack eig degree s q f = .ok A ∧ quad_varf_tensorize order k sparse slack eig degree s q f = .ok A := by
  have h1 : 1 ≤ q.position.dim := Nat.one_le_iff_ne_zero.2 (PosOk.dim_pos hq.pos hq.dirs_ne)
  obtain ⟨L, hL⟩ := iterOk_exists (hU _ h1 le_rfl).toSized.fits'
  exact ⟨_, quad_varf_exact he hq hU hz2 hds hf.vars hd hex hL, quad_varf_tensorize_exact ho k he hq hp hU hz2 hds hf hd hne hexb hL⟩

/-- C70. If the factor of the quadrature is not a single product, `varf` with `tensorize` raises. -/
theorem C70_sum_factor {order : ℕ → Finset (Finset ℕ) → List (Finset ℕ)} (k : ℕ) (sparse : Bool) (slack : ℕ) (eig : Eig) (degree : ℕ) (s : IndexSet)
    {q : HQuad F} (hq : QuadOk q) (hp : Multiset.card q.factor.terms ≠ 1) {f : SFn F} (hf : SFnOk f) :
    quad_varf_tensorize order k sparse slack eig degree s q f = .throws := tensorize_at_sum k hq hp hf

/-! ## The hypotheses can be met -/

/-- Factors for the examples: `(s, c)` is the sum of `c` and the coordinates in `s`. -/
noncomputable local instance interp70 : Interp ℝ where
  val s c x := c + ∑ d ∈ s, x d
  val_local s c x y h := by rw [Finset.sum_congr rfl h]

noncomputable local instance decEq70 : DecidableEq ℝ := Classical.decEq ℝ

/-- Two directions of the same type `t` with the single node `x`. -/
noncomputable def quadXX (t : String) (x : ℝ) : HQuad ℝ :=
  ⟨[[x], [x]], [[1], [1]], ⟨2, [0, 1], [0, 0], diagMat [1, 1], [t, t]⟩, ⟨[0, 1], {0}⟩⟩

theorem quadXX_ok (t : String) (x : ℝ) : QuadOk (quadXX t x) where
  pos := ⟨rfl, rfl, rfl, by simp [quadXX, diagMat], rfl, by simp [quadXX]⟩
  diag := by
    intro i j r c hij h1 h2
    simp only [quadXX, diagMat, List.length_cons, List.length_nil, List.getElem?_map] at h1
    rcases i with _ | _ | i <;> simp at h1
    · subst h1
      rcases j with _ | _ | j <;> simp at h2 hij ⊢
      exact h2.symm
    · subst h1
      rcases j with _ | _ | j <;> simp at h2 hij ⊢
      exact h2.symm
  dim := rfl
  grid := ⟨by simp [quadXX], by simp [quadXX], ⟨rfl, by simp [quadXX, HQuad.do_fourier]; exact Or.symm (Classical.em _)⟩, by simp [quadXX, gridPoints, cartesian]⟩
  weights := rfl
  uniform := by intro r hr; simp [quadXX] at hr ⊢; simp [hr]
  factor := ⟨by simp [quadXX], by simp [quadXX]⟩
  factorDirs := rfl

/-- `(c + x) (c + y)`. -/
noncomputable def prod70 (c : ℝ) : SFn ℝ := ⟨[0, 1], {{({0}, c), ({1}, c)}}⟩

theorem prod70_ok (c : ℝ) : SFnOk (prod70 c) := ⟨by simp [prod70], by simp [prod70]; rintro a b (⟨rfl, rfl⟩ | ⟨rfl, rfl⟩) <;> simp⟩

theorem sizedXX (t : String) (x : ℝ) (s : IndexSet) {degree : ℕ} (h : degree ≤ 125) : Sized s (quadXX t x).position.dim (2 * degree) :=
  (usable_small s (by simp [quadXX]) (by simp [quadXX]) (by omega)).toSized

theorem subXX (t : String) (x : ℝ) {d : ℕ} (hd : d = 0 ∨ d = 1) :
    subQuad (quadXX t x) 0 [d] = ⟨[[x]], [[1]], ⟨1, [d], [0], [[1]], [t]⟩, ⟨[d], {0}⟩⟩ := by
  rcases hd with rfl | rfl <;>
    simp [subQuad, subPos, quadXX, sub, relDirs, assemble, dirData, entryOf, diagMat, subProduct]

theorem blocksXX (t : String) (x c : ℝ) {bs : List (Finset ℕ)}
    (hb : BlocksOk (quadXX t x).position.dirs.toFinset ({({0}, c), ({1}, c)} : Product ℝ) 0 bs) {b : Finset ℕ} (hbb : b ∈ bs) :
    ∃ d, (d = 0 ∨ d = 1) ∧ b = {d} ∧ blockPart ({({0}, c), ({1}, c)} : Product ℝ) b = {({d}, c)} := by
  obtain ⟨d, hd, rfl⟩ := blocks_singleton hb (by simp [quadXX]) (by simp) b hbb
  have hd' : d = 0 ∨ d = 1 := by simpa [quadXX] using hd
  refine ⟨d, hd', rfl, ?_⟩
  rcases hd' with rfl | rfl <;> simp [blockPart, Multiset.insert_eq_cons, Multiset.filter_singleton]

/-- The hypotheses of `C70_agree_partial` hold for the cube with two Fourier directions. -/
example {order : ℕ → Finset (Finset ℕ) → List (Finset ℕ)} (ho : OrderOk order) (k : ℕ) {eig : Eig} (he : EigDiag eig) (sparse : Bool) :
    ∃ A, quad_varf sparse 0 eig 2 .cube (quadXX "fourier" 0) (prod70 1) = .ok A ∧
      quad_varf_tensorize order k sparse 0 eig 2 .cube (quadXX "fourier" 0) (prod70 1) = .ok A := by
  have hfl : (quadXX "fourier" 0).do_fourier = [1, 1] := by simp [quadXX, HQuad.do_fourier]
  have hv : gridValues (quadXX "fourier" 0) (prod70 1).value = [1] := by
    simp [gridValues, quadXX, gridPoints, cartesian, prod70, SFn.value, productValue, Interp.val, gridPoint]
  refine C70_agree_partial ho k he (quadXX_ok _ _) (p := 0) rfl (usableTo_small _ (by simp [quadXX]) (by norm_num)) (sizedXX _ _ _ (by simp))
    (by rw [hfl]; exact ⟨by simp, by simp, by simp⟩) (prod70_ok 1) rfl (by simp [prod70]) ⟨?_, ?_⟩ ?_
  · rw [hfl]
    exact C35_closed _ _ _ _ rfl (by simp) (by simp) (by simp)
  · intro L2 hL2
    rw [hv, hfl]
    exact noDrop_origin L2 hL2
  · intro args hargs bs hb b hbb
    rw [prod70, Multiset.mem_singleton] at hargs
    subst hargs
    obtain ⟨d, hd, rfl, hbp⟩ := blocksXX _ _ _ hb hbb
    rw [hbp, Finset.sort_singleton, subXX _ _ hd]
    constructor
    · exact C35_closed _ _ _ _ rfl (by simp) (by simp) (by simp)
    · intro L2 hL2
      have e1 : gridValues (⟨[[0]], [[1]], ⟨1, [d], [0], [[1]], ["fourier"]⟩, ⟨[d], {0}⟩⟩ : HQuad ℝ) (productValue ({({d}, 1)} : Product ℝ)) = [1] := by
        simp [gridValues, gridPoints, cartesian, productValue, Interp.val, gridPoint]
      rw [e1]
      exact noDrop_origin_line .cube L2 hL2

/-! ## The hyperbolic cross -/

theorem hermite_at_one : ∀ k ≤ 6, Polynomial.aeval (1 : ℝ) (Polynomial.hermite k) = ([1, 1, 0, -2, -2, 6, 16] : List ℝ).getD k 0 := by
  have key : ∀ a : ℕ → ℝ, a 0 = 1 → a 1 = 1 → (∀ n, a (n + 2) = a (n + 1) - ((n : ℝ) + 1) * a n) →
      ∀ k ≤ 6, a k = ([1, 1, 0, -2, -2, 6, 16] : List ℝ).getD k 0 := by
    intro a h0 h1 hr
    have h2 : a 2 = 0 := by rw [hr 0, h0, h1]; norm_num
    have h3 : a 3 = -2 := by rw [hr 1, h1, h2]; norm_num
    have h4 : a 4 = -2 := by rw [hr 2, h2, h3]; norm_num
    have h5 : a 5 = 6 := by rw [hr 3, h3, h4]; norm_num
    have h6 : a 6 = 16 := by rw [hr 4, h4, h5]; norm_num
    intro k hk
    interval_cases k <;> simp [h0, h1, h2, h3, h4, h5, h6]
  refine key (fun k => Polynomial.aeval (1 : ℝ) (Polynomial.hermite k)) (by simp) (by simp) fun n => ?_
  beta_reduce
  rw [hermite_rec]
  simp only [map_sub, map_mul, Polynomial.aeval_X, map_add, map_natCast, map_one, one_mul]

/-- C70 fails for the crosses: directly, the entry at `((3, 0), (0, 3))` is 0, because `(3, 3)` is not in the set for degree 6; with
`tensorize`, it is the quadrature, which is not 0. -/
theorem C70_cross_false {order : ℕ → Finset (Finset ℕ) → List (Finset ℕ)} (ho : OrderOk order) (k : ℕ) {eig : Eig} (he : EigDiag eig)
    (sparse : Bool) : ∃ A B, quad_varf sparse 0 eig 3 .cross (quadXX "hermite" 1) (prod70 0) = .ok A ∧
      quad_varf_tensorize order k sparse 0 eig 3 .cross (quadXX "hermite" 1) (prod70 0) = .ok B ∧
      Entry A [3, 0] [0, 3] 0 ∧ Entry B [3, 0] [0, 3] (2 / 3) := by
  have hfl : (quadXX "hermite" 1).do_fourier = [0, 0] := by simp [quadXX, HQuad.do_fourier]
  have hds : DegreeOk 0 .cross 3 (quadXX "hermite" 1).do_fourier := by rw [hfl]; exact ⟨by simp, by simp, by simp⟩
  have hi30 : InSet .cross 2 3 [3, 0] := ⟨rfl, by simp⟩
  have hi03 : InSet .cross 2 3 [0, 3] := ⟨rfl, by simp⟩
  obtain ⟨L, hL⟩ := iterOk_exists (usable_small .cross (dim := 2) (degree := 3) (by simp) (by simp) (by simp)).toSized.fits'
  obtain ⟨L2, hL2⟩ := iterOk_exists (usable_small .cross (dim := 2) (degree := 6) (by simp) (by simp) (by simp)).toSized.fits'
  obtain ⟨-, hA⟩ := form_of_entries (F := ℝ) (sparse := sparse) (fun I J => keptForm (quadXX "hermite" 1) L2 (prod70 0).value I J) (quadXX_ok "hermite" 1).pos
    (quadXX_ok "hermite" 1).dirs_ne (degree := 3) (factor := (quadXX "hermite" 1).factor) (usable_small _ (by simp [quadXX]) (by simp [quadXX]) (by norm_num)) hL
  have hA := hA [3, 0] [0, 3] hi30 hi03
  have hfull : (fcoef [[(1 : ℝ)]] [[1]] [0] [1]) = fun m => herm (m.getD 0 0) 1 := by
    funext m
    simp [fcoef, quadrature, gridPoints, gridWeights, cartesian, basis, phi]
  obtain ⟨B, eB, -, b1, b2, b3, b4, b5, hB⟩ := C70_tensorize_partial (sparse := sparse) ho k he (quadXX_ok "hermite" 1) (p := 0) rfl (usableTo_small _ (by simp [quadXX]) (by norm_num))
    (sizedXX _ _ _ (by simp)) hds (prod70_ok 0) rfl (by simp [prod70]) (by
    intro args hargs bs hb b hbb
    rw [prod70, Multiset.mem_singleton] at hargs
    subst hargs
    obtain ⟨d, hd, rfl, hbp⟩ := blocksXX _ _ _ hb hbb
    rw [hbp, Finset.sort_singleton, subXX _ _ hd]
    constructor
    · exact C35_closed _ _ _ _ rfl (by simp [HQuad.do_fourier]) (by simp) (by simp)
    · intro L2 hL2
      have e1 : gridValues (⟨[[1]], [[1]], ⟨1, [d], [0], [[1]], ["hermite"]⟩, ⟨[d], {0}⟩⟩ : HQuad ℝ) (productValue ({({d}, 0)} : Product ℝ)) = [1] := by
        simp [gridValues, gridPoints, cartesian, productValue, Interp.val, gridPoint, entryOf]
      rw [e1]
      have hline := (IterOk.of_list (usable_small .cross (dim := 1) (degree := 6) le_rfl (by simp) (by simp)).toSized.fits' hL2).line (by simp)
      obtain hval : ∀ m ∈ L2, ∃ k ≤ 6, fcoef [[(1 : ℝ)]] [[1]] [0] [1] m = ([1, 1, 0, -2, -2, 6, 16] : List ℝ).getD k 0 / √((k.factorial : ℕ) : ℝ) := by
        intro m hm
        rw [hline, List.mem_map] at hm
        obtain ⟨k, hk, rfl⟩ := hm
        have hk6 : k ≤ 6 := by have := List.mem_range.1 hk; omega
        refine ⟨k, hk6, ?_⟩
        rw [hfull, ← hermite_at_one k hk6]
        simp [herm]
      have hb : ∀ m ∈ L2, |fcoef [[(1 : ℝ)]] [[1]] [0] [1] m| ≤ 1 := by
        intro m hm
        obtain ⟨k, hk, e⟩ := hval m hm
        have hp : (0 : ℝ) < √((k.factorial : ℕ) : ℝ) := by positivity
        rw [e, abs_div, abs_of_pos hp, div_le_one hp]
        apply Real.le_sqrt_of_sq_le
        interval_cases k <;> norm_num [Nat.factorial]
      intro m hm
      obtain ⟨k, hk, e⟩ := hval m hm
      by_cases h2 : k = 2
      · left
        subst h2
        exact e.trans (by simp)
      · right
        refine (dropTol_le hb (by rw [hline]; simp)).trans ?_
        refine le_of_le_of_eq ?_ (congrArg abs e.symm)
        have hp : (0 : ℝ) < √((k.factorial : ℕ) : ℝ) := by positivity
        have hp' : √((k.factorial : ℕ) : ℝ) ≤ 720 := by
          apply Real.sqrt_le_iff.2
          refine ⟨by norm_num, ?_⟩
          interval_cases k <;> norm_num [Nat.factorial]
        have h1 : (1 : ℝ) ≤ |([1, 1, 0, -2, -2, 6, 16] : List ℝ).getD k 0| := by
          interval_cases k <;> simp at h2 ⊢
        rw [abs_div, abs_of_pos hp, le_div_iff₀ hp]
        linarith)
  refine ⟨_, B, quad_varf_ok he (quadXX_ok "hermite" 1) (usableTo_small _ (by simp [quadXX]) (by norm_num)) (sizedXX _ _ _ (by simp)) hds hL hL2 rfl (prod70_ok 0).vars, eB, ?_, ?_⟩
  · convert hA using 1
    symm
    rw [keptForm]
    apply Finset.sum_eq_zero
    intro t ht
    have hm : L2.getD t [] ∈ L2 := by simp [Finset.mem_range.1 ht]
    have hms := (hL2.mem _).1 hm
    have hml := inSet_length hms
    by_cases h0 : tripleProd 2 [0, 0] (L2.getD t []) [3, 0] [0, 3] = 0
    · rw [hfl]
      exact mul_eq_zero_of_right _ h0
    · exfalso
      obtain ⟨a, b, hab⟩ : ∃ a b, L2.getD t [] = [a, b] := by
        match L2.getD t [], hml with
        | [a, b], _ => exact ⟨a, b, rfl⟩
      rw [hab] at h0 hms
      obtain ⟨ha, hb⟩ := tripleProd_axes h0
      rw [ha, hb] at hms
      have hp : ([3, 3].map (max 1)).prod ≤ max 1 6 := hms.2
      simp at hp
  · convert hB [3, 0] [0, 3] hi30 hi03 using 1
    have h3 : herm 3 1 = -2 / √6 := by
      have := hermite_at_one 3 (by simp)
      simp only [herm]
      rw [this]
      simp [Nat.factorial]
    rw [formEntry, hfl]
    have h1 : (prod70 0).value (gridPoint (quadXX "hermite" 1).position [1, 1]) = 1 := by
      simp [quadXX, prod70, SFn.value, productValue, Interp.val, gridPoint, entryOf, diagMat]
    refine Eq.symm ((quadrature_point 1 1 _).trans ?_)
    refine (congrArg₂ (· * ·) h1 rfl).trans ?_
    show 1 * (basis 2 [0, 0] [3, 0] [1, 1] * basis 2 [0, 0] [0, 3] [1, 1]) = _
    rw [basis_two, basis_two]
    simp [phi, herm_zero, h3]
    rw [div_mul_div_comm, Real.mul_self_sqrt (by norm_num)]
    norm_num

end Hermipy.Props
