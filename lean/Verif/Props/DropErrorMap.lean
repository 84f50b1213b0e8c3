import Verif.Props.DiscretizeMap
import Verif.Props.DropError

/-! # C98: `Quad.discretize_op` with a factor when small coefficients are dropped -/

namespace Hermipy.Props
open Hermipy Hermipy.Spec
variable {F : Type} [Interp F] [DecidableEq F] {K : Type} [CommRing K] [Algebra ℚ K] [DecidableEq K] {D : ℕ → K → K} {ev : K →+* ((ℕ → ℝ) → ℝ)}

/-- C98: `discretize_op` with the factor `g` of the quadrature, without `tensorize`. The coefficients that may be dropped are those of the operator
`R u = L (g u) / g`; the entry at `(I, J)` is the quadrature of `φ_I L (g φ_J) / g` up to the sum of the errors of the derivatives in `R`. -/
theorem C98_mapped (h : Partials D) (hD : ∀ d c, ev (D d c) = pd d (ev c)) {inv : K → K} (free : K → Finset ℕ) {sparse : Bool}
    {slack : ℕ} {eig : Eig} (he : EigDiag eig) {q : HQuad F} (hq : QuadOk q) (hvar : VarPos q.position) (hdep : ∀ v, DependsOn D q.position.dirs v)
    {g : K} (hg : ev g = q.factor.value) (hi : g * inv g = 1) {s : IndexSet} {degree : ℕ} (hU : UsableTo s q.position.dim degree)
    (hz2 : Sized s q.position.dim (2 * degree)) (hds : DegreeOk slack s degree q.do_fourier) {fn : K → SFn F}
    (hfn : ∀ c, SFnOk (fn c) ∧ (fn c).dirs = q.position.dirs) (hev : ∀ c, (fn c).value = ev c) {vars : List K}
    (hvars : vars.length = q.position.dim) {A : HOp K} (hA : Normal A.dirs A.terms) (hd : A.dirs = q.position.dirs)
    (h5 : ∀ t ∈ A.terms, t.index.sum ≤ 5) (hb : ∀ J, ∃ b, ev b = coordBasis q.position q.do_fourier J)
    (hcl : Closed s q.nodes.length degree q.do_fourier)
    (hdc : ∀ m, m.length = q.position.dim → inv g * productCoeff D q.position.dirs A.terms g m ≠ 0 →
      DiffClosed s degree q (orderDirs q.position.dirs m)) {L2 : List (List ℕ)} (hL2 : s.s_list q.position.dim (2 * degree) = .ok L2) :
    ∃ (V : HVarf (SFn F)) (M : Finset (List ℕ)),
      quad_discretize_op D inv free vars (quad_varf sparse slack eig degree s q) (fun f ds => quad_varfd sparse slack eig degree s ds q f)
        fn q g (.op A) = .ok V ∧ VarfOk V ∧ V.is_sparse = sparse ∧ V.position = q.position ∧ V.factor = q.factor ∧ V.index_set = s ∧
      SameSets s V.degree degree ∧
      (∀ m, m ∈ M ↔ m.length = q.position.dim ∧ inv g * productCoeff D q.position.dirs A.terms g m ≠ 0) ∧
      ∀ I J, InSet s q.position.dim degree I → InSet s q.position.dim degree J →
        ∃ (x : ℝ) (c : List ℕ → ℝ) (J' : List ℕ → List ℕ), Entry V I J x ∧
          (∀ m ∈ M, InSet s q.position.dim degree (J' m) ∧ Derives q (orderDirs q.position.dirs m) J (c m) (J' m)) ∧
          |x - mappedEntry q q.factor.value ev A.terms I J| ≤
            ∑ m ∈ M, |c m| * dropBound q L2 (ev (inv g * productCoeff D q.position.dirs A.terms g m)) I (J' m) := by
  obtain ⟨R, e, hRd, hN, hR5, hc, hent⟩ := mapFactor_ok h hD free hq hdep hg hi hA hd h5
  have hdim : q.position.dirs.length = q.position.dim := hq.pos.dirs
  have hlen : ∀ m, coeffAt R.terms m ≠ 0 → m.length = q.position.dirs.length := by
    intro m hm
    obtain ⟨t, ht, rfl⟩ := List.mem_map.1 (coeffAt_index hm)
    rw [hN.wide t ht, hRd]
  obtain ⟨V, e2, v1, v2, v3, v4, v5, v6, v7⟩ := C98_op (K := K) (F := F) (sparse := sparse) he hq hvar hU hz2 hds hfn
    (ev := ev.toAddMonoidHom) hev hvars (T := R.terms) hN.nonzero (by rw [← hdim, ← hRd]; exact hN.wide) hR5 hcl (by
      intro m hm
      have hl := hlen m hm
      rw [hc m hl] at hm
      exact hdc m (hl.trans hdim) hm) hL2
  refine ⟨V, ordersOf R.terms, ?_, v1, v2, v3, v4, v5, v6, fun m => ?_, fun I J hI hJ => ?_⟩
  · rw [quad_discretize_op, toOp, Out.ok_bind, e, Out.ok_bind, hRd]
    exact e2
  · rw [ordersOf, Finset.mem_filter, List.mem_toFinset]
    constructor
    · rintro ⟨-, hm⟩
      have hl := hlen m hm
      rw [hc m hl] at hm
      exact ⟨hl.trans hdim, hm⟩
    · rintro ⟨hl, hm⟩
      rw [← hc m (hl.trans hdim.symm)] at hm
      exact ⟨coeffAt_index hm, hm⟩
  · obtain ⟨x, c, J', h2, h3, h4⟩ := v7 I J hI hJ
    refine ⟨x, c, J', h2, h3, ?_⟩
    rw [← hent J (hb J)]
    refine h4.trans_eq (Finset.sum_congr rfl fun m hm => ?_)
    rw [hc m (hlen m (Finset.mem_filter.1 hm).2)]
    rfl

/-! ## The hypotheses can be met -/

/-- The operator `c ∂` for any `c ≠ 0`, with the factor `e^x`: the bound holds, also for `c` so small that all coefficients are dropped. -/
example {eig : Eig} (he : EigDiag eig) (sparse : Bool) {c : ℝ} (hc : c ≠ 0) :
    let _ := Smooth.interp [0]
    ∃ V L2 M, quad_discretize_op (Smooth.D [0]) Smooth.inv (fun _ => ∅) (List.ofFn Smooth.coord) (quad_varf sparse 0 eig 2 .triangle quadExp)
        (fun f ds => quad_varfd sparse 0 eig 2 .triangle ds quadExp f) (Smooth.fn [0]) quadExp expS (.op ⟨[0], [⟨Smooth.const c, [1]⟩]⟩) = .ok V ∧
      IndexSet.triangle.s_list 1 4 = .ok L2 ∧
      ∀ I J, InSet .triangle 1 2 I → InSet .triangle 1 2 J → ∃ (x : ℝ) (a : List ℕ → ℝ) (J' : List ℕ → List ℕ), Entry V I J x ∧
        |x - mappedEntry quadExp quadExp.factor.value (Smooth.ev [0]) [⟨Smooth.const c, [1]⟩] I J| ≤ ∑ m ∈ M, |a m| *
          dropBound quadExp L2 (Smooth.ev [0] (Smooth.inv expS * productCoeff (Smooth.D [0]) [0] [⟨Smooth.const c, [1]⟩] expS m)) I (J' m) := by
  intro inst
  have hfl : quadExp.do_fourier = [1] := by simp [quadExp, HQuad.do_fourier]
  have hcl : Closed .triangle 1 2 [1] := C35_closed _ _ _ _ rfl (by simp) (by simp) (by simp)
  have hsz : Sized .triangle quadExp.position.dim (2 * 2) := (usable_small _ (by simp [quadExp]) (by simp [quadExp]) (by omega)).toSized
  obtain ⟨L2, hL2⟩ := iterOk_exists hsz.fits'
  have hne : (Smooth.const c : Smooth [0].length) ≠ 0 := fun h => hc (congrFun (congrArg (Smooth.ev [0]) h) 0)
  obtain ⟨V, M, e, -, -, -, -, -, -, -, h⟩ := C98_mapped (F := Smooth [0].length) (Smooth.partials_ok [0]) (Smooth.ev_D (by simp)) (fun _ => ∅) (sparse := sparse)
    (slack := 0) he quadExp_ok (by intro i hi; simp [quadExp] at hi; subst hi; simp [quadExp, entryOf]) (fun v => Smooth.depends [0] v) (g := expS)
    (inv := Smooth.inv) (Smooth.fn_value [0] expS).symm (Smooth.mul_inv expS_ne) (s := .triangle) (degree := 2)
    (usableTo_small _ (by simp [quadExp]) (by norm_num)) hsz (by rw [hfl]; exact ⟨by simp, by simp, by simp⟩) (fn := Smooth.fn [0])
    (fun c => ⟨⟨by simp [Smooth.fn], fun p hp a ha d hd => by
      rw [Smooth.fn, Multiset.mem_singleton] at hp
      rw [hp, Multiset.mem_singleton] at ha
      rw [ha] at hd
      exact List.mem_toFinset.1 hd⟩, rfl⟩) (fun c => Smooth.fn_value [0] c) (vars := List.ofFn Smooth.coord) List.length_ofFn
    (A := ⟨[0], [⟨Smooth.const c, [1]⟩]⟩) ⟨by simp, by simpa using hne, by simp⟩ rfl (by simp) (coordBasis_smooth quadExp_ok.pos rfl _) (by rw [hfl]; exact hcl)
    (fun m _ _ d _ _ _ => C40_closed _ _ _ _ rfl (by simp [quadExp]) (by simp [quadExp])) hL2.list
  refine ⟨V, L2, M, e, hL2.list, fun I J hI hJ => ?_⟩
  obtain ⟨x, a, J', h2, -, h3⟩ := h I J hI hJ
  exact ⟨x, a, J', h2, h3⟩

end Hermipy.Props
