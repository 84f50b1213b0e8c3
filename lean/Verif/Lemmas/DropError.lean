import Verif.Spec.DropError
import Verif.Lemmas.DiscretizeOp

/-! # Forms when small coefficients are dropped -/

namespace Hermipy
open Spec
variable {F : Type}

theorem keptForm_close {slack : ℕ} {s : IndexSet} {degree : ℕ} {q : HQuad F} (h : FormOk slack s degree q.nodes q.weights q.do_fourier)
    (hcl : Closed s q.nodes.length degree q.do_fourier) (v : (ℕ → ℝ) → ℝ) {L2 : List (List ℕ)} (hL2 : IterOk s q.nodes.length (2 * degree) L2)
    {I J : List ℕ} (hI : InSet s q.nodes.length degree I) (hJ : InSet s q.nodes.length degree J) :
    |keptForm q L2 v I J - formEntry q v I J| ≤ dropBound q L2 v I J := by
  have e : formEntry q v I J = quadrature q.nodes q.weights fun k p => (gridValues q v).getD k 0 *
      (basis q.nodes.length q.do_fourier I p * basis q.nodes.length q.do_fourier J p) := by
    apply quadrature_congr
    intro k p hk
    simp [gridValues, hk]
  rw [e]
  simp only [basis_mul h.degree.cross hcl hL2 hI hJ]
  rw [quadrature_comb q.do_fourier (gridValues q v) L2 fun m => tripleProd q.nodes.length q.do_fourier m I J, keptForm, dropBound,
    ← Finset.sum_sub_distrib, Finset.mul_sum]
  refine (Finset.abs_sum_le_sum_abs _ _).trans (Finset.sum_le_sum fun t _ => ?_)
  rw [← sub_mul, abs_mul]
  exact mul_le_mul_of_nonneg_right (kept_error L2 _ _) (abs_nonneg _)

/-- When all coefficients are below the tolerance, nothing is left. -/
theorem keptForm_small (q : HQuad F) {L2 : List (List ℕ)} {v : (ℕ → ℝ) → ℝ}
    (h : ∀ m ∈ L2, |fcoef q.nodes q.weights q.do_fourier (gridValues q v) m| < 1 / 10 ^ 12) (I J : List ℕ) : keptForm q L2 v I J = 0 := by
  rw [keptForm]
  apply Finset.sum_eq_zero
  intro t ht
  have ht' : L2.getD t [] ∈ L2 := by simp [Finset.mem_range.1 ht]
  have h1 : (1 / 10 ^ 12 : ℝ) ≤ dropTol L2 (fcoef q.nodes q.weights q.do_fourier (gridValues q v)) := by
    rw [dropTol]
    exact le_mul_of_one_le_right (by positivity) (le_max_left _ _)
  rw [kept, if_pos ((h _ ht').trans_le h1), zero_mul]

/-- Several derivatives: one factor and one index. -/
theorem qSteps_one {q : HQuad F} (hp : PosOk q.position) {s : IndexSet} {degree : ℕ} : ∀ (ds : List ℕ), (∀ d ∈ ds, d ∈ q.position.dirs) →
    (∀ d ∈ ds, DClosed s q.position.dim degree q.do_fourier (q.position.dirs.idxOf d)) → ∀ J, InSet s q.position.dim degree J →
    ∃ (c : ℝ) (J' : List ℕ), InSet s q.position.dim degree J' ∧ (∀ E : List ℕ → ℝ, ds.foldl (qStep q) E J = c * E J') ∧ Derives q ds J c J'
  | [], _, _, J, hJ => ⟨1, J, hJ, fun E => by simp, by simp [Derives, pds]⟩
  | d :: ds, hd, hc, J, hJ => by
    obtain ⟨c, J', hJ', hE, hD⟩ := qSteps_one hp ds (fun x hx => hd x (by simp [hx])) (fun x hx => hc x (by simp [hx])) J hJ
    refine ⟨c * (dCoef (q.do_fourier.getD (q.position.dirs.idxOf d) 0) (q.position.dirs.idxOf d) J' *
      (1 / √(entryOf q.position.cov (q.position.dirs.idxOf d) (q.position.dirs.idxOf d)))), _, dIdx_mem (hc d (by simp)) hJ', fun E => ?_, ?_⟩
    · rw [List.foldl_cons, hE, qStep, dStep]
      ring
    · unfold Derives at hD ⊢
      show pd d (pds ds _) = _
      rw [hD, pd_const_mul, pd_coordBasis hp (inSet_length hJ') (hd d (by simp))]
      funext x
      ring

section
variable [Interp F] [DecidableEq F] {K : Type} [CommRing K] [Algebra ℚ K] [DecidableEq K]

/-- `discretize_op` adds the forms of the orders, whatever they are. -/
theorem discretize_op_parts {varf : SFn F → Out (HVarf (SFn F))} {varfd : SFn F → List ℕ → Out (HVarf (SFn F))} {fn : K → SFn F} {q : HQuad F}
    (hq : QuadOk q) {sparse : Bool} {s : IndexSet} {degree : ℕ} (hU : UsableTo s q.position.dim degree) {L : List (List ℕ)}
    (hL : IterOk s q.position.dim degree L) {vars : List K} (hvars : vars.length = q.position.dim) {T : List (OpTerm K)}
    (hc : ∀ t ∈ T, t.coeff ≠ 0) (hl : ∀ t ∈ T, t.index.length = q.position.dim) (h5 : ∀ t ∈ T, t.index.sum ≤ 5)
    {G : List ℕ → List ℕ → List ℕ → ℝ}
    (hvarf : (∀ m, coeffAt T m = 0) → varf (fn 0) = .ok ⟨sparse, L.map fun _ => L.map fun _ => 0, q.position, recDegree s degree, q.factor, s⟩)
    (hvarfd : ∀ m, coeffAt T m ≠ 0 → varfd (fn (coeffAt T m)) (orderDirs q.position.dirs m) = .ok ⟨sparse, L.map fun I => L.map fun J => G m I J,
      q.position, recDegree s degree, q.factor, s⟩) :
    discretize_op varf varfd fn q q.position.dirs (Props.argsOf vars T) = .ok ⟨sparse, L.map fun I => L.map fun J => ∑ m ∈ ordersOf T, G m I J,
      q.position, recDegree s degree, q.factor, s⟩ := by
  have h1 : 1 ≤ q.position.dim := Nat.one_le_iff_ne_zero.2 (PosOk.dim_pos hq.pos hq.dirs_ne)
  obtain ⟨D, eD, hn, hD, -⟩ := Props.C59_split vars T hc (by rw [hvars]; exact hl) h5
  have hlen : q.position.dirs.length = vars.length := by rw [hvars, hq.pos.dirs]
  have hsum : ∀ I J, (D.map fun e => G e.1 I J).sum = ∑ m ∈ ordersOf T, G m I J := by
    intro I J
    have e1 : ordersOf T = (D.map Prod.fst).toFinset := by
      ext m
      simp only [ordersOf, Finset.mem_filter, List.mem_toFinset]
      constructor
      · rintro ⟨-, h⟩
        exact List.mem_map.2 ⟨(m, coeffAt T m), (hD _ _).2 ⟨rfl, h⟩, rfl⟩
      · intro h
        obtain ⟨e, he, rfl⟩ := List.mem_map.1 h
        obtain ⟨h2, h3⟩ := (hD e.1 e.2).1 he
        rw [h2] at h3
        exact ⟨coeffAt_index h3, h3⟩
    rw [e1, List.sum_toFinset _ hn, List.map_map]
    rfl
  have hpart : ∀ e ∈ D, varfd (fn e.2) (dVector q.position.dirs e.1) = .ok ⟨sparse, L.map fun I => L.map fun J =>
      G e.1 I J, q.position, recDegree s degree, q.factor, s⟩ := by
    intro e he
    obtain ⟨h2, h3⟩ := (hD e.1 e.2).1 he
    rw [dVector_eq, h2]
    exact hvarfd e.1 (h2 ▸ h3)
  have hfold : ∀ (l : List (List ℕ × K)), (∀ e ∈ l, e ∈ D) → ∀ (v : List ℕ → List ℕ → ℝ),
      l.foldlM (fun acc e => do
        let part ← varfd (fn e.2) (dVector q.position.dirs e.1)
        varf_add acc part) ⟨sparse, L.map fun m => L.map fun n => v m n, q.position, recDegree s degree, q.factor, s⟩ =
      .ok ⟨sparse, L.map fun I => L.map fun J => v I J + (l.map fun e => G e.1 I J).sum,
        q.position, recDegree s degree, q.factor, s⟩ := by
    intro l
    induction l with
    | nil => intro _ v; simp [pure]
    | cons a l ih =>
      intro hl v
      rw [List.foldlM_cons, hpart a (hl a (by simp)), Out.ok_bind, varf_add_small (hU _ h1 le_rfl) hL, Out.ok_bind, ih fun e he => hl e (by simp [he])]
      simp only [List.map_cons, List.sum_cons, add_assoc]
  rw [discretize_op, if_neg (by simp), hlen, eD, Out.ok_bind]
  cases D with
  | nil =>
    have h0 : ∀ m, coeffAt T m = 0 := by
      intro m
      by_contra h0
      exact absurd ((hD m _).2 ⟨rfl, h0⟩) (by simp)
    dsimp only
    rw [hvarf h0]
    congr 2
    apply List.map_congr_left
    intro I _
    apply List.map_congr_left
    intro J _
    rw [← hsum]
    rfl
  | cons e D =>
    dsimp only
    rw [hpart e (by simp), Out.ok_bind, varf_add_scalar, if_neg (by simp), mkVarf_small (hU _ h1 le_rfl) hL (by simp), Out.ok_bind]
    have e0 : ((L.map fun I => L.map fun J => G e.1 I J).map fun r => r.map (· + 0)) = L.map fun I => L.map fun J => G e.1 I J := by simp
    dsimp only
    rw [e0, hfold D (fun e' he' => by simp [he'])]
    congr 2
    apply List.map_congr_left
    intro I _
    apply List.map_congr_left
    intro J _
    rw [← hsum, List.map_cons, List.sum_cons]

/-- The exact entry as a sum over the orders. -/
theorem opEntry_orders (q : HQuad F) (ev : K →+ ((ℕ → ℝ) → ℝ)) {vars : List K} {T : List (OpTerm K)} (hc : ∀ t ∈ T, t.coeff ≠ 0)
    (hl : ∀ t ∈ T, t.index.length = vars.length) (h5 : ∀ t ∈ T, t.index.sum ≤ 5) (I J : List ℕ) :
    opEntry q ev T I J = ∑ m ∈ ordersOf T, dformEntry q (ev (coeffAt T m)) (orderDirs q.position.dirs m) I J := by
  obtain ⟨D, -, hn, hD, -⟩ := Props.C59_split vars T hc hl h5
  have e1 : ordersOf T = (D.map Prod.fst).toFinset := by
    ext m
    simp only [ordersOf, Finset.mem_filter, List.mem_toFinset]
    constructor
    · rintro ⟨-, h⟩
      exact List.mem_map.2 ⟨(m, coeffAt T m), (hD _ _).2 ⟨rfl, h⟩, rfl⟩
    · intro h
      obtain ⟨e, he, rfl⟩ := List.mem_map.1 h
      obtain ⟨h2, h3⟩ := (hD e.1 e.2).1 he
      rw [h2] at h3
      exact ⟨coeffAt_index h3, h3⟩
  have h := dict_sum hn hD fun m => (⟨⟨fun c => dformEntry q (ev c) (orderDirs q.position.dirs m) I J, by
      rw [map_zero]; exact dformEntry_zero q _ I J⟩, by
      intro a b
      beta_reduce
      show dformEntry q (ev (a + b)) (orderDirs q.position.dirs m) I J = _
      rw [map_add]
      exact dformEntry_add q _ _ _ I J⟩ : K →+ ℝ)
  rw [opEntry_terms, e1, List.sum_toFinset _ hn, List.map_map]
  refine Eq.trans h.symm ?_
  congr 1
  apply List.map_congr_left
  intro e he
  obtain ⟨h2, -⟩ := (hD e.1 e.2).1 he
  show dformEntry q (ev e.2) _ I J = dformEntry q (ev (coeffAt T e.1)) _ I J
  rw [h2]

end

end Hermipy
