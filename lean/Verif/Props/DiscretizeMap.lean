import Verif.Model.DiscretizeMap
import Verif.Props.OperatorAlgebra
import Verif.Props.DiscretizeOp
import Mathlib.Analysis.Calculus.ContDiff.Polynomial

/-! # C76: operators and the factor of a quadrature -/

namespace Hermipy.Props
open Hermipy Hermipy.Spec

section
variable {K : Type} [CommRing K] {D : ℕ → K → K} {ev : K →+* ((ℕ → ℝ) → ℝ)}

theorem pd_iter (hD : ∀ d c, ev (D d c) = pd d (ev c)) (d : ℕ) (u : K) : ∀ n, (List.replicate n d).foldr pd (ev u) = ev ((D d)^[n] u)
  | 0 => rfl
  | n + 1 => by rw [List.replicate_succ, List.foldr_cons, pd_iter hD d u n, Function.iterate_succ_apply', hD]

theorem pds_partials (hD : ∀ d c, ev (D d c) = pd d (ev c)) (u : K) : ∀ dirs a : List ℕ,
    pds (orderDirs dirs a) (ev u) = ev (partials D dirs a u)
  | [], [] => rfl
  | [], _ :: _ => rfl
  | _ :: _, [] => rfl
  | d :: dirs, a :: as => by
    have ih := pds_partials hD u dirs as
    rw [pds] at ih ⊢
    rw [show orderDirs (d :: dirs) (a :: as) = List.replicate a d ++ orderDirs dirs as from rfl, List.foldr_append, ih, pd_iter hD, partials]

theorem opApply_acts (hD : ∀ d c, ev (D d c) = pd d (ev c)) (dirs : List ℕ) (T : List (OpTerm K)) (u : K) (x : ℕ → ℝ) :
    opApply ev dirs T (ev u) x = ev (acts D dirs T u) x := by
  rw [opApply]
  induction T with
  | nil => simp [acts_nil]
  | cons t T ih => rw [List.map_cons, List.sum_cons, ih, acts_cons, map_add, map_mul, pds_partials hD]; rfl

/-- **C76.** In terms of functions of the coordinates, where `ev` maps an expression to the function it stands for: `map` with a factor that
does not vanish acts as `φ ↦ L (g φ) / g`. -/
theorem C76_map_value [DecidableEq K] (h : Partials D) (hD : ∀ d c, ev (D d c) = pd d (ev c)) {inv : K → K} {free : K → Finset ℕ} {A R : HOp K}
    (hA : Normal A.dirs A.terms) {g : K} (hi : g * inv g = 1) (hR : op_map D inv free A (.fn ⟨g, A.dirs⟩) = .ok R) {u : K}
    (hu : DependsOn D A.dirs u) (x : ℕ → ℝ) :
    opApply ev R.dirs R.terms (ev u) x = opApply ev A.dirs A.terms (fun y => ev g y * ev u y) x / ev g x := by
  have hx : ev g x * ev (inv g) x = 1 := by
    have := congrFun (congrArg ev hi) x
    rwa [map_mul, map_one] at this
  have hg : g ≠ 0 := by
    rintro rfl
    rw [map_zero, Pi.zero_apply, zero_mul] at hx
    exact zero_ne_one hx
  obtain ⟨R', e, -, -, -, ha⟩ := C76_map h (inv := inv) (free := free) hA hg (Or.inl rfl)
  obtain rfl := Out.ok.inj (e.symm.trans hR)
  rw [opApply_acts hD, ha u hu, show (fun y => ev g y * ev u y) = ev (g * u) by rw [map_mul]; rfl, opApply_acts hD, map_mul, Pi.mul_apply,
    eq_div_iff (left_ne_zero_of_mul_eq_one hx)]
  linear_combination (ev (acts D A.dirs A.terms (g * u)) x) * hx

theorem leibniz_one (h : Partials D) : ∀ {dirs a m : List ℕ}, a.length = dirs.length → m.length = dirs.length →
    leibniz D (1 : K) dirs a m = if a = m then 1 else 0
  | [], [], [], _, _ => by simp [leibniz]
  | d :: dirs, a :: as, m :: ms, ha, hm => by
    have h1 : D d 1 = 0 := by
      have := h.mul d 1 1
      simpa using this
    have hit : ∀ n, 0 < n → (D d)^[n] (if as = ms then (1 : K) else 0) = 0 := by
      intro n hn
      obtain ⟨k, rfl⟩ := Nat.exists_eq_succ_of_ne_zero hn.ne'
      have : ∀ k, (D d)^[k] (0 : K) = 0 := fun k => by
        induction k with
        | zero => rfl
        | succ k ihk => rw [Function.iterate_succ_apply', ihk, h.zero]
      rw [Function.iterate_succ_apply]
      split
      · rw [h1, this]
      · rw [h.zero, this]
    rw [leibniz, leibniz_one h (by simpa using ha) (by simpa using hm)]
    rcases lt_trichotomy a m with hlt | rfl | hlt
    · rw [Nat.choose_eq_zero_of_lt hlt, Nat.cast_zero, zero_mul, if_neg]
      intro e
      have := (List.cons.inj e).1
      omega
    · simp
    · rw [hit _ (by omega), mul_zero, if_neg]
      intro e
      have := (List.cons.inj e).1
      omega
  | [], [], _ :: _, _, hm => by simp at hm
  | [], _ :: _, _, ha, _ => by simp at ha
  | _ :: _, [], _, ha, _ => by simp at ha
  | _ :: _, _ :: _, [], _, hm => by simp at hm

theorem productCoeff_one (h : Partials D) {dirs : List ℕ} : ∀ {T : List (OpTerm K)}, (∀ t ∈ T, t.index.length = dirs.length) → ∀ {m : List ℕ},
    m.length = dirs.length → productCoeff D dirs T 1 m = coeffAt T m
  | [], _, _, _ => rfl
  | t :: T, hw, m, hm => by
    have ih := productCoeff_one h (T := T) (fun s hs => hw s (List.mem_cons_of_mem _ hs)) hm
    rw [productCoeff] at ih
    rw [productCoeff, List.map_cons, List.sum_cons, ih, coeffAt_cons, leibniz_one h (hw t (by simp)) hm]
    split <;> ring

end

variable {F : Type} [Interp F] [DecidableEq F] {K : Type} [CommRing K] [Algebra ℚ K] [DecidableEq K] {D : ℕ → K → K} {ev : K →+* ((ℕ → ℝ) → ℝ)}

omit [Algebra ℚ K] in
/-- What `mapFactor` returns. -/
theorem mapFactor_ok (h : Partials D) (hD : ∀ d c, ev (D d c) = pd d (ev c)) {inv : K → K} (free : K → Finset ℕ) {q : HQuad F} (hq : QuadOk q)
    (hdep : ∀ v, DependsOn D q.position.dirs v) {g : K} (hg : ev g = q.factor.value) (hi : g * inv g = 1) {A : HOp K}
    (hA : Normal A.dirs A.terms) (hd : A.dirs = q.position.dirs) {n : ℕ} (h5 : ∀ t ∈ A.terms, t.index.sum ≤ n) :
    ∃ R, mapFactor D inv free q g A = .ok R ∧ R.dirs = q.position.dirs ∧ Normal R.dirs R.terms ∧ (∀ t ∈ R.terms, t.index.sum ≤ n) ∧
      (∀ m, m.length = q.position.dirs.length → coeffAt R.terms m = inv g * productCoeff D q.position.dirs A.terms g m) ∧
      ∀ J, (∃ b, ev b = coordBasis q.position q.do_fourier J) → ∀ I, opEntry q ev R.terms I J = mappedEntry q q.factor.value ev A.terms I J := by
  have hn : A.dirs.Nodup := by
    have := hq.factor.sorted
    rw [hq.factorDirs, ← hd] at this
    exact this.imp fun h => Nat.ne_of_lt h
  by_cases h1 : g = 1
  · subst h1
    refine ⟨A, ?_, hd, hA, h5, fun m hm => ?_, fun J _ I => ?_⟩
    · rw [mapFactor, if_neg]
      simp [hq.factorDirs]
    · rw [one_mul] at hi
      rw [hi, one_mul, productCoeff_one h (hd ▸ hA.wide) hm]
    · rw [opEntry, mappedEntry, ← hg, map_one]
      simp
  · have hg0 : g ≠ 0 := by
      rintro rfl
      have := congrFun (congrArg ev hi) 0
      rw [zero_mul, map_zero, map_one] at this
      exact zero_ne_one this
    obtain ⟨R, e, hRd, hN, hc, -⟩ := C76_map h (inv := inv) (free := free) hA hg0 (Or.inl rfl)
    refine ⟨R, ?_, hRd.trans hd, hN, C76_map_order h hA hn hg0 e h5, fun m hm => ?_, fun J hb I => ?_⟩
    · rw [mapFactor, if_pos (fun hc => h1 hc.2), hq.factorDirs, ← hd, e]
    · rw [hc hn m (by rw [hd, hm]), hd]
    · obtain ⟨b, hb⟩ := hb
      rw [opEntry, mappedEntry, ← hb, ← hg]
      congr 1
      funext _ x
      have hv := C76_map_value h hD hA hi e (u := b) (hd ▸ hdep b) (gridPoint q.position x)
      rw [hRd, hd] at hv
      rw [hv]

/-- C76: `discretize_op` with the factor of the quadrature, without `tensorize`, for sizes that the library can handle and positive
variances. The expressions are functions of the variables of the quadrature, `ev` maps them to the functions they stand for, and the basis
functions are among them. `g` is the expression of the factor, and does not vanish. When the terms are of order at most 5 and the form of
each coefficient of `L (g u) / g` is exact, the entry at `(I, J)` is the quadrature of `φ_I L (g φ_J) / g`. -/
theorem C76_discretize_partial (h : Partials D) (hD : ∀ d c, ev (D d c) = pd d (ev c)) {inv : K → K} (free : K → Finset ℕ) {sparse : Bool}
    {slack : ℕ} {eig : Eig} (he : EigDiag eig) {q : HQuad F} (hq : QuadOk q) (hvar : VarPos q.position) (hdep : ∀ v, DependsOn D q.position.dirs v)
    {g : K} (hg : ev g = q.factor.value) (hi : g * inv g = 1) {s : IndexSet} {degree : ℕ} (hU : UsableTo s q.position.dim degree)
    (hz2 : Sized s q.position.dim (2 * degree)) (hds : DegreeOk slack s degree q.do_fourier) {fn : K → SFn F}
    (hfn : ∀ c, SFnOk (fn c) ∧ (fn c).dirs = q.position.dirs) (hev : ∀ c, (fn c).value = ev c) {vars : List K}
    (hvars : vars.length = q.position.dim) {A : HOp K} (hA : Normal A.dirs A.terms) (hd : A.dirs = q.position.dirs)
    (h5 : ∀ t ∈ A.terms, t.index.sum ≤ 5) (hb : ∀ J, ∃ b, ev b = coordBasis q.position q.do_fourier J)
    (hcl : Closed s q.nodes.length degree q.do_fourier)
    (hex : ∀ m, m.length = q.position.dim → inv g * productCoeff D q.position.dirs A.terms g m ≠ 0 →
      Exact s degree q (ev (inv g * productCoeff D q.position.dirs A.terms g m)) ∧ DiffClosed s degree q (orderDirs q.position.dirs m)) :
    ∃ V, quad_discretize_op D inv free vars (quad_varf sparse slack eig degree s q) (fun f ds => quad_varfd sparse slack eig degree s ds q f)
        fn q g (.op A) = .ok V ∧ VarfOk V ∧ V.is_sparse = sparse ∧ V.position = q.position ∧ V.factor = q.factor ∧ V.index_set = s ∧
      SameSets s V.degree degree ∧
      ∀ I J, InSet s q.position.dim degree I → InSet s q.position.dim degree J → Entry V I J (mappedEntry q q.factor.value ev A.terms I J) := by
  obtain ⟨R, e, hRd, hN, hR5, hc, hent⟩ := mapFactor_ok h hD free hq hdep hg hi hA hd h5
  have hdim : q.position.dirs.length = q.position.dim := hq.pos.dirs
  obtain ⟨V, e2, v1, v2, v3, v4, v5, v6, v7⟩ := C72_direct_partial (K := K) (F := F) (sparse := sparse) he hq hvar hU hz2 hds hfn
    (ev := ev.toAddMonoidHom) hev hvars (T := R.terms) hN.nonzero (by rw [← hdim, ← hRd]; exact hN.wide) hR5 hcl (by
      intro m hm
      have hl : m.length = q.position.dirs.length := by
        have := coeffAt_index hm
        obtain ⟨t, ht, rfl⟩ := List.mem_map.1 this
        rw [hN.wide t ht, hRd]
      rw [hc m hl] at hm ⊢
      exact hex m (hl.trans hdim) hm)
  refine ⟨V, ?_, v1, v2, v3, v4, v5, v6, fun I J hI hJ => ?_⟩
  · rw [quad_discretize_op, toOp, Out.ok_bind, e, Out.ok_bind, hRd]
    exact e2
  · rw [← hent J (hb J)]
    exact v7 I J hI hJ

/-- C76: the same with `tensorize`, for a factor which is one product. -/
theorem C76_discretize_tensorize_partial (h : Partials D) (hD : ∀ d c, ev (D d c) = pd d (ev c)) {inv : K → K} (free : K → Finset ℕ)
    {order : ℕ → Finset (Finset ℕ) → List (Finset ℕ)} (ho : OrderOk order) (k : ℕ) {sparse : Bool}
    {slack : ℕ} {eig : Eig} (he : EigDiag eig) {q : HQuad F} (hq : QuadOk q) (hvar : VarPos q.position) {p : Product F} (hp : q.factor.terms = {p})
    (hdep : ∀ v, DependsOn D q.position.dirs v)
    {g : K} (hg : ev g = q.factor.value) (hi : g * inv g = 1) {s : IndexSet} {degree : ℕ} (hU : UsableTo s q.position.dim degree)
    (hz2 : Sized s q.position.dim (2 * degree)) (hds : DegreeOk slack s degree q.do_fourier) {fn : K → SFn F}
    (hfn : ∀ c, SFnOk (fn c) ∧ (fn c).dirs = q.position.dirs ∧ (fn c).terms ≠ 0) (hev : ∀ c, (fn c).value = ev c) {vars : List K}
    (hvars : vars.length = q.position.dim) {A : HOp K} (hA : Normal A.dirs A.terms) (hd : A.dirs = q.position.dirs)
    (h5 : ∀ t ∈ A.terms, t.index.sum ≤ 5) (hb : ∀ J, ∃ b, ev b = coordBasis q.position q.do_fourier J)
    (hex0 : (∀ m, m.length = q.position.dim → inv g * productCoeff D q.position.dirs A.terms g m = 0) → ∀ args ∈ (fn 0).terms, ∀ bs,
      BlocksOk q.position.dirs.toFinset args p bs → ∀ b ∈ bs, Exact s degree (subQuad q p (b.sort (· ≤ ·))) (productValue (blockPart args b)))
    (hex : ∀ m, m.length = q.position.dim → inv g * productCoeff D q.position.dirs A.terms g m ≠ 0 →
      ∀ args ∈ (fn (inv g * productCoeff D q.position.dirs A.terms g m)).terms, ∀ bs, BlocksOk q.position.dirs.toFinset args p bs → ∀ b ∈ bs,
      Exact s degree (subQuad q p (b.sort (· ≤ ·))) (productValue (blockPart args b)) ∧
      DiffClosed s degree (subQuad q p (b.sort (· ≤ ·))) (orderDirs q.position.dirs m)) :
    ∃ V, quad_discretize_op D inv free vars (quad_varf_tensorize order k sparse slack eig degree s q)
        (fun f ds => quad_varfd_tensorize order k sparse slack eig degree s ds q f)
        fn q g (.op A) = .ok V ∧ VarfOk V ∧ V.is_sparse = sparse ∧ V.position = q.position ∧ V.factor = q.factor ∧ V.index_set = s ∧
      SameSets s V.degree degree ∧
      ∀ I J, InSet s q.position.dim degree I → InSet s q.position.dim degree J → Entry V I J (mappedEntry q q.factor.value ev A.terms I J) := by
  obtain ⟨R, e, hRd, hN, hR5, hc, hent⟩ := mapFactor_ok h hD free hq hdep hg hi hA hd h5
  have hdim : q.position.dirs.length = q.position.dim := hq.pos.dirs
  obtain ⟨V, e2, v1, v2, v3, v4, v5, v6, v7⟩ := C72_tensorize_partial (K := K) (F := F) (sparse := sparse) ho k he hq hvar hp hU hz2 hds hfn
    (ev := ev.toAddMonoidHom) hev hvars (T := R.terms) hN.nonzero (by rw [← hdim, ← hRd]; exact hN.wide) hR5
    (fun h0 => hex0 fun m hm => by rw [← hc m (hm.trans hdim.symm), h0]) (by
      intro m hm
      have hl : m.length = q.position.dirs.length := by
        have := coeffAt_index hm
        obtain ⟨t, ht, rfl⟩ := List.mem_map.1 this
        rw [hN.wide t ht, hRd]
      rw [hc m hl] at hm ⊢
      exact hex m (hl.trans hdim) hm)
  refine ⟨V, ?_, v1, v2, v3, v4, v5, v6, fun I J hI hJ => ?_⟩
  · rw [quad_discretize_op, toOp, Out.ok_bind, e, Out.ok_bind, hRd]
    exact e2
  · rw [← hent J (hb J)]
    exact v7 I J hI hJ

omit [Interp F] in
/-- **C76.** What `discretize_op` rejects: an expression without unknown function other than zero, and operators in directions other than those
of the quadrature. -/
theorem C76_discretize_rejects (D : ℕ → K → K) (inv : K → K) (free : K → Finset ℕ) (vars : List K) (varf : SFn F → Out (HVarf (SFn F)))
    (varfd : SFn F → List ℕ → Out (HVarf (SFn F))) (fn : K → SFn F) (q : HQuad F) (hq : q.factor.dirs = q.position.dirs) (g : K) :
    (∀ c, c ≠ 0 → quad_discretize_op D inv free vars varf varfd fn q g (.expr c) = .throws) ∧
    (∀ A : HOp K, A.dirs ≠ q.position.dirs → quad_discretize_op D inv free vars varf varfd fn q g (.op A) = .throws) := by
  refine ⟨fun c hc => ?_, fun A h => ?_⟩
  · rw [quad_discretize_op, toOp, opOfExpr, if_neg hc]
    rfl
  · rw [quad_discretize_op, toOp, Out.ok_bind, mapFactor]
    split
    · rw [((C76_rejects D inv free A).2.2.1 ⟨g, q.factor.dirs⟩ (by rw [hq]; exact Ne.symm h)).2]
      rfl
    · rw [Out.ok_bind, discretize_op, if_pos h]

/-! ## Smooth coefficients and factors -/

theorem phi_smooth (f n : ℕ) : ContDiff ℝ (⊤ : ℕ∞) (phi f n) := by
  unfold phi
  split
  · unfold trig
    split
    · exact contDiff_const
    · split
      · exact ((Real.contDiff_cos.comp (contDiff_const.mul contDiff_id)).div_const _)
      · exact ((Real.contDiff_sin.comp (contDiff_const.mul contDiff_id)).div_const _)
  · unfold herm
    exact (Polynomial.contDiff_aeval _ _).div_const _

theorem coordBasis_smooth {p : Position} (hp : PosOk p) {dirs : List ℕ} (h : p.dirs = dirs) (fourier J : List ℕ) :
    ∃ b, Smooth.ev dirs b = coordBasis p fourier J := by
  subst h
  have hs : ContDiff ℝ (⊤ : ℕ∞) fun x : Fin p.dirs.length → ℝ =>
      ∏ i : Fin p.dirs.length, phi (fourier.getD i 0) (J.getD i 0) ((x i - p.mean.getD i 0) / √(entryOf p.cov i i)) :=
    contDiff_prod fun i _ => (phi_smooth _ _).comp (((contDiff_apply ℝ ℝ i).sub contDiff_const).div_const _)
  refine ⟨⟨_, Smooth.mem_iff.2 hs⟩, ?_⟩
  funext x
  rw [coordBasis, ← hp.dirs, Finset.prod_range]
  change (∏ i : Fin p.dirs.length, phi (fourier.getD i 0) (J.getD i 0) ((x p.dirs[i] - p.mean.getD i 0) / √(entryOf p.cov i i))) = _
  refine Finset.prod_congr rfl fun i _ => ?_
  rw [List.getD_eq_getElem p.dirs _ i.2]
  rfl

end Hermipy.Props

namespace Hermipy.Smooth
open Hermipy.Spec

/-- The coordinates. -/
noncomputable def coord {n : ℕ} (i : Fin n) : Smooth n := ⟨fun x => x i, Smooth.mem_iff.2 (contDiff_apply ℝ ℝ i)⟩

/-- A smooth function of the coordinates in `dirs` as a factor of a product. -/
@[instance_reducible] noncomputable def interp (dirs : List ℕ) : Interp (Smooth dirs.length) where
  val s a x := if ∀ d ∈ dirs, d ∈ s then Smooth.ev dirs a x else 0
  val_local s a x y h := by
    split
    · rename_i hs
      change (a : (Fin dirs.length → ℝ) → ℝ) _ = (a : (Fin dirs.length → ℝ) → ℝ) _
      have e : (fun i : Fin dirs.length => x dirs[i]) = fun i : Fin dirs.length => y dirs[i] := by
        funext i
        exact h _ (hs _ (List.getElem_mem i.2))
      rw [e]
    · rfl

/-- The `Function` of a smooth function of the coordinates in `dirs`. -/
noncomputable def fn (dirs : List ℕ) (c : Smooth dirs.length) : SFn (Smooth dirs.length) := ⟨dirs, {{(dirs.toFinset, c)}}⟩

theorem fn_value (dirs : List ℕ) (c : Smooth dirs.length) : @SFn.value _ (interp dirs) (fn dirs c) = Smooth.ev dirs c := by
  funext x
  let _ := interp dirs
  rw [SFn.value, fn, Multiset.map_singleton, Multiset.sum_singleton, productValue, Multiset.map_singleton, Multiset.prod_singleton]
  exact if_pos (by simp)

end Hermipy.Smooth

namespace Hermipy.Props
open Hermipy Hermipy.Spec

/-- C76: `discretize_op` for an operator with smooth coefficients and a quadrature whose factor is smooth and has no zeros. Under the bounds
of the code and when the form of each coefficient of `L (g u) / g` is exact, the entry at `(I, J)` is the quadrature of
`φ_I L (g φ_J) / g`. -/
theorem C76_smooth_partial (dirs : List ℕ) (hs : dirs.Pairwise (· < ·)) (free : Smooth dirs.length → Finset ℕ) {sparse : Bool} {slack : ℕ} {eig : Eig} (he : EigDiag eig)
    {q : HQuad (Smooth dirs.length)} (hq : QuadOk q) (hqd : q.position.dirs = dirs) (hvar : VarPos q.position) {g : Smooth dirs.length}
    (hg : q.factor = Smooth.fn dirs g) (hg0 : ∀ x, (g : (Fin dirs.length → ℝ) → ℝ) x ≠ 0) {s : IndexSet} {degree : ℕ} (hU : UsableTo s q.position.dim degree)
    (hz2 : Sized s q.position.dim (2 * degree)) (hds : DegreeOk slack s degree q.do_fourier)
    {A : HOp (Smooth dirs.length)} (hA : Normal A.dirs A.terms) (hd : A.dirs = dirs) (h5 : ∀ t ∈ A.terms, t.index.sum ≤ 5)
    (hcl : Closed s q.nodes.length degree q.do_fourier)
    (hex : ∀ m, m.length = dirs.length → Smooth.inv g * productCoeff (Smooth.D dirs) dirs A.terms g m ≠ 0 →
      Exact s degree q (Smooth.ev dirs (Smooth.inv g * productCoeff (Smooth.D dirs) dirs A.terms g m)) ∧ DiffClosed s degree q (orderDirs dirs m)) :
    let _ := Smooth.interp dirs
    ∃ V, quad_discretize_op (Smooth.D dirs) Smooth.inv free (List.ofFn Smooth.coord) (quad_varf sparse slack eig degree s q)
        (fun f ds => quad_varfd sparse slack eig degree s ds q f) (Smooth.fn dirs) q g (.op A) = .ok V ∧ VarfOk V ∧ V.is_sparse = sparse ∧
      V.position = q.position ∧ V.factor = q.factor ∧ V.index_set = s ∧ SameSets s V.degree degree ∧
      ∀ I J, InSet s q.position.dim degree I → InSet s q.position.dim degree J →
        Entry V I J (mappedEntry q (Smooth.ev dirs g) (Smooth.ev dirs) A.terms I J) := by
  intro inst
  have hdim : dirs.length = q.position.dim := (congrArg List.length hqd).symm.trans hq.pos.dirs
  have hn : dirs.Nodup := hqd ▸ hq.pos.nodup
  have hval : Smooth.ev dirs g = q.factor.value := by rw [hg]; exact (Smooth.fn_value dirs g).symm
  rw [hval]
  exact C76_discretize_partial (Smooth.partials_ok dirs) (Smooth.ev_D hn) free he hq hvar (fun v => by rw [hqd]; exact Smooth.depends dirs v) hval
    (Smooth.mul_inv hg0) hU hz2 hds (fun c => ⟨⟨hs, fun p hp a ha d hd => by
      rw [Smooth.fn, Multiset.mem_singleton] at hp
      rw [hp, Multiset.mem_singleton] at ha
      rw [ha] at hd
      exact List.mem_toFinset.1 hd⟩, hqd.symm⟩) (fun c => Smooth.fn_value dirs c)
    (List.length_ofFn.trans hdim) hA (hd.trans hqd.symm) h5 (coordBasis_smooth hq.pos hqd q.do_fourier) hcl (fun m hm => by rw [hqd]; exact hex m (hm.trans hdim.symm))

/-! ## The hypotheses can be met -/

/-- `e^x`. -/
noncomputable def expS : Smooth [0].length := ⟨fun x => Real.exp (x 0), Smooth.mem_iff.2 (Real.contDiff_exp.comp (contDiff_apply ℝ ℝ _))⟩

/-- One Fourier direction with the node 0, and the factor `e^x`. -/
noncomputable def quadExp : HQuad (Smooth [0].length) := ⟨[[0]], [[1]], ⟨1, [0], [0], [[1]], ["fourier"]⟩, Smooth.fn [0] expS⟩

theorem quadExp_ok : QuadOk quadExp where
  pos := ⟨rfl, rfl, rfl, by simp [quadExp], rfl, by simp [quadExp]⟩
  diag := by
    intro i j r c hij h1 h2
    rcases i with _ | i <;> simp [quadExp] at h1
    subst h1
    rcases j with _ | j <;> simp at h2 hij
  dim := rfl
  grid := ⟨by simp [quadExp], by simp [quadExp], ⟨rfl, by simp [quadExp, HQuad.do_fourier]⟩, by simp [quadExp, gridPoints, cartesian]⟩
  weights := rfl
  uniform := by intro r hr; simp [quadExp] at hr ⊢; simp [hr]
  factor := ⟨by simp [quadExp, Smooth.fn], by simp [quadExp, Smooth.fn]; rintro a b c rfl - d hd; simpa using hd⟩
  factorDirs := rfl

theorem expS_ne (x : Fin [0].length → ℝ) : (expS : (Fin [0].length → ℝ) → ℝ) x ≠ 0 := (Real.exp_pos _).ne'

theorem expS_D : Smooth.D [0] 0 expS = expS := by
  have h := Smooth.ev_D (dirs := [0]) (by simp) 0 expS
  have h2 : Smooth.ev [0] expS = fun x => Real.exp (x 0) := rfl
  have h3 : Smooth.ev [0] (Smooth.D [0] 0 expS) = Smooth.ev [0] expS := by
    rw [h, h2]
    funext x
    rw [pd]
    simp
  ext x
  have := congrFun h3 fun _ => x 0
  have e : (fun i : Fin [0].length => x 0) = x := by
    funext i
    rw [Subsingleton.elim (α := Fin 1) i 0]
  change (Smooth.D [0] 0 expS : (Fin [0].length → ℝ) → ℝ) (fun i : Fin [0].length => x 0) = (expS : (Fin [0].length → ℝ) → ℝ) fun i : Fin [0].length => x 0 at this
  rwa [e] at this

/-- The derivative, with the factor `e^x`. -/
example {eig : Eig} (he : EigDiag eig) (sparse : Bool) :
    let _ := Smooth.interp [0]
    ∃ V, quad_discretize_op (Smooth.D [0]) Smooth.inv (fun _ => ∅) (List.ofFn Smooth.coord) (quad_varf sparse 0 eig 2 .triangle quadExp)
        (fun f ds => quad_varfd sparse 0 eig 2 .triangle ds quadExp f) (Smooth.fn [0]) quadExp expS (.op ⟨[0], [⟨1, [1]⟩]⟩) = .ok V ∧
      ∀ I J, InSet .triangle 1 2 I → InSet .triangle 1 2 J →
        Entry V I J (mappedEntry quadExp (Smooth.ev [0] expS) (Smooth.ev [0]) [⟨1, [1]⟩] I J) := by
  have hfl : quadExp.do_fourier = [1] := by simp [quadExp, HQuad.do_fourier]
  have hcl : Closed .triangle 1 2 [1] := C35_closed _ _ _ _ rfl (by simp) (by simp) (by simp)
  have hc : ∀ m : List ℕ, m.length = 1 → productCoeff (Smooth.D [0]) [0] [⟨(1 : Smooth [0].length), [1]⟩] expS m ≠ 0 →
      productCoeff (Smooth.D [0]) [0] [⟨(1 : Smooth [0].length), [1]⟩] expS m = expS := by
    intro m hm hne
    obtain ⟨k, rfl⟩ := List.length_eq_one_iff.1 hm
    rcases k with _ | _ | k
    · simp [productCoeff, leibniz, expS_D]
    · simp [productCoeff, leibniz]
    · exact absurd (by simp [productCoeff, leibniz, Nat.choose_eq_zero_of_lt]) hne
  obtain ⟨V, e, -, -, -, -, -, -, h⟩ := C76_smooth_partial [0] (by simp) (fun _ => ∅) (sparse := sparse) (slack := 0) he quadExp_ok rfl
    (by intro i hi; simp [quadExp] at hi; subst hi; simp [quadExp, entryOf]) (g := expS) rfl expS_ne (s := .triangle) (degree := 2) (usableTo_small _ (by simp [quadExp]) (by norm_num))
    (usable_small _ (by simp [quadExp]) (by simp [quadExp]) (by omega)).toSized (by rw [hfl]; exact ⟨by simp, by simp, by simp⟩)
    (A := ⟨[0], [⟨1, [1]⟩]⟩) ⟨by simp, by simp, by simp⟩ rfl (by simp) (by rw [hfl]; exact hcl) (by
      intro m hm hne
      rw [hc m hm (right_ne_zero_of_mul hne), mul_comm, Smooth.mul_inv expS_ne]
      refine ⟨⟨by rw [hfl]; exact hcl, fun L2 hL2 => ?_⟩, fun d _ _ _ => C40_closed _ _ _ _ rfl (by simp [quadExp]) (by simp [quadExp])⟩
      have hv : gridValues quadExp (Smooth.ev [0] 1) = [1] := by
        simp [gridValues, quadExp, gridPoints, cartesian]
      rw [hv, hfl]
      exact noDrop_origin_line .triangle L2 hL2)
  exact ⟨V, e, h⟩

end Hermipy.Props
