import Verif.Model.CompQuad
import Verif.Props.Equality
import Verif.Props.QuadVarf
import Verif.Props.QuadConstructors

/-! # C82: weighted sums of quadratures -/

namespace Hermipy.Props
open Hermipy Hermipy.Spec
variable {F : Type}

/-! ## Construction -/

/-- **C82.** `CompQuad` accepts as many weights as quadratures, at least one, if all positions compare equal to the first one. -/
theorem C82_init {quads : List (HQuad F)} {ws : List ℝ} {c : HComp F} : comp_init quads ws = .ok c ↔
    ∃ q0 qs, quads = q0 :: qs ∧ quads.length = ws.length ∧ (∀ q ∈ quads, pos_eq q.position q0.position) ∧ c = ⟨quads, ws, q0.position⟩ := by
  cases quads with
  | nil => exact ⟨fun h => (by cases h), fun ⟨_, _, h, _⟩ => (by cases h)⟩
  | cons q0 qs =>
    rw [comp_init]
    constructor
    · intro h
      split at h
      · cases h
      · rename_i h1
        split at h
        · cases h
        · rename_i h2
          push Not at h2
          exact ⟨q0, qs, rfl, not_not.1 h1, h2, (Out.ok.inj h).symm⟩
    · rintro ⟨_, _, ⟨rfl, rfl⟩, h1, h2, rfl⟩
      rw [if_neg (not_not.2 h1), if_neg (by push Not; exact h2)]

/-- **C82.** Otherwise it raises. -/
theorem C82_init_rejects {quads : List (HQuad F)} {ws : List ℝ} (h : ∀ q0 qs, quads = q0 :: qs → quads.length ≠ ws.length ∨
    ∃ q ∈ quads, ¬ pos_eq q.position q0.position) : comp_init quads ws = .throws := by
  cases quads with
  | nil => rfl
  | cons q0 qs =>
    rw [comp_init]
    split
    · rfl
    · rename_i h1
      rcases h q0 qs rfl with h' | h'
      · exact absurd h' h1
      · rw [if_pos h']

/-! ## Integrals -/

theorem comp_fold {integrate : HQuad F → Out ℝ} {I : HQuad F → ℝ} {ws : List ℝ} : ∀ {l : List (HQuad F)} {k : ℕ} {r : ℝ},
    (∀ q ∈ l, integrate q = .ok (I q)) → k + l.length ≤ ws.length →
    (l.zipIdx k).foldlM (fun result q => do
      let v ← integrate q.1
      let w ← pyget ws q.2
      let t ← (.ok (v * w) : Out ℝ)
      .ok (result + t)) r = .ok (r + (List.zipWith (fun q w => w * I q) l (ws.drop k)).sum) := by
  intro l
  induction l with
  | nil => intro k r _ _; simp [pure]
  | cons q l ih =>
    intro k r h hk
    simp only [List.length_cons] at hk
    have hkw : k < ws.length := by omega
    rw [List.zipIdx_cons, List.foldlM_cons, h q (by simp), Out.ok_bind]
    have e : pyget ws k = .ok ws[k] := by rw [pyget, List.getElem?_eq_getElem hkw]
    dsimp only
    rw [e, Out.ok_bind, Out.ok_bind, Out.ok_bind]
    rw [ih (fun q hq => h q (by simp [hq])) (by omega), List.drop_eq_getElem_cons hkw, List.zipWith_cons_cons, List.sum_cons]
    congr 1
    ring

/-- **C82.** The integral is the weighted sum of the integrals. -/
theorem C82_integrate {quads : List (HQuad F)} {ws : List ℝ} {c : HComp F} (hc : comp_init quads ws = .ok c) {integrate : HQuad F → Out ℝ}
    {I : HQuad F → ℝ} (h : ∀ q ∈ quads, integrate q = .ok (I q)) :
    comp_integrate integrate c = .ok (List.zipWith (fun q w => w * I q) quads ws).sum := by
  obtain ⟨q0, qs, hq, hl, -, rfl⟩ := C82_init.1 hc
  rw [comp_integrate, compSum]
  have := comp_fold (ws := ws) (k := 0) (r := 0) h (by omega)
  simpa using this

/-- **C82.** For a function of the directions of the quadratures, the integral is the weighted sum of the sums over the grids; with and without
`tensorize`. -/
theorem C82_integrate_function [Interp F] {quads : List (HQuad F)} {ws : List ℝ} {c : HComp F} (hc : comp_init quads ws = .ok c) {slack : ℕ}
    {eig : Eig} (he : EigDiag eig) (hq : ∀ q ∈ quads, QuadOk q) (hs : ∀ q ∈ quads, 0 ∈ q.do_fourier → 1 ≤ slack) {f : SFn F} (hf : SFnOk f)
    (hd : ∀ q ∈ quads, f.dirs = q.position.dirs) :
    comp_integrate (fun q => quad_integrate slack eig q f) c =
      .ok (List.zipWith (fun q w => w * quadrature q.nodes q.weights fun _ x => f.value (gridPoint q.position x)) quads ws).sum ∧
    ∀ {order : ℕ → Finset (Finset ℕ) → List (Finset ℕ)}, OrderOk order → ∀ k : ℕ, f.terms ≠ 0 →
      (∀ q ∈ quads, ∃ p : Product F, q.factor.terms = {p}) →
      comp_integrate (fun q => quad_integrate_tensorize order k slack eig q f) c = comp_integrate (fun q => quad_integrate slack eig q f) c := by
  have h1 := C82_integrate hc (fun q h => quad_integrate_ok he (hq q h) (hs q h) (hd q h) hf.vars)
  refine ⟨h1, ?_⟩
  intro order ho k hne hp
  rw [h1]
  refine C82_integrate hc fun q h => ?_
  obtain ⟨p, hp⟩ := hp q h
  exact (C64_integrate_partial ho k he (hq q h) hp (hs q h) hf (hd q h) hne).1

/-- **C82.** If the weights sum to one, the integral of a function is exact whenever each of the quadratures is exact for it. -/
theorem C82_exact {quads : List (HQuad F)} {ws : List ℝ} {c : HComp F} (hc : comp_init quads ws = .ok c) (hw : ws.sum = 1)
    {integrate : HQuad F → Out ℝ} {I : ℝ} (h : ∀ q ∈ quads, integrate q = .ok I) : comp_integrate integrate c = .ok I := by
  obtain ⟨q0, qs, hq, hl, -, -⟩ := C82_init.1 hc
  rw [C82_integrate hc h]
  congr 1
  have : ∀ {l : List (HQuad F)} {ws : List ℝ}, l.length = ws.length → (List.zipWith (fun (_ : HQuad F) w => w * I) l ws).sum = ws.sum * I := by
    intro l
    induction l with
    | nil => intro ws h; rw [List.eq_nil_of_length_eq_zero h.symm]; simp
    | cons q l ih =>
      intro ws h
      cases ws with
      | nil => cases h
      | cons w ws =>
        simp only [List.length_cons, Nat.add_right_cancel_iff] at h
        rw [List.zipWith_cons_cons, List.sum_cons, List.sum_cons, ih h]
        ring
  rw [this hl, hw, one_mul]

theorem gauss_position {hermegauss : ℕ → List ℝ × List ℝ} {n_points : Points} {dim : Option ℕ} {dirs : Option (List ℕ)} {factor : FactorArg F}
    {mean : Option (List ℝ)} {cov : Option (List (List ℝ))} {q : HQuad F}
    (h : quad_gauss_hermite hermegauss n_points dim dirs none factor mean cov none = .ok q) :
    mkPosition (some q.nodes.length) mean cov dirs none = .ok q.position := by
  rw [quad_gauss_hermite] at h
  cases h1 : gaussPoints n_points dim dirs with
  | stop s => rw [h1] at h; cases h
  | diverge => rw [h1] at h; cases h
  | ok l =>
    rw [h1, Out.ok_bind] at h
    cases h2 : hermegauss_nd hermegauss l with
    | stop s => rw [h2] at h; cases h
    | diverge => rw [h2] at h; cases h
    | ok nw =>
      rw [h2, Out.ok_bind, quad_init] at h
      split at h
      · cases h
      · rw [initPosition] at h
        cases h3 : mkPosition (some nw.1.length) mean cov dirs none with
        | stop s => rw [h3] at h; cases h
        | diverge => rw [h3] at h; cases h
        | ok p =>
          rw [h3, Out.ok_bind] at h
          cases h4 : factorOf factor p.dirs with
          | stop s => rw [h4] at h; cases h
          | diverge => rw [h4] at h; cases h
          | ok g =>
            rw [h4, Out.ok_bind] at h
            rw [← Out.ok.inj h]
            exact h3

/-- **C82.** The weighted sum of Gauss-Hermite quadratures for the same normal distribution with different numbers of points, with weights
which sum to one, is accepted, and integrates exactly the polynomials of degree less than `2N` in each direction, if each of the quadratures has
at least `N` points in each direction. -/
theorem C82_gauss [Interp F] {hermegauss : ℕ → List ℝ × List ℝ} {ns : List ℕ} {d N : ℕ} (hg : ∀ n ∈ ns, GaussRule n (hermegauss n))
    (hne : ns ≠ []) (hn : ∀ n ∈ ns, 0 < n ∧ N ≤ n ∧ n ^ d < 2 ^ 32) {dim : Option ℕ} {dirs : Option (List ℕ)}
    (hdim : dirs = none → ∀ k, dim = some k → k = d) (hone : dirs = none → dim = none → d = 1) {mean : Option (List ℝ)}
    {cov : Option (List (List ℝ))} {factor : FactorArg F} (hk : Keywords d mean cov dirs factor) {ws : List ℝ} (hl : ns.length = ws.length)
    (hw : ws.sum = 1) :
    ∃ (quads : List (HQuad F)) (c : HComp F),
      (ns.mapM fun n => quad_gauss_hermite hermegauss (.one n) dim dirs none factor mean cov none) = .ok quads ∧ comp_init quads ws = .ok c ∧
      ∀ (slack : ℕ) (eig : Eig) (f : SFn F), 1 ≤ slack → EigDiag eig → SFnOk f → f.dirs = c.position.dirs →
        PolyBelow (2 * N) c.position.dirs f.value →
        comp_integrate (fun q => quad_integrate slack eig q f) c = .ok (∫ x, f.value (place c.position.dirs x) ∂(normal c.position)) := by
  have hex : ∀ n ∈ ns, ∃ q, quad_gauss_hermite hermegauss (.one n) dim dirs none factor mean cov none = .ok q ∧
      Built q d n mean cov dirs none factor ∧ ∀ (slack : ℕ) (eig : Eig) (f : SFn F), 1 ≤ slack → EigDiag eig → SFnOk f →
        f.dirs = q.position.dirs → PolyBelow (2 * n) q.position.dirs f.value →
        quad_integrate slack eig q f = .ok (∫ x, f.value (place q.position.dirs x) ∂(normal q.position)) := fun n h =>
    C78_gauss_hermite_partial (hg n h) (hn n h).1 hdim (Or.inl ⟨rfl, hone⟩) (hn n h).2.2 hk
  obtain ⟨q, hq⟩ := Classical.axiom_of_choice fun n : {n // n ∈ ns} => hex n.1 n.2
  have e : (ns.mapM fun n => quad_gauss_hermite hermegauss (.one n) dim dirs none factor mean cov none) = .ok (ns.attach.map q) := by
    have h1 := mapM_ok (l := ns.attach) (f := fun n : {n // n ∈ ns} => quad_gauss_hermite hermegauss (.one n.1) dim dirs none factor mean cov none)
      (g := q) fun n _ => (hq n).1
    rw [← h1]
    conv_lhs => rw [← List.attach_map_subtype_val ns]
    rw [List.mapM_map]
    rfl
  have hpos : ∀ n m : {n // n ∈ ns}, (q n).position = (q m).position := by
    intro n m
    have h1 := gauss_position (hq n).1
    have h2 := gauss_position (hq m).1
    rw [(hq n).2.1.ok.dim, (hq n).2.1.dim] at h1
    rw [(hq m).2.1.ok.dim, (hq m).2.1.dim] at h2
    exact Out.ok.inj (h1.symm.trans h2)
  obtain ⟨n0, ns', rfl⟩ : ∃ n0 ns', ns = n0 :: ns' := by
    cases ns with
    | nil => exact absurd rfl hne
    | cons a l => exact ⟨a, l, rfl⟩
  set quads := (n0 :: ns').attach.map q with hquads
  have hc : comp_init quads ws = .ok ⟨quads, ws, (q ⟨n0, by simp⟩).position⟩ := by
    refine C82_init.2 ⟨q ⟨n0, by simp⟩, (ns'.attach.map fun x => ⟨x.1, List.mem_cons_of_mem _ x.2⟩).map q, ?_, ?_, ?_, rfl⟩
    · rw [hquads, List.attach_cons, List.map_cons]
    · rw [hquads, List.length_map, List.length_attach, hl]
    · intro r hr
      obtain ⟨n, -, rfl⟩ := List.mem_map.1 hr
      rw [hpos n ⟨n0, by simp⟩]
      exact pos_eq_self _
  refine ⟨quads, _, e, hc, ?_⟩
  intro slack eig f hsl he hf hfd hpoly
  refine C82_exact hc hw fun r hr => ?_
  obtain ⟨n, -, rfl⟩ := List.mem_map.1 hr
  dsimp only at hfd hpoly ⊢
  rw [hpos ⟨n0, by simp⟩ n] at hfd hpoly ⊢
  refine (hq n).2.2 slack eig f hsl he hf hfd ?_
  obtain ⟨P, h1, h2⟩ := hpoly
  exact ⟨P, fun i => (h1 i).trans_le (Nat.mul_le_mul_left 2 (hn n.1 n.2).2.1), h2⟩

/-! ## Forms -/

variable [DecidableEq F]

theorem comp_varf_fold {varf : HQuad F → Out (HVarf (SFn F))} {V : HQuad F → HVarf (SFn F)} {ws : List ℝ} {A0 : HVarf (SFn F)} (h0 : VarfOk A0)
    {entry : HQuad F → List ℕ → List ℕ → ℝ} : ∀ {l : List (HQuad F)} {k : ℕ} {R : HVarf (SFn F)} {r : List ℕ → List ℕ → ℝ},
    (∀ q ∈ l, varf q = .ok (V q) ∧ VarfOk (V q) ∧ pos_eq A0.position (V q).position ∧ A0.index_set = (V q).index_set ∧ A0.factor = (V q).factor ∧
      A0.degree = (V q).degree ∧ ∀ I J, InSet A0.index_set A0.position.dim A0.degree I → InSet A0.index_set A0.position.dim A0.degree J →
        Entry (V q) I J (entry q I J)) → k + l.length ≤ ws.length → AlikeVarf A0 R →
    (∀ I J, InSet A0.index_set A0.position.dim A0.degree I → InSet A0.index_set A0.position.dim A0.degree J → Entry R I J (r I J)) →
    ∃ R', (l.zipIdx k).foldlM (fun result q => do
      let v ← varf q.1
      let w ← pyget ws q.2
      let t ← varf_mul_scalar v w
      accuVarf result t) (.object R) = .ok (.object R') ∧ AlikeVarf A0 R' ∧
      ∀ I J, InSet A0.index_set A0.position.dim A0.degree I → InSet A0.index_set A0.position.dim A0.degree J →
        Entry R' I J (r I J + (List.zipWith (fun q w => w * entry q I J) l (ws.drop k)).sum) := by
  intro l
  induction l with
  | nil => intro k R r _ _ hR hr; exact ⟨R, rfl, hR, by simpa using hr⟩
  | cons q l ih =>
    intro k R r h hk hR hr
    simp only [List.length_cons] at hk
    have hkw : k < ws.length := by omega
    obtain ⟨hq1, hq2, hq3, hq4, hq5, hq6, hq7⟩ := h q (by simp)
    obtain ⟨B, eB, aB, -, bB⟩ := varf_map_ok (V q) hq2 (· * ws[k])
    obtain ⟨C, eC, aC, -, bC⟩ := varf_add_ok R B hR.ok aB.ok (by rw [hR.position, aB.position]; exact hq3) (by rw [hR.index_set, aB.index_set]; exact hq4)
      (by rw [hR.factor, aB.factor]; exact hq5) (by rw [hR.degree, aB.degree]; exact hq6)
    have e : pyget ws k = .ok ws[k] := by rw [pyget, List.getElem?_eq_getElem hkw]
    obtain ⟨R', e1, e2, e3⟩ := ih (k := k + 1) (R := C) (r := fun I J => r I J + entry q I J * ws[k]) (fun q hq => h q (by simp [hq])) (by omega)
      ⟨aC.ok, aC.position.trans hR.position, aC.degree.trans hR.degree, aC.factor.trans hR.factor, aC.index_set.trans hR.index_set⟩
      (fun I J hI hJ => (bC _ _ _).2 ⟨_, _, hr I J hI hJ, (bB _ _ _).2 ⟨_, hq7 I J hI hJ, rfl⟩, rfl⟩)
    refine ⟨R', ?_, e2, fun I J hI hJ => ?_⟩
    · rw [List.zipIdx_cons, List.foldlM_cons, hq1, Out.ok_bind]
      simp only [e, Out.ok_bind]
      rw [varf_mul_scalar, eB, Out.ok_bind, accuVarf, eC, Out.ok_bind, Out.ok_bind, e1]
    · have := e3 I J hI hJ
      rw [List.drop_eq_getElem_cons hkw, List.zipWith_cons_cons, List.sum_cons]
      rw [show r I J + (ws[k] * entry q I J + (List.zipWith (fun q w => w * entry q I J) l (ws.drop (k + 1))).sum) =
        r I J + entry q I J * ws[k] + (List.zipWith (fun q w => w * entry q I J) l (ws.drop (k + 1))).sum by ring]
      exact this

/-- **C82.** If the forms of the quadratures have the same degree, index set and factor, the form is their weighted sum. -/
theorem C82_varf {q0 : HQuad F} {qs : List (HQuad F)} {ws : List ℝ} {c : HComp F} (hc : comp_init (q0 :: qs) ws = .ok c)
    {varf : HQuad F → Out (HVarf (SFn F))} {V : HQuad F → HVarf (SFn F)} {entry : HQuad F → List ℕ → List ℕ → ℝ}
    (h : ∀ q ∈ q0 :: qs, varf q = .ok (V q) ∧ VarfOk (V q) ∧ (V q).position = q.position ∧ (V q).index_set = (V q0).index_set ∧
      (V q).factor = (V q0).factor ∧ (V q).degree = (V q0).degree ∧
      ∀ I J, InSet (V q0).index_set q0.position.dim (V q0).degree I → InSet (V q0).index_set q0.position.dim (V q0).degree J →
        Entry (V q) I J (entry q I J)) :
    ∃ R, comp_varf varf c = .ok (.object R) ∧ AlikeVarf (V q0) R ∧
      ∀ I J, InSet (V q0).index_set q0.position.dim (V q0).degree I → InSet (V q0).index_set q0.position.dim (V q0).degree J →
        Entry R I J (List.zipWith (fun q w => w * entry q I J) (q0 :: qs) ws).sum := by
  obtain ⟨_, _, ⟨rfl, rfl⟩, hl, hp, rfl⟩ := C82_init.1 hc
  obtain ⟨h1, h2, h3, -, -, -, h7⟩ := h q0 (by simp)
  simp only [List.length_cons] at hl
  cases ws with
  | nil => simp at hl
  | cons w ws =>
    simp only [List.length_cons, Nat.add_right_cancel_iff] at hl
    obtain ⟨B, eB, aB, sB, bB⟩ := varf_map_ok (V q0) h2 (· * w)
    obtain ⟨C, eC, aC, -, bC⟩ := varf_map_ok B aB.ok (· + 0)
    obtain ⟨R, e1, e2, e3⟩ := comp_varf_fold (varf := varf) (V := V) (ws := w :: ws) h2 (entry := entry) (l := qs) (k := 1) (R := C)
      (r := fun I J => entry q0 I J * w + 0)
      (by
        intro q hq
        obtain ⟨g1, g2, g3, g4, g5, g6, g7⟩ := h q (by simp [hq])
        refine ⟨g1, g2, ?_, g4.symm, g5.symm, g6.symm, by rw [h3]; exact g7⟩
        refine pos_eq_symm g2.pos h2.pos ?_
        rw [g3, h3]
        exact hp q (by simp [hq]))
      (by simp [hl]; omega)
      ⟨aC.ok, aC.position.trans aB.position, aC.degree.trans aB.degree, aC.factor.trans aB.factor, aC.index_set.trans aB.index_set⟩
      (by
        rw [h3]
        exact fun I J hI hJ => (bC _ _ _).2 ⟨_, (bB _ _ _).2 ⟨_, h7 I J hI hJ, rfl⟩, rfl⟩)
    refine ⟨R, ?_, e2, fun I J hI hJ => ?_⟩
    · rw [comp_varf, compSum, List.zipIdx_cons, List.foldlM_cons, h1, Out.ok_bind]
      have e : pyget (w :: ws) 0 = .ok w := rfl
      simp only [e, Out.ok_bind]
      rw [varf_mul_scalar, eB, Out.ok_bind, accuVarf, varf_add_scalar, if_neg (by simp), eC, Out.ok_bind, Out.ok_bind]
      exact e1
    · rw [h3] at e3
      have := e3 I J hI hJ
      rw [List.zipWith_cons_cons, List.sum_cons]
      rw [List.drop_one, List.tail_cons] at this
      rw [show w * entry q0 I J = entry q0 I J * w + 0 by ring]
      exact this

/-- **C82.** The form of a function, for sizes that the library can handle, when no coefficient is dropped (see C70): the entry at
`(I, J)` is the weighted sum of the quadratures of the function times the two basis functions. -/
theorem C82_varf_function [Interp F] {q0 : HQuad F} {qs : List (HQuad F)} {ws : List ℝ} {c : HComp F} (hc : comp_init (q0 :: qs) ws = .ok c)
    {sparse : Bool} {slack : ℕ} {eig : Eig} (he : EigDiag eig) {s : IndexSet} {degree : ℕ} (hU : UsableTo s q0.position.dim degree)
    (hz2 : Sized s q0.position.dim (2 * degree)) {f : SFn F} (hf : SFnOk f) (hd : f.dirs = q0.position.dirs)
    (hq : ∀ q ∈ q0 :: qs, QuadOk q ∧ q.factor = q0.factor ∧ DegreeOk slack s degree q.do_fourier ∧ Exact s degree q f.value) :
    ∃ R, comp_varf (quad_varf sparse slack eig degree s · f) c = .ok (.object R) ∧ VarfOk R ∧ R.position = q0.position ∧ R.factor = q0.factor ∧
      R.index_set = s ∧ SameSets s R.degree degree ∧
      ∀ I J, InSet s q0.position.dim degree I → InSet s q0.position.dim degree J →
        Entry R I J (List.zipWith (fun q w => w * formEntry q f.value I J) (q0 :: qs) ws).sum := by
  obtain ⟨_, _, ⟨rfl, rfl⟩, hl, hp, rfl⟩ := C82_init.1 hc
  have h0 := (hq q0 (by simp)).1
  have h1 : 1 ≤ q0.position.dim := Nat.one_le_iff_ne_zero.2 (PosOk.dim_pos h0.pos h0.dirs_ne)
  obtain ⟨L, hL⟩ := iterOk_exists (hU _ h1 le_rfl).toSized.fits'
  have hss := recDegree_same s degree
  obtain ⟨R, e1, e2, e3⟩ := C82_varf (V := fun q => ⟨sparse, L.map fun I => L.map fun J => formEntry q f.value I J, q.position, recDegree s degree,
      q.factor, s⟩) (varf := (quad_varf sparse slack eig degree s · f)) (entry := fun q I J => formEntry q f.value I J) hc (by
    intro q hqm
    obtain ⟨ok, hfac, hds, hex⟩ := hq q hqm
    have hdim : q.position.dim = q0.position.dim := dim_of_dirs ok.pos h0.pos (hp q hqm).1
    have hL' : IterOk s q.position.dim degree L := by rw [hdim]; exact hL
    obtain ⟨okf, hent⟩ := form_of_entries (sparse := sparse) (fun I J => formEntry q f.value I J) ok.pos ok.dirs_ne (by rw [hdim]; exact hU _ h1 le_rfl)
      (factor := q.factor) hL'
    refine ⟨quad_varf_exact he ok (by rw [hdim]; exact hU) (by rw [hdim]; exact hz2) hds hf.vars (hd.trans (hp q hqm).1.symm) hex hL', okf, rfl,
      rfl, hfac, rfl, ?_⟩
    intro I J hI hJ
    rw [← hdim] at hI hJ
    exact hent I J ((hss _ _).1 hI) ((hss _ _).1 hJ))
  refine ⟨R, e1, e2.ok, e2.position, e2.factor, e2.index_set, by rw [e2.degree]; exact hss, fun I J hI hJ => e3 I J ((hss _ _).2 hI) ((hss _ _).2 hJ)⟩

/-- **C82.** If the forms of the first two quadratures have different factors, the sum is rejected. -/
theorem C82_varf_rejects {q0 q1 : HQuad F} {qs : List (HQuad F)} {ws : List ℝ} {c : HComp F} (hc : comp_init (q0 :: q1 :: qs) ws = .ok c)
    {varf : HQuad F → Out (HVarf (SFn F))} {A0 A1 : HVarf (SFn F)} (h0 : varf q0 = .ok A0) (h1 : varf q1 = .ok A1) (ok0 : VarfOk A0)
    (ok1 : VarfOk A1) (hne : A0.factor ≠ A1.factor) : comp_varf varf c = .throws := by
  obtain ⟨_, _, ⟨rfl, rfl⟩, hl, hp, rfl⟩ := C82_init.1 hc
  cases ws with
  | nil => simp at hl
  | cons w ws =>
    cases ws with
    | nil => simp at hl
    | cons w' ws =>
      obtain ⟨B, eB, aB, -⟩ := varf_map_ok A0 ok0 (· * w)
      obtain ⟨C, eC, aC, -⟩ := varf_map_ok B aB.ok (· + 0)
      obtain ⟨D, eD, aD, -⟩ := varf_map_ok A1 ok1 (· * w')
      rw [comp_varf, compSum, List.zipIdx_cons, List.foldlM_cons, h0, Out.ok_bind]
      have e : pyget (w :: w' :: ws) 0 = .ok w := rfl
      have e' : pyget (w :: w' :: ws) (0 + 1) = .ok w' := rfl
      simp only [e, Out.ok_bind]
      rw [varf_mul_scalar, eB, Out.ok_bind, accuVarf, varf_add_scalar, if_neg (by simp), eC, Out.ok_bind, Out.ok_bind, List.zipIdx_cons,
        List.foldlM_cons, h1, Out.ok_bind]
      simp only [e', Out.ok_bind]
      rw [varf_mul_scalar, eD, Out.ok_bind, accuVarf, (C60_varf_rejects C D aD.ok (Or.inr (Or.inr (by
        rw [aC.factor, aB.factor, aD.factor]
        exact hne)))).1]
      rfl

/-! ## Transforms and projections -/

/-- **C82, negation.** `transform` raises, whatever the quadratures, weights and function: the first series is added to the number zero. -/
theorem C82_transform_false {quads : List (HQuad F)} {ws : List ℝ} {c : HComp F} (hc : comp_init quads ws = .ok c)
    {transform : HQuad F → Out (HSeries (SFn F))} (h : ∀ q ∈ quads, ∃ S, transform q = .ok S ∧ SeriesOk S) :
    comp_transform transform c = .throws := by
  obtain ⟨q0, qs, rfl, hl, hp, rfl⟩ := C82_init.1 hc
  obtain ⟨S, e, ok⟩ := h q0 (by simp)
  cases ws with
  | nil => simp at hl
  | cons w ws =>
    obtain ⟨T, eT, -⟩ := series_map_ok S ok (· * w)
    rw [comp_transform, compSum, List.zipIdx_cons, List.foldlM_cons, e, Out.ok_bind]
    have e' : pyget (w :: ws) 0 = .ok w := rfl
    simp only [e', Out.ok_bind]
    rw [series_mul_scalar, eT, Out.ok_bind, accuSeries]
    rfl

omit [DecidableEq F] in
/-- **C82, negation.** `project` raises. -/
theorem C82_project_false (c : HComp F) : comp_project c = .throws := by
  rw [comp_project]
  cases c.quads with
  | nil => rfl
  | cons q l => rw [List.mapM_cons]; rfl

/-! ## Comparison -/

theorem allEq_iff : ∀ l : List (HQuad F × HQuad F), allEq l = .ok true ↔ ∀ p ∈ l, quad_eq p.1 p.2 = .ok true := by
  intro l
  induction l with
  | nil => simp [allEq]
  | cons p l ih =>
    obtain ⟨q, r⟩ := p
    rw [allEq, List.forall_mem_cons]
    cases h : quad_eq q r with
    | stop s => exact ⟨fun h' => (by cases h'), fun h' => (by cases h'.1)⟩
    | diverge => exact ⟨fun h' => (by cases h'), fun h' => (by cases h'.1)⟩
    | ok b =>
      rw [Out.ok_bind]
      cases b with
      | true => rw [if_pos rfl, ih]; simp
      | false => simp

/-- **C82.** Two weighted sums of quadratures compare equal exactly if they have as many quadratures, which compare equal one by one. Missing
for the full statement: the weights, see `C82_eq_false`. -/
theorem C82_eq_partial (c d : HComp F) : comp_eq c d = .ok true ↔
    c.quads.length = d.quads.length ∧ ∀ p ∈ c.quads.zip d.quads, quad_eq p.1 p.2 = .ok true := by
  rw [comp_eq]
  split
  · rename_i h
    simp [h]
  · rename_i h
    rw [allEq_iff]
    exact ⟨fun h' => ⟨not_not.1 h, h'⟩, fun h' => h'.2⟩

/-- **C82.** A weighted sum compares equal to a quadrature exactly if it is a sum of one quadrature, which compares equal to it. -/
theorem C82_eq_quad_partial (c : HComp F) (q : HQuad F) : comp_eq_quad c q = .ok true ↔ ∃ r, c.quads = [r] ∧ quad_eq r q = .ok true := by
  have : comp_init [q] [1] = .ok ⟨[q], [1], q.position⟩ := C82_init.2 ⟨q, [], rfl, rfl, by
    intro r hr
    rw [List.mem_singleton.1 hr]
    exact pos_eq_self _, rfl⟩
  rw [comp_eq_quad, this, Out.ok_bind, C82_eq_partial]
  dsimp only
  constructor
  · rintro ⟨h1, h2⟩
    obtain ⟨r, hr⟩ := List.length_eq_one_iff.1 h1
    refine ⟨r, hr, h2 (r, q) ?_⟩
    rw [hr]
    simp
  · rintro ⟨r, hr, h⟩
    rw [hr]
    exact ⟨rfl, by simpa using h⟩

/-- **C82, negation.** The weights are not compared: two weighted sums with different integrals compare equal. One of them compares equal
to the quadrature it contains, although it integrates the constant function one to 2 rather than 1. -/
theorem C82_eq_false [Interp ℝ] {eig : Eig} (he : EigDiag eig) : ∃ (q : HQuad ℝ) (c d : HComp ℝ), QuadOk q ∧ comp_init [q] [1] = .ok c ∧
    comp_init [q] [2] = .ok d ∧ comp_eq c d = .ok true ∧ comp_eq_quad d q = .ok true ∧
    comp_integrate (fun q => quad_integrate 1 eig q one0) c = .ok 1 ∧ comp_integrate (fun q => quad_integrate 1 eig q one0) d = .ok 2 := by
  have h1 := quadPts_ok (n := 1) (by norm_num) (by norm_num)
  have hr := (C81_reflexive (Φ := ℕ) ⟨[], pos0, 0, 0, .cube⟩ ⟨false, [], pos0, 0, 0, .cube⟩ (quadPts 1)).2.2
  have hp : ∀ q ∈ [quadPts 1], pos_eq q.position (quadPts 1).position := by
    intro q hq
    rw [List.mem_singleton.1 hq]
    exact pos_eq_self _
  have hc : comp_init [quadPts 1] [1] = .ok ⟨[quadPts 1], [1], (quadPts 1).position⟩ := C82_init.2 ⟨quadPts 1, [], rfl, rfl, hp, rfl⟩
  have hd : comp_init [quadPts 1] [2] = .ok ⟨[quadPts 1], [2], (quadPts 1).position⟩ := C82_init.2 ⟨quadPts 1, [], rfl, rfl, hp, rfl⟩
  have hi : quad_integrate 1 eig (quadPts 1) one0 = .ok 1 := by
    rw [C64_direct he h1 (fun _ => le_refl 1) one0_ok (by simp [one0, quadPts, pos0])]
    simp [quadrature, quadPts, gridPoints, gridWeights, cartesian, SFn.value, productValue, one0]
  have hi' : ∀ q ∈ [quadPts 1], quad_integrate 1 eig q one0 = .ok ((fun _ => 1 : HQuad ℝ → ℝ) q) := by
    intro q hq
    rw [List.mem_singleton.1 hq]
    exact hi
  refine ⟨quadPts 1, _, _, h1, hc, hd, (C82_eq_partial _ _).2 ⟨rfl, by simpa using hr⟩, (C82_eq_quad_partial _ _).2 ⟨_, rfl, hr⟩, ?_, ?_⟩
  · rw [C82_integrate hc hi']; simp
  · rw [C82_integrate hd hi']; simp

/-! ## The hypotheses can be met -/

/-- Two quadratures of the same distribution with weights 2 and -1. -/
example : ∃ c, comp_init [quadPts 1, quadPts 2] [2, -1] = .ok c :=
  ⟨_, C82_init.2 ⟨quadPts 1, [quadPts 2], rfl, rfl, by
    intro q hq
    simp only [List.mem_cons, List.not_mem_nil, or_false] at hq
    rcases hq with rfl | rfl <;> exact pos_eq_self pos0, rfl⟩⟩

/-- The hypotheses of `C82_gauss`. -/
example : (∀ n ∈ [2, 2], GaussRule n ((fun _ => gauss2 : ℕ → List ℝ × List ℝ) n)) ∧ (∀ n ∈ [2, 2], 0 < n ∧ 2 ≤ n ∧ n ^ 2 < 2 ^ 32) ∧
    Keywords (F := ℝ) 2 (some [1, 0]) none (some [0, 1]) (.expr {0}) ∧ ([2, -1] : List ℝ).sum = 1 := by
  refine ⟨by intro n hn; simp at hn; subst hn; exact gauss2_ok, by simp, ⟨by simp, by simp, by simp, ⟨by simp, by simp, by simp⟩, by simp [FactorOk]⟩,
    by norm_num⟩

/-- `CompQuad.varfd` raises whatever the quadratures, the function and the settings are: `CompQuad.varf` has no argument `tensorize`. -/
theorem C82_varfd_false {F α : Type} (tensorizing : Bool) (varf : Out (Accu (HVarf (SFn F)))) (rest : Accu (HVarf (SFn F)) → Out α) :
    comp_varfd tensorizing varf rest = .throws := by
  cases tensorizing
  · have h : ∀ b : Out (Accu (HVarf (SFn F))), compVarfSig.call 3 ["sparse", "index_set", "tensorize"] b = .throws := by
      intro b
      rw [Signature.call, if_neg (by simp [compVarfSig]), if_pos (by decide)]
    rw [comp_varfd, if_neg (by simp), h, Signature.call, if_neg (by simp [quadVarfdSig]), if_neg (by decide), if_neg (by decide)]
    rfl
  · rfl

/-- `CompQuad.discretize_op` raises too: it calls `Quad.discretize_op` with two arguments more than there are, so that `sparse` is given twice. -/
theorem C82_discretize_op_false {α : Type} (body : Out α) : comp_discretize_op body = .throws := by
  rw [comp_discretize_op, Signature.call, if_neg (by simp [quadOpSig]), if_pos (by decide)]

end Hermipy.Props
