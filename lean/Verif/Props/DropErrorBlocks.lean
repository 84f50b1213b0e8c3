import Verif.Lemmas.DropBlocksD
import Verif.Props.DropError

/-! # C98: `Quad.varfd` and `Quad.discretize_op` with `tensorize` when small coefficients are dropped -/

namespace Hermipy.Props
open Hermipy Hermipy.Spec
variable {F : Type} [Interp F] [DecidableEq F]

/-- C98: `Quad.varfd` with `tensorize`, for positive variances and a factor which is one product. In each block `b` the derivative of the basis
function of `J` is a multiple `c φ_J'` of a basis function of the set, and the errors of the blocks propagate as in a product. -/
theorem C98_varfd_tensorize {order : ℕ → Finset (Finset ℕ) → List (Finset ℕ)} (ho : OrderOk order) (k : ℕ) {sparse : Bool} {slack : ℕ}
    {eig : Eig} (he : EigDiag eig) {q : HQuad F} (hq : QuadOk q) (hvar : VarPos q.position) {p : Product F} (hp : q.factor.terms = {p})
    {s : IndexSet} {degree : ℕ} (hU : UsableTo s q.position.dim degree) (hz2 : Sized s q.position.dim (2 * degree)) (hds : DegreeOk slack s degree q.do_fourier) {f : SFn F}
    (hf : SFnOk f) (hd : f.dirs = q.position.dirs) (hne : f.terms ≠ 0) {ds : List ℕ} (hin : ∀ d ∈ ds, d ∈ q.position.dirs)
    {blocks : Product F → List (Finset ℕ)} (hbl : ∀ args ∈ f.terms, BlocksOk q.position.dirs.toFinset args p (blocks args))
    (hcl : ∀ args ∈ f.terms, ∀ b ∈ blocks args, Closed s b.card degree (subQuad q p (b.sort (· ≤ ·))).do_fourier ∧
      DiffClosed s degree (subQuad q p (b.sort (· ≤ ·))) ds)
    {L2 : ℕ → List (List ℕ)} (hL2 : ∀ n, 1 ≤ n → n ≤ q.position.dim → s.s_list n (2 * degree) = .ok (L2 n)) :
    ∃ A, quad_varfd_tensorize order k sparse slack eig degree s ds q f = .ok A ∧ VarfOk A ∧ A.is_sparse = sparse ∧ A.position = q.position ∧
      A.factor = q.factor ∧ A.index_set = s ∧ SameSets s A.degree degree ∧
      ∀ I J, InSet s q.position.dim degree I → InSet s q.position.dim degree J →
        ∃ (x : ℝ) (c : Product F → Finset ℕ → ℝ) (J' : Product F → Finset ℕ → List ℕ), Entry A I J x ∧
          (∀ args ∈ f.terms, ∀ b ∈ blocks args, InSet s b.card degree (J' args b) ∧
            Derives (subQuad q p (b.sort (· ≤ ·))) (ds.filter fun d => d ∈ b) ((b.sort (· ≤ ·)).map (at' q.position.dirs J)) (c args b) (J' args b)) ∧
          |x - dformEntry q f.value ds I J| ≤ (f.terms.map fun args => blockBoundD q p (blocks args) L2 args I (c args) (J' args)).sum := by
  have h1 : 1 ≤ q.position.dim := Nat.one_le_iff_ne_zero.2 (PosOk.dim_pos hq.pos hq.dirs_ne)
  obtain ⟨L, hL⟩ := iterOk_exists (hU _ h1 le_rfl).toSized.fits'
  have hL2 : ∀ n, 1 ≤ n → n ≤ q.position.dim → IterOk s n (2 * degree) (L2 n) := fun n h h' => IterOk.of_list (hz2.sub h h').fits' (hL2 n h h')
  obtain ⟨T, hT, e⟩ := quad_varfd_tensorize_kept ho k (sparse := sparse) he hq hp hU hz2 hds hf hd hne (ds := ds)
    (fun args ha bs hb b hbb => (hcl args ha b ((hb.perm (hbl args ha)).mem_iff.1 hbb)).2) hL2 hL
  obtain ⟨ok, hent⟩ := form_of_entries (sparse := sparse) (fun I J => (f.terms.map fun args => T args I J).sum) hq.pos hq.dirs_ne (hU _ h1 le_rfl)
    (factor := q.factor) hL
  refine ⟨_, e, ok, rfl, rfl, rfl, rfl, recDegree_same s degree, fun I J hI hJ => ?_⟩
  have hone : ∀ args ∈ f.terms, _ := fun args ha => tensorize_term_close hq hvar hp hU hz2 hds (hbl args ha)
    (fun b hbb => (hcl args ha b hbb).2) (fun b hbb => (hcl args ha b hbb).1) hL2 hI hJ
  choose! c J' hd' hclose using hone
  refine ⟨_, c, J', hent I J hI hJ, hd', ?_⟩
  have hsum : dformEntry q f.value ds I J = (f.terms.map fun args => dformEntry q (productValue args) ds I J).sum := by
    rw [dformEntry_sum]
    rfl
  rw [hsum, ← Multiset.sum_map_sub]
  refine (Multiset.abs_sum_le_sum_abs).trans ?_
  rw [Multiset.map_map]
  refine Multiset.sum_map_le_sum_map _ _ fun args hargs => ?_
  have h := hclose args hargs
  rw [← hT args _ (hbl args hargs), List.filter_eq_self.2 (by simpa using hin)] at h
  exact h

variable {K : Type} [CommRing K] [Algebra ℚ K] [DecidableEq K]

/-- C98: `discretize_op` with `tensorize`, for an operator that is not 0. The error of an entry is at most the sum of the errors of the derivatives
that occur in the operator. -/
theorem C98_op_tensorize {order : ℕ → Finset (Finset ℕ) → List (Finset ℕ)} (ho : OrderOk order) (k : ℕ) {sparse : Bool} {slack : ℕ}
    {eig : Eig} (he : EigDiag eig) {q : HQuad F} (hq : QuadOk q) (hvar : VarPos q.position) {p : Product F} (hp : q.factor.terms = {p})
    {s : IndexSet} {degree : ℕ} (hU : UsableTo s q.position.dim degree) (hz2 : Sized s q.position.dim (2 * degree)) (hds : DegreeOk slack s degree q.do_fourier) {fn : K → SFn F}
    (hfn : ∀ c, SFnOk (fn c) ∧ (fn c).dirs = q.position.dirs ∧ (fn c).terms ≠ 0) {ev : K →+ ((ℕ → ℝ) → ℝ)} (hev : ∀ c, (fn c).value = ev c)
    {vars : List K} (hvars : vars.length = q.position.dim) {T : List (OpTerm K)} (hc : ∀ t ∈ T, t.coeff ≠ 0)
    (hl : ∀ t ∈ T, t.index.length = q.position.dim) (h5 : ∀ t ∈ T, t.index.sum ≤ 5) (hT : ∃ m, coeffAt T m ≠ 0)
    {blocks : Product F → List (Finset ℕ)}
    (hbl : ∀ m, coeffAt T m ≠ 0 → ∀ args ∈ (fn (coeffAt T m)).terms, BlocksOk q.position.dirs.toFinset args p (blocks args))
    (hcl : ∀ m, coeffAt T m ≠ 0 → ∀ args ∈ (fn (coeffAt T m)).terms, ∀ b ∈ blocks args,
      Closed s b.card degree (subQuad q p (b.sort (· ≤ ·))).do_fourier ∧
      DiffClosed s degree (subQuad q p (b.sort (· ≤ ·))) (orderDirs q.position.dirs m))
    {L2 : ℕ → List (List ℕ)} (hL2 : ∀ n, 1 ≤ n → n ≤ q.position.dim → s.s_list n (2 * degree) = .ok (L2 n)) :
    ∃ A, discretize_op (quad_varf_tensorize order k sparse slack eig degree s q)
        (fun f ds => quad_varfd_tensorize order k sparse slack eig degree s ds q f) fn q q.position.dirs
        (argsOf vars T) = .ok A ∧ VarfOk A ∧ A.is_sparse = sparse ∧ A.position = q.position ∧ A.factor = q.factor ∧ A.index_set = s ∧
      SameSets s A.degree degree ∧
      ∀ I J, InSet s q.position.dim degree I → InSet s q.position.dim degree J →
        ∃ (x : ℝ) (c : List ℕ → Product F → Finset ℕ → ℝ) (J' : List ℕ → Product F → Finset ℕ → List ℕ), Entry A I J x ∧
          (∀ m ∈ ordersOf T, ∀ args ∈ (fn (coeffAt T m)).terms, ∀ b ∈ blocks args, InSet s b.card degree (J' m args b) ∧
            Derives (subQuad q p (b.sort (· ≤ ·))) ((orderDirs q.position.dirs m).filter fun d => d ∈ b)
              ((b.sort (· ≤ ·)).map (at' q.position.dirs J)) (c m args b) (J' m args b)) ∧
          |x - opEntry q ev T I J| ≤ ∑ m ∈ ordersOf T,
            ((fn (coeffAt T m)).terms.map fun args => blockBoundD q p (blocks args) L2 args I (c m args) (J' m args)).sum := by
  have h1 : 1 ≤ q.position.dim := Nat.one_le_iff_ne_zero.2 (PosOk.dim_pos hq.pos hq.dirs_ne)
  obtain ⟨L, hL⟩ := iterOk_exists (hU _ h1 le_rfl).toSized.fits'
  have hL2 : ∀ n, 1 ≤ n → n ≤ q.position.dim → IterOk s n (2 * degree) (L2 n) := fun n h h' => IterOk.of_list (hz2.sub h h').fits' (hL2 n h h')
  have hin : ∀ m, ∀ d ∈ orderDirs q.position.dirs m, d ∈ q.position.dirs := fun m d hd => mem_orderDirs hd
  have hpart : ∀ m, coeffAt T m ≠ 0 → _ := fun m hm => quad_varfd_tensorize_kept ho k (sparse := sparse) he hq hp hU hz2 hds
    (hfn (coeffAt T m)).1 (hfn (coeffAt T m)).2.1 (hfn (coeffAt T m)).2.2 (ds := orderDirs q.position.dirs m)
    (fun args ha bs hb b hbb => (hcl m hm args ha b ((hb.perm (hbl m hm args ha)).mem_iff.1 hbb)).2) hL2 hL
  choose! G hG eG using hpart
  obtain ⟨ok, hent⟩ := form_of_entries (sparse := sparse) (fun I J => ∑ m ∈ ordersOf T, ((fn (coeffAt T m)).terms.map fun args => G m args I J).sum)
    hq.pos hq.dirs_ne (hU _ h1 le_rfl) (factor := q.factor) hL
  refine ⟨_, discretize_op_parts (G := fun m I J => ((fn (coeffAt T m)).terms.map fun args => G m args I J).sum)
    hq hU hL hvars hc hl h5 (fun h0 => absurd (h0 _) hT.choose_spec) eG, ok, rfl, rfl, rfl, rfl, recDegree_same s degree, fun I J hI hJ => ?_⟩
  have hone : ∀ m ∈ ordersOf T, ∀ args ∈ (fn (coeffAt T m)).terms, _ := fun m hm args ha =>
    have hm := (Finset.mem_filter.1 hm).2
    tensorize_term_close hq hvar hp hU hz2 hds (hbl m hm args ha)
      (fun b hbb => (hcl m hm args ha b hbb).2) (fun b hbb => (hcl m hm args ha b hbb).1) hL2 hI hJ
  choose! c J' hd' hclose using hone
  refine ⟨_, c, J', hent I J hI hJ, hd', ?_⟩
  rw [opEntry_orders q ev (vars := vars) hc (by rw [hvars]; exact hl) h5, ← Finset.sum_sub_distrib]
  refine (Finset.abs_sum_le_sum_abs _ _).trans (Finset.sum_le_sum fun m hm => ?_)
  have hsum : dformEntry q (ev (coeffAt T m)) (orderDirs q.position.dirs m) I J =
      ((fn (coeffAt T m)).terms.map fun args => dformEntry q (productValue args) (orderDirs q.position.dirs m) I J).sum := by
    rw [dformEntry_sum, ← hev]
    rfl
  rw [hsum, ← Multiset.sum_map_sub]
  refine (Multiset.abs_sum_le_sum_abs).trans ?_
  rw [Multiset.map_map]
  refine Multiset.sum_map_le_sum_map _ _ fun args hargs => ?_
  have h := hclose m hm args hargs
  rw [← hG m (Finset.mem_filter.1 hm).2 args _ (hbl m (Finset.mem_filter.1 hm).2 args hargs), List.filter_eq_self.2 (by simpa using hin m)] at h
  exact h

/-! ## The hypotheses can be met -/

attribute [local instance] interp70 decEq70

theorem lists98 : ∃ L2 : ℕ → List (List ℕ), ∀ n, 1 ≤ n → n ≤ (quadXX "fourier" 0).position.dim → IndexSet.triangle.s_list n (2 * 2) = .ok (L2 n) := by
  have hex : ∀ n, ∃ L, 1 ≤ n → n ≤ (quadXX "fourier" 0).position.dim → IndexSet.triangle.s_list n (2 * 2) = .ok L := by
    intro n
    by_cases hn : 1 ≤ n ∧ n ≤ (quadXX "fourier" 0).position.dim
    · obtain ⟨L, hL⟩ := iterOk_exists ((sizedXX "fourier" 0 .triangle (degree := 2) (by simp)).sub hn.1 hn.2).fits'
      exact ⟨L, fun _ _ => hL.list⟩
    · exact ⟨[], fun h1 h2 => absurd ⟨h1, h2⟩ hn⟩
  choose L2 hL2 using hex
  exact ⟨L2, hL2⟩

theorem singles98 {args : Product ℝ} (h : ∀ a ∈ args, a.1 = ∅ ∨ a.1 = {0} ∨ a.1 = {1}) :
    BlocksOk (quadXX "fourier" 0).position.dirs.toFinset args 0 [{0}, {1}] := by
  refine ⟨by simp, ⟨by simp, ?_, ?_⟩, ?_, by simp, ?_⟩
  · intro b hb c hc x hx hx'
    simp at hb hc
    rcases hb with rfl | rfl <;> rcases hc with rfl | rfl <;> simp at hx hx' ⊢ <;> omega
  · intro x
    simp [quadXX]
  · intro a ha hne
    rcases h a ha with h | h | h
    · simp [h] at hne
    · exact ⟨{0}, by simp, by simp [h]⟩
    · exact ⟨{1}, by simp, by simp [h]⟩
  · intro P hP _ _ b hb
    have hd : ∃ d, d ∈ (quadXX "fourier" 0).position.dirs.toFinset ∧ b = {d} := by
      simp at hb
      rcases hb with rfl | rfl
      · exact ⟨0, by simp [quadXX], rfl⟩
      · exact ⟨1, by simp [quadXX], rfl⟩
    obtain ⟨d, hd, rfl⟩ := hd
    obtain ⟨c, hc, hdc⟩ := (hP.cover d).1 hd
    exact ⟨c, hc, by simpa using hdc⟩

theorem closed98 (ds : List ℕ) : ∀ b ∈ ([{0}, {1}] : List (Finset ℕ)),
    Closed .triangle b.card 2 (subQuad (F := ℝ) (quadXX "fourier" 0) 0 (b.sort (· ≤ ·))).do_fourier ∧
      DiffClosed .triangle 2 (subQuad (F := ℝ) (quadXX "fourier" 0) 0 (b.sort (· ≤ ·))) ds := by
  intro b hb
  have hd : ∃ d, (d = 0 ∨ d = 1) ∧ b = {d} := by
    simp at hb
    rcases hb with rfl | rfl
    · exact ⟨0, Or.inl rfl, rfl⟩
    · exact ⟨1, Or.inr rfl, rfl⟩
  obtain ⟨d, hd, rfl⟩ := hd
  rw [Finset.sort_singleton, subXX _ _ hd]
  exact ⟨C35_closed _ _ _ _ rfl (by simp) (by simp) (by simp), fun d' _ _ _ => C40_closed _ _ _ _ rfl (by simp) (by simp)⟩

/-- The hypotheses of `C98_varfd_tensorize` hold for `(c + x) (c + y)`, the derivative in both directions, the triangle and two Fourier directions. -/
example {order : ℕ → Finset (Finset ℕ) → List (Finset ℕ)} (ho : OrderOk order) (k : ℕ) {eig : Eig} (he : EigDiag eig) (sparse : Bool) (c : ℝ) :
    ∃ A L2, quad_varfd_tensorize order k sparse 0 eig 2 .triangle [0, 1] (quadXX "fourier" 0) (prod70 c) = .ok A ∧
      ∀ I J, InSet .triangle 2 2 I → InSet .triangle 2 2 J → ∃ (x : ℝ) (a : Product ℝ → Finset ℕ → ℝ) (J' : Product ℝ → Finset ℕ → List ℕ), Entry A I J x ∧
        |x - dformEntry (quadXX "fourier" 0) (prod70 c).value [0, 1] I J| ≤
          ((prod70 c).terms.map fun args => blockBoundD (quadXX "fourier" 0) 0 [{0}, {1}] L2 args I (a args) (J' args)).sum := by
  have hfl : (quadXX "fourier" 0).do_fourier = [1, 1] := by simp [quadXX, HQuad.do_fourier]
  obtain ⟨L2, hL2⟩ := lists98
  obtain ⟨A, e, -, -, -, -, -, -, h⟩ := C98_varfd_tensorize (F := ℝ) (sparse := sparse) ho k he (quadXX_ok "fourier" 0) (quadXX_var _ _) (p := 0) rfl
    (usableTo_small _ (by simp [quadXX]) (show 2 ≤ 250 by omega)) (sizedXX _ _ _ (by simp)) (slack := 0) (s := .triangle)
    (by rw [hfl]; exact ⟨by simp, by simp, by simp⟩) (prod70_ok c) rfl (by simp [prod70]) (ds := [0, 1]) (by simp [quadXX])
    (blocks := fun _ => [{0}, {1}]) (by
      intro args hargs
      rw [prod70, Multiset.mem_singleton] at hargs
      subst hargs
      exact singles98 (by simp)) (fun _ _ => closed98 _) hL2
  refine ⟨A, L2, e, fun I J hI hJ => ?_⟩
  obtain ⟨x, a, J', h2, -, h3⟩ := h I J hI hJ
  exact ⟨x, a, J', h2, h3⟩

/-- The hypotheses of `C98_op_tensorize` hold for the operator `f_x + 10⁻¹³ f_yy`. -/
example {order : ℕ → Finset (Finset ℕ) → List (Finset ℕ)} (ho : OrderOk order) (k : ℕ) {eig : Eig} (he : EigDiag eig) (sparse : Bool) : ∃ A,
    discretize_op (quad_varf_tensorize order k sparse 0 eig 2 .triangle (quadXX "fourier" 0))
        (fun f ds => quad_varfd_tensorize order k sparse 0 eig 2 .triangle ds (quadXX "fourier" 0) f)
        constFn (quadXX "fourier" 0) [0, 1] (argsOf [(5 : ℝ), 7] [⟨1, [1, 0]⟩, ⟨1 / 10 ^ 13, [0, 2]⟩]) = .ok A ∧
      ∀ I J, InSet .triangle 2 2 I → InSet .triangle 2 2 J → ∃ x, Entry A I J x := by
  have hfl : (quadXX "fourier" 0).do_fourier = [1, 1] := by simp [quadXX, HQuad.do_fourier]
  obtain ⟨L2, hL2⟩ := lists98
  obtain ⟨A, e, -, -, -, -, -, -, h⟩ := C98_op_tensorize (K := ℝ) (F := ℝ) (sparse := sparse) ho k he (quadXX_ok "fourier" 0) (quadXX_var _ _)
    (p := 0) rfl (usableTo_small _ (by simp [quadXX]) (show 2 ≤ 250 by omega)) (sizedXX _ _ _ (by simp)) (slack := 0) (s := .triangle)
    (by rw [hfl]; exact ⟨by simp, by simp, by simp⟩) (fn := constFn)
    (fun c => ⟨⟨by simp [constFn], by simp [constFn]⟩, rfl, by simp [constFn]⟩) (ev := constEv)
    (fun c => by funext x; simp [constFn, SFn.value, productValue, Interp.val, constEv]) (vars := [5, 7]) (by simp [quadXX])
    (T := [⟨1, [1, 0]⟩, ⟨1 / 10 ^ 13, [0, 2]⟩]) (by simp) (by simp [quadXX]) (by simp) ⟨[1, 0], by simp [coeffAt]⟩
    (blocks := fun _ => [{0}, {1}]) (by
      intro m _ args hargs
      rw [constFn, Multiset.mem_singleton] at hargs
      subst hargs
      exact singles98 (by simp)) (fun _ _ _ _ => closed98 _) hL2
  refine ⟨A, e, fun I J hI hJ => ?_⟩
  obtain ⟨x, -, -, h2, -⟩ := h I J hI hJ
  exact ⟨x, h2⟩

end Hermipy.Props
