import Verif.Lemmas.EigsComplex
import Verif.Props.Solve
import Verif.Props.Cache

/-! # C93: `Varf.eigs` -/

namespace Hermipy.Props
open Hermipy Hermipy.Spec Hermipy.Cache

section
variable {Φ : Type}

theorem own_ext {A : HVarf Φ} {s : HSeries Φ} (h : Own A s) : s = ⟨s.coeffs, A.position, A.degree, A.factor, A.index_set⟩ := by
  obtain ⟨c, p, d, f, i⟩ := s
  obtain ⟨-, rfl, rfl, rfl, rfl⟩ := h
  rfl

/-- The series of the parts of an eigenvector. -/
theorem eigSeries_ok {A : HVarf Φ} (hA : VarfOk A) {v : List ℂ} {l : ℂ} (hv : v.length = A.matrix.length)
    (he : mulVecC A.matrix v = v.map (l * ·)) (h1 : (v.map Complex.normSq).sum = 1) :
    ∃ s, eigSeries A v = .ok s ∧ Eigenfunction A (1 / 10 ^ 15) l s := by
  obtain ⟨er, ownr⟩ := own_make hA (x := v.map Complex.re) (by simpa using hv)
  obtain ⟨ei, owni⟩ := own_make hA (x := v.map Complex.im) (by simpa using hv)
  obtain ⟨-, ownr'⟩ := own_make hA (x := mulVec A.matrix (v.map Complex.re)) (by simp [mulVec])
  obtain ⟨-, owni'⟩ := own_make hA (x := mulVec A.matrix (v.map Complex.im)) (by simp [mulVec])
  have hn := normSq_sum v
  rw [h1] at hn
  rw [eigSeries]
  by_cases hi : vecNorm (v.map Complex.im) > 1 / 10 ^ 15
  · rw [if_pos hi, er, Out.ok_bind, ei]
    refine ⟨_, rfl, ownr, owni, hn.symm, _, _, call_eq hA (own_fits ownr), call_eq hA (own_fits owni), ownr', owni', ?_, ?_⟩
    · simp only [mulVec_re he, List.zipWith_map, List.zipWith_self]
    · simp only [mulVec_im he, List.zipWith_map, List.zipWith_self]
  · rw [if_neg hi, er]
    have h2 := vecNorm_sq (v.map Complex.im)
    have h3 := vecNorm_nonneg (v.map Complex.im)
    have h4 : vecNorm (v.map Complex.im) ^ 2 ≤ (1 / 10 ^ 15 : ℝ) ^ 2 := pow_le_pow_left₀ h3 (not_lt.mp hi) 2
    refine ⟨_, rfl, ownr, ?_, ?_, _, call_eq hA (own_fits ownr), ownr', ?_⟩
    · simp only
      linarith
    · simp only
      nlinarith
    · simp only [mulVec_re he]
      rw [distance_re, mul_comm]
      exact mul_le_mul_of_nonneg_right (not_lt.mp hi) (abs_nonneg _)

theorem mapM_ok {α β : Type} {f : α → Out β} {l : List α} (h : ∀ x ∈ l, ∃ y, f x = .ok y) :
    ∃ ys, l.mapM f = .ok ys ∧ ys.length = l.length ∧ ∀ (k : ℕ) x, l[k]? = some x → ∃ y, ys[k]? = some y ∧ f x = .ok y := by
  induction l with
  | nil => exact ⟨[], rfl, rfl, by simp⟩
  | cons a l ih =>
    obtain ⟨y, hy⟩ := h a (by simp)
    obtain ⟨ys, e, hl, hk⟩ := ih fun x hx => h x (by simp [hx])
    refine ⟨y :: ys, by rw [List.mapM_cons, hy, Out.ok_bind, e]; rfl, by simp [hl], ?_⟩
    rintro (_ | k) x hx
    · simp at hx
      subst hx
      exact ⟨y, by simp, hy⟩
    · simpa using hk k x (by simpa using hx)

/-- **C93.** If the library routine is exact, `A.eigs()` returns its eigenvalues, and as many series, each with the position, factor, index set and
degree of the form, which are eigenfunctions: exactly and of norm one if the coefficients are complex; if they are real, up to
`1e-15 |Im λ|`, and of squared norm between `1 - 1e-30` and 1. -/
theorem C93_eigs {eigs : EigSolver} (hE : ExactEigs eigs) {A : HVarf Φ} (hA : VarfOk A) {vals : List ℂ} {vecs : List (List ℂ)}
    (h : eigs A.matrix = .ok (vals, vecs)) :
    ∃ res, varf_eigs eigs A = .ok (vals, res) ∧ res.length = vals.length ∧
      ∀ (k : ℕ) l s, vals[k]? = some l → res[k]? = some s → Eigenfunction A (1 / 10 ^ 15) l s := by
  obtain ⟨hl, hk⟩ := hE _ _ _ hA.square h
  have hs : ∀ (k : ℕ) v, vecs[k]? = some v → ∃ l s, vals[k]? = some l ∧ eigSeries A v = .ok s ∧ Eigenfunction A (1 / 10 ^ 15) l s := by
    intro k v hv
    have hkl : k < vals.length := by
      rw [hl]
      exact (List.getElem?_eq_some_iff.mp hv).1
    obtain ⟨h1, h2, h3⟩ := hk k _ v (List.getElem?_eq_getElem hkl) hv
    obtain ⟨s, e, hs⟩ := eigSeries_ok hA h1 h2 h3
    exact ⟨_, s, List.getElem?_eq_getElem hkl, e, hs⟩
  obtain ⟨res, e, hrl, hres⟩ := mapM_ok (f := eigSeries A) (l := vecs) fun v hv => by
    obtain ⟨k, hk⟩ := List.mem_iff_getElem?.mp hv
    obtain ⟨l, s, -, e, -⟩ := hs k v hk
    exact ⟨s, e⟩
  refine ⟨res, by rw [varf_eigs, h, Out.ok_bind]; simp only [e, Out.ok_bind], hrl.trans hl.symm, ?_⟩
  intro k l s hl' hs'
  have hkv : k < vecs.length := by
    rw [← hl]
    exact (List.getElem?_eq_some_iff.mp hl').1
  obtain ⟨y, hy, ey⟩ := hres k _ (List.getElem?_eq_getElem hkv)
  obtain ⟨l2, s2, h1, h2, h3⟩ := hs k _ (List.getElem?_eq_getElem hkv)
  rw [hy] at hs'
  cases hs'
  rw [hl'] at h1
  cases h1
  rw [ey] at h2
  cases h2
  exact h3

/-- The vector of the library from which a series comes. -/
theorem eig_parts {eigs : EigSolver} (hE : ExactEigs eigs) {A : HVarf Φ} (hA : VarfOk A) {vals : List ℂ} {res : List (EigSeries Φ)}
    (h : varf_eigs eigs A = .ok (vals, res)) {k : ℕ} {l : ℂ} {s : EigSeries Φ} (hl : vals[k]? = some l) (hs : res[k]? = some s) :
    ∃ v, v.length = A.matrix.length ∧ mulVecC A.matrix v = v.map (l * ·) ∧ (v.map Complex.normSq).sum = 1 ∧ eigSeries A v = .ok s := by
  rw [varf_eigs] at h
  obtain ⟨⟨a, b⟩, h1, h2⟩ := bind_eq_ok h
  obtain ⟨r, h4, h3⟩ := bind_eq_ok h2
  cases h3
  obtain ⟨hll, hk⟩ := hE _ _ _ hA.square h1
  have hkb : k < b.length := by
    rw [← hll]
    exact (List.getElem?_eq_some_iff.mp hl).1
  obtain ⟨g1, g2, g3⟩ := hk k l _ hl (List.getElem?_eq_getElem hkb)
  refine ⟨_, g1, g2, g3, ?_⟩
  obtain ⟨ys, e, -, hres⟩ := mapM_ok (f := eigSeries A) (l := b) fun v hv => by
    obtain ⟨j, hj⟩ := List.mem_iff_getElem?.mp hv
    have hjl : j < vals.length := by
      rw [hll]
      exact (List.getElem?_eq_some_iff.mp hj).1
    obtain ⟨q1, q2, q3⟩ := hk j _ v (List.getElem?_eq_getElem hjl) hj
    obtain ⟨s, e, -⟩ := eigSeries_ok hA q1 q2 q3
    exact ⟨s, e⟩
  rw [h4] at e
  cases e
  obtain ⟨y, hy, ey⟩ := hres k _ (List.getElem?_eq_getElem hkb)
  rw [hs] at hy
  cases hy
  exact ey

/-- A series with real coefficients has the real parts of a vector whose imaginary parts are small. -/
theorem eigSeries_real {A : HVarf Φ} (hA : VarfOk A) {v : List ℂ} (hv : v.length = A.matrix.length) {s : HSeries Φ}
    (h : eigSeries A v = .ok (.real s)) : s.coeffs = v.map Complex.re ∧ vecNorm (v.map Complex.im) ≤ 1 / 10 ^ 15 := by
  obtain ⟨er, -⟩ := own_make hA (x := v.map Complex.re) (by simpa using hv)
  obtain ⟨ei, -⟩ := own_make hA (x := v.map Complex.im) (by simpa using hv)
  rw [eigSeries] at h
  by_cases hi : vecNorm (v.map Complex.im) > 1 / 10 ^ 15
  · rw [if_pos hi, er, Out.ok_bind, ei] at h
    cases h
  · rw [if_neg hi, er] at h
    cases h
    exact ⟨rfl, not_lt.mp hi⟩

theorem distance_zero {a b : List ℝ} (hl : a.length = b.length) (h : distance a b ≤ 0) : a = b := by
  have h0 : ∀ x ∈ List.zipWith (fun x y => (x - y) ^ 2) a b, (0 : ℝ) ≤ x := by
    intro x hx
    obtain ⟨i, hi, rfl⟩ := List.getElem_of_mem hx
    rw [List.getElem_zipWith]
    positivity
  have h1 : (List.zipWith (fun x y => (x - y) ^ 2) a b).sum = 0 :=
    le_antisymm (Real.sqrt_eq_zero'.mp (le_antisymm h (Real.sqrt_nonneg _))) (List.sum_nonneg h0)
  refine List.ext_getElem hl fun i hi hi' => ?_
  have hi2 : i < (List.zipWith (fun x y => (x - y) ^ 2) a b).length := by simp [hi, hi']
  have := List.single_le_sum h0 _ (List.getElem_mem hi2)
  rw [h1, List.getElem_zipWith] at this
  nlinarith [sq_nonneg (a[i] - b[i])]

/-- **C93.** For a real eigenvalue, a series with real coefficients is an exact eigenfunction, and it is not zero. -/
theorem C93_real {eigs : EigSolver} (hE : ExactEigs eigs) {A : HVarf Φ} (hA : VarfOk A) {vals : List ℂ} {res : List (EigSeries Φ)}
    (h : varf_eigs eigs A = .ok (vals, res)) {k : ℕ} {l : ℝ} {s : HSeries Φ} (hl : vals[k]? = some (l : ℂ)) (hs : res[k]? = some (.real s)) :
    Own A s ∧ (∃ I c, Coef s I c ∧ c ≠ 0) ∧ ∃ u, varf_call A s = .ok u ∧ Own A u ∧ ∀ I c d, Coef s I c → Coef u I d → d = l * c := by
  have hv : ∃ vecs, eigs A.matrix = .ok (vals, vecs) := by
    rw [varf_eigs] at h
    obtain ⟨⟨a, b⟩, h1, h2⟩ := bind_eq_ok h
    obtain ⟨r, -, h3⟩ := bind_eq_ok h2
    cases h3
    exact ⟨b, h1⟩
  obtain ⟨vecs, hv⟩ := hv
  obtain ⟨res', e, -, hk⟩ := C93_eigs hE hA hv
  rw [h] at e
  cases e
  obtain ⟨own, hn, -, u, hu, ownu, hd⟩ := hk k _ _ hl hs
  have hls := fits_length hA (own_fits own)
  have hlu := fits_length hA (own_fits ownu)
  rw [Complex.ofReal_im, abs_zero, mul_zero, Complex.ofReal_re] at hd
  have hu' := distance_zero (by simp [hls, hlu]) hd
  refine ⟨own, ?_, u, hu, ownu, ?_⟩
  · by_contra hne
    push Not at hne
    obtain ⟨L, hL, hlen⟩ := own.ok.list
    have h0 : dot s.coeffs s.coeffs = 0 := by
      rw [dot_fin s.coeffs s.coeffs rfl rfl]
      refine Finset.sum_eq_zero fun i _ => ?_
      have := hne (L[i.val]'(by rw [← hlen]; exact i.2)) (s.coeffs[i.val]) ⟨L, i, hL.list, by simp, by simp⟩
      simp [this]
    rw [h0] at hn
    norm_num at hn
  · rintro I c d ⟨L, i, h1, h2, h3⟩ hd
    rw [ownu.ok.coef.2 _ _ _ hd ⟨L, i, ?_, h2, ?_⟩]
    · rw [ownu.index_set, ownu.position, ownu.degree, ← own.index_set, ← own.position, ← own.degree, h1]
    · rw [hu', List.getElem?_map, h3]
      rfl

/-- **C93.** Series with real coefficients come with eigenvalues that are real up to about `1e-15` times the size of the matrix. -/
theorem C93_nearly_real {eigs : EigSolver} (hE : ExactEigs eigs) {A : HVarf Φ} (hA : VarfOk A) {vals : List ℂ} {res : List (EigSeries Φ)}
    (h : varf_eigs eigs A = .ok (vals, res)) {k : ℕ} {l : ℂ} {s : HSeries Φ} (hl : vals[k]? = some l) (hs : res[k]? = some (.real s)) :
    |l.im| ≤ (entriesNorm A.matrix + |l.re|) * (2 / 10 ^ 15) := by
  obtain ⟨v, h1, h2, h3, h4⟩ := eig_parts hE hA h hl hs
  obtain ⟨-, hi⟩ := eigSeries_real hA h1 h4
  have hm := im_small hA.square h1 h2
  have hn := normSq_sum v
  rw [h3, ← vecNorm_sq, ← vecNorm_sq] at hn
  have i0 := vecNorm_nonneg (v.map Complex.im)
  have r0 := vecNorm_nonneg (v.map Complex.re)
  have hr : 1 / 2 ≤ vecNorm (v.map Complex.re) := by
    by_contra hlt
    push Not at hlt
    nlinarith
  have hF : 0 ≤ entriesNorm A.matrix + |l.re| := add_nonneg (Real.sqrt_nonneg _) (abs_nonneg _)
  have a1 := mul_le_mul_of_nonneg_left hi hF
  have a2 := mul_le_mul_of_nonneg_left hr (abs_nonneg l.im)
  linarith

end

/-! ## `remove0` -/

section
variable {F : Type} [DecidableEq F] {solver : Solver} {gmres : List (List ℝ) → List ℝ → Out (List ℝ)} {g ilu : Bool}
  {solverC : SolverC} {gmresC : List (List ℂ) → List ℂ → Out (List ℂ)}

/-- `remove0` with an eigenvector that is real up to `1e-15`. -/
theorem remove0_real {eigs : EigSolver} (hE : ExactEigs eigs) {A : HVarf (SFn F)} {f w : HSeries (SFn F)}
    (hs : Solves solver gmres g ilu A.is_sparse) (hA : VarfOk A) (hf : FitsForm A f) (hw : Own A w) (hker : KernelIn A.matrix w.coeffs)
    {p : List ℝ} (hp : p.length = A.matrix.length) (himg : Annihilates p A.matrix) (hpw : dot p w.coeffs ≠ 0)
    {v : List ℂ} (hv : eigs A.matrix = .ok ([0], [v])) (him : √(dot (v.map Complex.im) (v.map Complex.im)) ≤ 1 / 10 ^ 15) :
    ∃ u h, varf_solve_remove0 eigs solver gmres solverC gmresC g ilu A f = .ok (.real u) ∧ Own A u ∧ dot w.coeffs u.coeffs = 0 ∧
      varf_call A u = .ok h ∧ Own A h ∧ ∀ I a b, Coef f I a → Coef w I b → Coef h I (a - dot p f.coeffs / dot p w.coeffs * b) := by
  rw [← vecNorm_sq, Real.sqrt_sq (vecNorm_nonneg _)] at him
  obtain ⟨hl, hk⟩ := hE _ _ _ hA.square hv
  obtain ⟨h1, h2, h3⟩ := hk 0 0 v rfl rfl
  obtain ⟨er, ownr⟩ := own_make hA (x := v.map Complex.re) (by simpa using h1)
  have hes : eigSeries A v = .ok (.real ⟨v.map Complex.re, A.position, A.degree, A.factor, A.index_set⟩) := by
    rw [eigSeries, if_neg (not_lt.mpr him), er]
    rfl
  have hr0 : ∀ r ∈ A.matrix, dot r (v.map Complex.re) = 0 := by
    intro r hr
    have e := mulVec_re h2
    have : dot r (v.map Complex.re) ∈ mulVec A.matrix (v.map Complex.re) := List.mem_map.mpr ⟨r, hr, rfl⟩
    rw [e] at this
    obtain ⟨z, -, hz⟩ := List.mem_map.mp this
    simpa using hz.symm
  obtain ⟨t, ht⟩ := hker (v.map Complex.re) (by simpa using h1) hr0
  have hn := normSq_sum v
  rw [h3, ← vecNorm_sq, ← vecNorm_sq] at hn
  have i0 := vecNorm_nonneg (v.map Complex.im)
  have hr1 : dot (v.map Complex.re) (v.map Complex.re) ≠ 0 := by
    rw [← vecNorm_sq]
    nlinarith
  have t0 : t ≠ 0 := by
    rintro rfl
    apply hr1
    rw [ht]
    simp [dot, List.zipWith_self]
  have hsc : ∀ x : List ℝ, dot x (v.map Complex.re) = t * dot x w.coeffs := by
    intro x
    have e : v.map Complex.re = w.coeffs.map (· / t⁻¹) := by
      rw [ht]
      exact List.map_congr_left fun c _ => by rw [div_inv_eq_mul, mul_comm]
    rw [dot_comm, e, dot_scale, div_inv_eq_mul, mul_comm, dot_comm]
  obtain ⟨u, h, e, ownu, horth, hcall, ownh, hcoef⟩ := C75_remove0_partial hs hA hf ownr (by
      intro x hx h0
      obtain ⟨c, hc⟩ := hker x hx h0
      refine ⟨c / t, ?_⟩
      rw [hc]
      simp only
      rw [ht, List.map_map]
      exact List.map_congr_left fun a _ => by simp only [Function.comp]; field_simp) hr1 hp himg (by
      simp only
      rw [hsc]
      exact mul_ne_zero t0 hpw)
  refine ⟨u, h, ?_, ownu, ?_, hcall, ownh, ?_⟩
  · have hne := hf.position
    have hni := hf.index_set
    rw [varf_solve_remove0, if_neg (by tauto), varf_eigs, hv, Out.ok_bind]
    simp only [List.mapM_cons, List.mapM_nil, hes, Out.ok_bind, Out.pure_eq, e]
  · simp only at horth
    rw [dot_comm, hsc, dot_comm] at horth
    rcases mul_eq_zero.mp horth with h0 | h0
    · exact absurd h0 t0
    · exact h0
  · rintro I a b ha ⟨L, i, g1, g2, g3⟩
    have hb : Coef (⟨v.map Complex.re, A.position, A.degree, A.factor, A.index_set⟩ : HSeries (SFn F)) I (t * b) := by
      refine ⟨L, i, ?_, g2, ?_⟩
      · rw [← hw.index_set, ← hw.position, ← hw.degree]
        exact g1
      · simp only
        rw [ht, List.getElem?_map, g3]
        rfl
    have := hcoef I a (t * b) ha hb
    simp only at this
    rw [hsc] at this
    have e2 : dot p f.coeffs / (t * dot p w.coeffs) * (t * b) = dot p f.coeffs / dot p w.coeffs * b := by
      field_simp
    rwa [e2] at this

theorem linsolveC_ok {sparse : Bool} (hs : SolvesC solverC gmresC g ilu sparse) {M : List (List ℂ)} {b : List ℂ}
    (hM : ∀ r ∈ M, r.length = M.length) (hb : b.length = M.length) (hn : NonsingularC M) :
    ∃ x, runSolverC solverC gmresC g ilu sparse M b = .ok x ∧ x.length = M.length ∧ M.map (dotC · x) = b := by
  have hc : ¬ ((∃ r ∈ M, r.length ≠ M.length) ∨ b.length ≠ M.length) := by
    rintro (⟨r, hr, h⟩ | h)
    · exact h (hM r hr)
    · exact h hb
  rcases hs with ⟨rfl, h⟩ | ⟨rfl, rfl, h⟩
  · obtain ⟨x, e, h1, h2⟩ := h M b hM hb hn
    exact ⟨x, by rw [runSolverC, if_neg (by simp), linsolveC, if_neg hc, e], h1, h2⟩
  · obtain ⟨x, e, h1, h2⟩ := h M b hM hb hn
    exact ⟨x, by rw [runSolverC, if_pos rfl, if_pos rfl, linsolveC, if_neg hc, e], h1, h2⟩

/-- What `remove0` does with an eigenvector that is not real. -/
theorem remove0_complex_eq {eigs : EigSolver} (hE : ExactEigs eigs) {A : HVarf (SFn F)} {f : HSeries (SFn F)} (hA : VarfOk A) (hf : FitsForm A f)
    {l : ℂ} {v : List ℂ} (hv : eigs A.matrix = .ok ([l], [v])) (him : ¬ vecNorm (v.map Complex.im) ≤ 1 / 10 ^ 15) :
    varf_solve_remove0 eigs solver gmres solverC gmresC g ilu A f = (do
      let solution ← runSolverC solverC gmresC g ilu A.is_sparse (borderedC A.matrix v) (f.coeffs.map Complex.ofReal ++ [0])
      let re ← mkSeries (solution.dropLast.map Complex.re) A.position A.factor A.index_set
      let im ← mkSeries (solution.dropLast.map Complex.im) A.position A.factor A.index_set
      .ok (.complex re im)) := by
  obtain ⟨-, hk⟩ := hE _ _ _ hA.square hv
  obtain ⟨h1, -, -⟩ := hk 0 l v rfl rfl
  obtain ⟨er, -⟩ := own_make hA (x := v.map Complex.re) (by simpa using h1)
  obtain ⟨ei, -⟩ := own_make hA (x := v.map Complex.im) (by simpa using h1)
  have hne := hf.position
  have hni := hf.index_set
  have hz : List.zipWith (fun a b => (⟨a, b⟩ : ℂ)) (v.map Complex.re) (v.map Complex.im) = v := by
    rw [List.zipWith_map, List.zipWith_self]
    simp
  rw [varf_solve_remove0, if_neg (by tauto), varf_eigs, hv, Out.ok_bind]
  simp only [List.mapM_cons, List.mapM_nil, eigSeries, if_pos (not_le.mp him), er, ei, Out.ok_bind, Out.pure_eq]
  rw [solveComplex]
  simp only [hz]
  rw [borderC_ok hA.square h1, Out.ok_bind]

/-- `remove0` with an eigenvector that is not real: the eigenvector is a complex multiple of a real one, and the solution is real. -/
theorem remove0_complex {eigs : EigSolver} (hE : ExactEigs eigs) {A : HVarf (SFn F)} {f w : HSeries (SFn F)}
    (hs : SolvesC solverC gmresC g ilu A.is_sparse) (hA : VarfOk A) (hf : FitsForm A f) (hw : Own A w) (hker : KernelIn A.matrix w.coeffs)
    {p : List ℝ} (hp : p.length = A.matrix.length) (himg : Annihilates p A.matrix) (hpw : dot p w.coeffs ≠ 0)
    {v : List ℂ} (hv : eigs A.matrix = .ok ([0], [v])) (him : ¬ vecNorm (v.map Complex.im) ≤ 1 / 10 ^ 15) :
    ∃ u h i, varf_solve_remove0 eigs solver gmres solverC gmresC g ilu A f = .ok (.complex u i) ∧ Own A u ∧ (∀ c ∈ i.coeffs, c = 0) ∧
      dot w.coeffs u.coeffs = 0 ∧ varf_call A u = .ok h ∧ Own A h ∧
      ∀ I a b, Coef f I a → Coef w I b → Coef h I (a - dot p f.coeffs / dot p w.coeffs * b) := by
  obtain ⟨-, hk⟩ := hE _ _ _ hA.square hv
  obtain ⟨h1, h2, h3⟩ := hk 0 0 v rfl rfl
  have hlw := fits_length hA (own_fits hw)
  have hlf := fits_length hA hf
  have hpart : ∀ y : List ℝ, y.length = A.matrix.length → (∀ c ∈ mulVec A.matrix y, c = 0) → ∃ t, y = w.coeffs.map (t * ·) := by
    intro y hy h0
    exact hker y hy fun r hr => h0 _ (List.mem_map.mpr ⟨r, hr, rfl⟩)
  obtain ⟨t1, ht1⟩ := hpart (v.map Complex.re) (by simpa using h1) (by
    intro c hc
    rw [mulVec_re h2] at hc
    obtain ⟨z, -, hz⟩ := List.mem_map.mp hc
    simpa using hz.symm)
  obtain ⟨t2, ht2⟩ := hpart (v.map Complex.im) (by simpa using h1) (by
    intro c hc
    rw [mulVec_im h2] at hc
    obtain ⟨z, -, hz⟩ := List.mem_map.mp hc
    simpa using hz.symm)
  have hvz : v = w.coeffs.map fun a : ℝ => (⟨t1, t2⟩ : ℂ) * (a : ℂ) := by
    refine List.ext_getElem (by simp [h1, hlw]) fun i hi hi' => ?_
    have hi2 : i < w.coeffs.length := by rw [hlw, ← h1]; exact hi
    have e1 := congrArg (fun l => l[i]?) ht1
    have e2 := congrArg (fun l => l[i]?) ht2
    simp only [List.getElem?_map, List.getElem?_eq_getElem hi, List.getElem?_eq_getElem hi2, Option.map_some, Option.some.injEq] at e1 e2
    rw [List.getElem_map]
    exact Complex.ext (by simp [e1]) (by simp [e2])
  have hz : (⟨t1, t2⟩ : ℂ) ≠ 0 := by
    intro h0
    rw [h0] at hvz
    rw [hvz] at h3
    simp at h3
  have hw0 : dot w.coeffs w.coeffs ≠ 0 := by
    intro h0
    rw [normSq_sum, ht1, ht2] at h3
    have : ∀ t : ℝ, dot (w.coeffs.map (t * ·)) (w.coeffs.map (t * ·)) = t ^ 2 * dot w.coeffs w.coeffs := by
      intro t
      rw [dot, dot, List.zipWith_map, List.zipWith_self, List.zipWith_self, ← List.sum_map_mul_left]
      congr 1
      exact List.map_congr_left fun x _ => by ring
    rw [this, this, h0] at h3
    simp at h3
  obtain ⟨s0, hs0⟩ := exists_exact
  have hS : Solves (fun _ => s0) s0 false false A.is_sparse := Or.inl ⟨rfl, hs0⟩
  have hn := border_nonsingular hA.square hlw hker hw0 hp himg hpw
  obtain ⟨u, h, e, ownu, horth, hcall, ownh, hcoef⟩ := C75_remove0_partial hS hA hf hw hker hw0 hp himg hpw
  obtain ⟨u', l, e', -, -, hfu⟩ := solve_bordered (R := .eig w) hS hA hf rfl hlw hn
  rw [e] at e'
  cases e'
  have hlu := fits_length hA (own_fits ownu)
  have hlv : (w.coeffs.map fun a : ℝ => (⟨t1, t2⟩ : ℂ) * (a : ℂ)).length = A.matrix.length := by simpa using hlw
  obtain ⟨y, ey, hy, hym⟩ := linsolveC_ok hs (borderedC_square hA.square hlv) (b := f.coeffs.map Complex.ofReal ++ [0])
    (by simp [borderedC_length hlv, hlf]) (borderedC_nonsingular hz hA.square hlw hn)
  rw [borderedC_length hlv] at hy
  obtain ⟨x, m, rfl, hx⟩ := split_last hy
  obtain ⟨q1, q2⟩ := borderedC_parts hz hA.square hlw hx (by simpa using hlf) hym
  have hbl : (bordered A.matrix w.coeffs).length = A.matrix.length + 1 := by simp [bordered, hlw]
  have hre : x.map Complex.re = u.coeffs := by
    have hb : mulVec (bordered A.matrix w.coeffs) (u.coeffs ++ [l]) = f.coeffs ++ [0] := by
      rw [border_mulVec hA.square hlw hlu, horth, ← hfu]
    have := solution_unique (border_square hA.square hlw) hn (by simp [hbl, hx]) (y := u.coeffs ++ [l]) (by simp [hbl, hlu]) (q1.trans (by rw [hb]; simp [Function.comp_def]))
    exact (List.append_inj' this rfl).1
  have him0 : ∀ c ∈ x.map Complex.im, c = 0 := by
    intro c hc
    refine hn (x.map Complex.im ++ [((⟨t1, t2⟩ : ℂ) * m).im]) (by simp [hbl, hx]) (fun r hr => ?_) c (List.mem_append_left _ hc)
    have : dot r (x.map Complex.im ++ [((⟨t1, t2⟩ : ℂ) * m).im]) ∈ (f.coeffs.map Complex.ofReal).map Complex.im ++ [0] := by
      rw [← q2]
      exact List.mem_map.2 ⟨r, hr, rfl⟩
    simp only [List.map_map, List.mem_append, List.mem_map, Function.comp, Complex.ofReal_im, List.mem_singleton] at this
    rcases this with ⟨_, -, h⟩ | h
    · exact h.symm
    · exact h
  obtain ⟨er, ownr⟩ := own_make hA (x := x.map Complex.re) (by simpa using hx)
  obtain ⟨ei, owni⟩ := own_make hA (x := x.map Complex.im) (by simpa using hx)
  refine ⟨u, h, ⟨x.map Complex.im, A.position, A.degree, A.factor, A.index_set⟩, ?_, ownu, him0, horth, hcall, ownh, hcoef⟩
  rw [remove0_complex_eq hE hA hf hv him, hvz, ey, Out.ok_bind]
  simp only [List.dropLast_concat]
  rw [er, Out.ok_bind, ei, Out.ok_bind, hre, ← own_ext ownu]

/-- **C93.** `A.solve(f, remove0=True)`: if the kernel of the form is spanned by `w`, if `p` is orthogonal to the image of the form but not to `w`,
and if the routine has found the eigenvalue zero, then the result is real (possibly stored with imaginary parts zero) and orthogonal to `w`, and the
form maps it to `f` without its component along `w` (parallel to the image). The eigenvector may be complex. -/
theorem C93_remove0 {eigs : EigSolver} (hE : ExactEigs eigs) {A : HVarf (SFn F)} {f w : HSeries (SFn F)}
    (hs : Solves solver gmres g ilu A.is_sparse) (hsC : SolvesC solverC gmresC g ilu A.is_sparse) (hA : VarfOk A) (hf : FitsForm A f)
    (hw : Own A w) (hker : KernelIn A.matrix w.coeffs) {p : List ℝ} (hp : p.length = A.matrix.length) (himg : Annihilates p A.matrix)
    (hpw : dot p w.coeffs ≠ 0) {v : List ℂ} (hv : eigs A.matrix = .ok ([0], [v])) :
    ∃ r u h, varf_solve_remove0 eigs solver gmres solverC gmresC g ilu A f = .ok r ∧ IsReal r u ∧ Own A u ∧ dot w.coeffs u.coeffs = 0 ∧
      varf_call A u = .ok h ∧ Own A h ∧ ∀ I a b, Coef f I a → Coef w I b → Coef h I (a - dot p f.coeffs / dot p w.coeffs * b) := by
  by_cases him : vecNorm (v.map Complex.im) ≤ 1 / 10 ^ 15
  · obtain ⟨u, h, e, h1⟩ := remove0_real (solverC := solverC) (gmresC := gmresC) hE hs hA hf hw hker hp himg hpw hv (by
      rw [← vecNorm_sq, Real.sqrt_sq (vecNorm_nonneg _)]
      exact him)
    exact ⟨_, u, h, e, Or.inl rfl, h1⟩
  · obtain ⟨u, h, i, e, own, h0, h1⟩ := remove0_complex (solver := solver) (gmres := gmres) hE hsC hA hf hw hker hp himg hpw hv him
    exact ⟨_, u, h, e, Or.inr ⟨i, rfl, h0⟩, own, h1⟩

/-- **C93, finding.** The column appended by `remove0` is transposed and not conjugated. If the form is antisymmetric and the routine returns an
eigenvalue that is not zero, the system is singular, even if the matrix of the form is not, and the call raises when the solver does. -/
theorem C93_remove0_singular {eigs : EigSolver} (hE : ExactEigs eigs) {A : HVarf (SFn F)} {f : HSeries (SFn F)} (hA : VarfOk A)
    (hf : FitsForm A f) (ha : ∀ I J c, Entry A I J c → Entry A J I (-c)) {l : ℂ} (hl : l ≠ 0) {v : List ℂ}
    (hv : eigs A.matrix = .ok ([l], [v])) (hs : ∀ M b, ¬ NonsingularC M → solverC A.is_sparse M b = .throws) :
    varf_solve_remove0 eigs solver gmres solverC gmresC false ilu A f = .throws := by
  obtain ⟨-, hk⟩ := hE _ _ _ hA.square hv
  obtain ⟨h1, h2, h3⟩ := hk 0 l v rfl rfl
  obtain ⟨L, hL, hlen⟩ := hA.list
  have ha' : ∀ i j : Fin A.matrix.length, (A.matrix.getD i []).getD j 0 = -(A.matrix.getD j []).getD i 0 := by
    intro i j
    have hri := hA.square _ (List.getElem_mem i.2)
    have hrj := hA.square _ (List.getElem_mem j.2)
    have e1 : Entry A (L[(i : ℕ)]'(by omega)) (L[(j : ℕ)]'(by omega)) ((A.matrix[(i : ℕ)])[(j : ℕ)]'(by omega)) :=
      ⟨L, i, j, A.matrix[(i : ℕ)], hL.list, by simp, by simp, by simp, by simp⟩
    have e2 := ha _ _ _ e1
    have e3 : Entry A (L[(j : ℕ)]'(by omega)) (L[(i : ℕ)]'(by omega)) ((A.matrix[(j : ℕ)])[(i : ℕ)]'(by omega)) :=
      ⟨L, j, i, A.matrix[(j : ℕ)], hL.list, by simp, by simp, by simp, by simp⟩
    have := hA.entry.2 _ _ _ _ e2 e3
    simp [hri, hrj, ← this]
  have h0 := antisymmetric_dotC hA.square h1 ha' h2 hl
  have him : ¬ vecNorm (v.map Complex.im) ≤ 1 / 10 ^ 15 := by
    intro hle
    have hp := dotC_self_parts v
    rw [h0, Complex.zero_re] at hp
    rw [normSq_sum] at h3
    have hq := vecNorm_sq (v.map Complex.im)
    have hn := vecNorm_nonneg (v.map Complex.im)
    have : vecNorm (v.map Complex.im) ^ 2 ≤ (1 / 10 ^ 15) ^ 2 := pow_le_pow_left₀ hn hle 2
    norm_num at this
    linarith
  rw [remove0_complex_eq hE hA hf hv him, runSolverC, if_neg (by simp), linsolveC]
  split_ifs
  · rfl
  · rw [hs _ _ (borderedC_singular hA.square h1 h2 h0 h3)]
    rfl

/-- **C93.** `remove0` never returns unless the routine returns one eigenvalue and one eigenvector, and not for series with another position or
index set. -/
theorem C93_remove0_rejects {eigs : EigSolver} {A : HVarf (SFn F)} {f : HSeries (SFn F)} {u : EigSeries (SFn F)} {vals : List ℂ}
    {vecs : List (List ℂ)} (hv : eigs A.matrix = .ok (vals, vecs))
    (h : vals.length ≠ 1 ∨ vecs.length ≠ 1 ∨ ¬ pos_eq A.position f.position ∨ A.index_set ≠ f.index_set) :
    varf_solve_remove0 eigs solver gmres solverC gmresC g ilu A f ≠ .ok u := by
  intro hu
  rw [varf_solve_remove0] at hu
  by_cases hpi : ¬ pos_eq A.position f.position ∨ ¬ A.index_set = f.index_set
  · rw [if_pos hpi] at hu
    cases hu
  rw [if_neg hpi] at hu
  obtain ⟨es, h1, h2⟩ := bind_eq_ok hu
  rw [varf_eigs, hv, Out.ok_bind] at h1
  obtain ⟨res, h3, h4⟩ := bind_eq_ok h1
  cases h4
  have hlen : ∀ (l : List (List ℂ)) r, l.mapM (eigSeries A) = .ok r → r.length = l.length := by
    intro l
    induction l with
    | nil =>
      intro r hr
      cases hr
      rfl
    | cons a l ih =>
      intro r hr
      rw [List.mapM_cons] at hr
      obtain ⟨y, -, hr⟩ := bind_eq_ok hr
      obtain ⟨ys, e, hr⟩ := bind_eq_ok hr
      cases hr
      simp [ih ys e]
  have := hlen _ _ h3
  have hvl : vals.length ≠ 1 ∨ res.length ≠ 1 := by
    rw [this]
    tauto
  have hm : ∀ (vs : List ℂ) (rs : List (EigSeries (SFn F))), (match (vs, rs) with
      | ([_], [EigSeries.real s]) => (do
          let u ← varf_solve solver gmres g ilu A (.eig s) f
          Out.ok (EigSeries.real u))
      | ([_], [EigSeries.complex re im]) => solveComplex solverC gmresC g ilu A re im f
      | _ => .throws) = .ok u → vs.length = 1 ∧ rs.length = 1 := by
    intro vs rs hm
    split at hm
    · rename_i e
      cases e
      exact ⟨rfl, rfl⟩
    · rename_i e
      cases e
      exact ⟨rfl, rfl⟩
    · cases hm
  obtain ⟨q1, q2⟩ := hm _ _ h2
  exact hvl.elim (fun h => h q1) fun h => h q2

end

/-! ## The cache -/

/-- **C93, finding.** Results which are tuples, as those of `spla.eigs`, are never read from the cache: whatever the settings, a call computes them
anew, and the file that is written for them cannot be loaded. -/
theorem C93_uncached {md5 : ByteArray → Str} {dec : Decorator} {name k : Str} {f : Cache.Call → Out Res} {s : Settings} {o : Option Bool} {c : Cache.Call}
    {files : Files} (hk : fileName md5 dec.extend name c = .ok k) (ht : ∀ v, f c = .ok v → ∃ p, v = .tuple p)
    (hf : ∀ e st, files ⟨s.cachedir, k, [e]⟩ = some st → st = .raises) :
    (wrapper md5 dec name f s o c files).1 = f c ∧
      ∀ e st, (wrapper md5 dec name f s o c files).2 ⟨s.cachedir, k, [e]⟩ = some st → st = .raises := by
  have key : ∀ exts, (computeAndSave s files ⟨s.cachedir, k, exts⟩ (f c)).1 = f c ∧
      ∀ e st, (computeAndSave s files ⟨s.cachedir, k, exts⟩ (f c)).2 ⟨s.cachedir, k, [e]⟩ = some st → st = .raises := by
    intro exts
    cases hfc : f c with
    | ok v =>
      obtain ⟨p, rfl⟩ := ht v hfc
      refine ⟨rfl, fun e st hst => ?_⟩
      simp only [computeAndSave, saveResult] at hst
      by_cases hs : s.cache = true
      · simp only [hs, if_true] at hst
        split_ifs at hst <;> first
          | exact hf e st hst
          | (cases hst; rfl)
      · simp only [hs] at hst
        exact hf e st hst
    | stop x => exact ⟨rfl, hf⟩
    | diverge => exact ⟨rfl, hf⟩
  rw [wrapper]
  simp only [hk]
  cases h1 : files ⟨s.cachedir, k, [.npy]⟩ with
  | some st =>
    obtain rfl := hf _ _ h1
    exact key [.npy]
  | none =>
    cases h2 : files ⟨s.cachedir, k, [.npz]⟩ with
    | some st =>
      obtain rfl := hf _ _ h2
      exact key [.npz]
    | none => exact key []

/-! ## Objects meeting the hypotheses -/

/-- The routine which returns the eigenvalue `a 0` and the first unit vector for the diagonal matrix `exDiag a 10`, and raises otherwise. -/
noncomputable def exEigs (a : ℕ → ℝ) : EigSolver :=
  open scoped Classical in
  fun M => if M = exDiag a 10 then .ok ([(a 0 : ℂ)], [(List.range 10).map fun j : ℕ => if 0 = j then (1 : ℂ) else 0]) else .throws

theorem exEigs_exact (a : ℕ → ℝ) : ExactEigs (exEigs a) := by
  intro M vals vecs hM h
  rw [exEigs] at h
  split_ifs at h with hMe
  cases h
  refine ⟨rfl, ?_⟩
  rintro (_ | k) l v hl hv
  · simp only [List.getElem?_cons_zero, Option.some.injEq] at hl hv
    subst hl hv hMe
    refine ⟨by simp [exDiag], ?_, by simp [List.range_succ]⟩
    refine List.ext_getElem (by simp [mulVecC, exDiag]) fun i h1 h2 => ?_
    have hi : i < 10 := by simpa using h2
    simp only [mulVecC, exDiag, List.getElem_map, List.getElem_range]
    interval_cases i <;> simp [List.range_succ]
  · simp at hl

/-- A form of degree 3 in dimension 2, a routine and what it returns. -/
example : ∃ (eigs : EigSolver) (A : HVarf (SFn String)) (vals : List ℂ) (vecs : List (List ℂ)), ExactEigs eigs ∧ VarfOk A ∧
    eigs A.matrix = .ok (vals, vecs) ∧ vals = [2] ∧ A.degree = 3 := by
  obtain ⟨A, n, ok, -, hM, -, -, hd, -, rfl⟩ := exDiag_form fun i => (i : ℝ) + 2
  exact ⟨_, A, _, _, exEigs_exact _, ok, by rw [hM, exEigs, if_pos rfl], by simp, hd⟩

/-- A form whose kernel is spanned by the constant function, and the routine which finds it. -/
example : ∃ (eigs : EigSolver) (A : HVarf (SFn String)) (w : HSeries (SFn String)) (p : List ℝ) (v : List ℂ), ExactEigs eigs ∧ VarfOk A ∧ Own A w ∧
    KernelIn A.matrix w.coeffs ∧ p.length = A.matrix.length ∧ Annihilates p A.matrix ∧ dot p w.coeffs ≠ 0 ∧ eigs A.matrix = .ok ([0], [v]) ∧
    √(dot (v.map Complex.im) (v.map Complex.im)) ≤ 1 / 10 ^ 15 ∧ A.degree = 3 := by
  obtain ⟨A, n, ok, -, hM, -, -, hd, -, rfl⟩ := exDiag_form fun i => (i : ℝ)
  obtain ⟨-, own⟩ := own_make ok (x := (List.range 10).map fun j : ℕ => if 0 = j then (1 : ℝ) else 0) (by rw [hM]; simp [exDiag])
  have he : ∀ x : List ℝ, x.length = 10 → dot ((List.range 10).map fun j : ℕ => if 0 = j then (1 : ℝ) else 0) x = x.getD 0 0 := by
    intro x hx
    rw [exDiag_dot (fun _ => 1) (by omega) x hx, one_mul]
  refine ⟨exEigs fun i => (i : ℝ), A, _, (List.range 10).map fun j : ℕ => if 0 = j then (1 : ℝ) else 0, _, exEigs_exact _, ok, own, ?_,
    by rw [hM]; simp [exDiag], ?_, ?_, by rw [hM, exEigs, if_pos rfl]; simp only [Nat.cast_zero, Complex.ofReal_zero]; rfl, ?_, hd⟩
  · rw [hM]
    intro x hx h0
    have hx : x.length = 10 := by simpa [exDiag] using hx
    refine ⟨x.getD 0 0, ?_⟩
    apply List.ext_getElem (by simp [hx])
    intro i h1 h2
    have := h0 _ (List.mem_map.2 ⟨i, List.mem_range.2 (by omega), rfl⟩)
    rw [exDiag_dot (fun i => (i : ℝ)) (by omega) x hx] at this
    rcases mul_eq_zero.1 this with h | h
    · have : i = 0 := by exact_mod_cast h
      subst this
      simp [h1]
    · have hx0 : x[i] = 0 := by simpa [h1] using h
      by_cases hi : i = 0
      · subst hi
        simp [h1]
      · simp [hx0, Ne.symm hi]
  · rw [hM]
    intro x hx
    have hx : x.length = 10 := by simpa [exDiag] using hx
    rw [he _ (by simp [mulVec, exDiag])]
    have : (mulVec (exDiag (fun i => (i : ℝ)) 10) x).getD 0 0 = dot ((List.range 10).map fun j => if 0 = j then ((0 : ℕ) : ℝ) else 0) x := by
      simp [mulVec, exDiag]
    rw [this, exDiag_dot (fun i => (i : ℝ)) (by omega) x hx]
    simp
  · rw [he _ (by simp)]
    simp
  · simp [List.range_succ, dot]

/-- Exact solvers of complex systems exist. -/
theorem exists_exactC : ∃ solve, ExactSolverC solve := by
  classical
  refine ⟨fun M b => if h : ∃ x : List ℂ, x.length = M.length ∧ M.map (dotC · x) = b then .ok h.choose else .throws, ?_⟩
  intro M b hM hb hn
  have h : ∃ x : List ℂ, x.length = M.length ∧ M.map (dotC · x) = b := by
    let T : Matrix (Fin M.length) (Fin M.length) ℂ := Matrix.of fun i j => (M.getD i []).getD j 0
    have hT : ∀ (y : Fin M.length → ℂ) (i : Fin M.length), T.mulVec y i = dotC (M[(i : ℕ)]'i.2) (List.ofFn y) := by
      intro y i
      rw [dotC_fin (n := M.length) _ _ (hM _ (List.getElem_mem i.2)) (by simp)]
      simp [T, Matrix.mulVec, dotProduct]
    have hinj : Function.Injective T.mulVecLin := by
      rw [injective_iff_map_eq_zero]
      intro y hy
      have := hn (List.ofFn y) (by simp) (by
        intro r hr
        obtain ⟨i, hi, rfl⟩ := List.getElem_of_mem hr
        have := congrFun hy ⟨i, hi⟩
        rw [Matrix.mulVecLin_apply, hT] at this
        exact this)
      funext i
      exact this _ (by simp)
    obtain ⟨y, hy⟩ := LinearMap.injective_iff_surjective.1 hinj fun i => b.getD i 0
    refine ⟨List.ofFn y, by simp, ?_⟩
    apply List.ext_getElem
    · simp [hb]
    · intro i h1 h2
      have hi : i < M.length := by simpa using h1
      have := congrFun hy ⟨i, hi⟩
      rw [Matrix.mulVecLin_apply, hT] at this
      simp only [List.getElem_map]
      simpa [h2] using this
  exact ⟨h.choose, dif_pos h, h.choose_spec⟩

/-- The routine which returns the eigenvalue zero with a complex multiple of the first unit vector. -/
noncomputable def exEigsI (a : ℕ → ℝ) : EigSolver :=
  open scoped Classical in
  fun M => if M = exDiag a 10 then .ok ([(a 0 : ℂ)], [(List.range 10).map fun j : ℕ => if 0 = j then Complex.I else 0]) else .throws

theorem exEigsI_exact (a : ℕ → ℝ) : ExactEigs (exEigsI a) := by
  intro M vals vecs hM h
  rw [exEigsI] at h
  split_ifs at h with hMe
  cases h
  refine ⟨rfl, ?_⟩
  rintro (_ | k) l v hl hv
  · simp only [List.getElem?_cons_zero, Option.some.injEq] at hl hv
    subst hl hv hMe
    refine ⟨by simp [exDiag], ?_, by simp [List.range_succ]⟩
    refine List.ext_getElem (by simp [mulVecC, exDiag]) fun i h1 h2 => ?_
    have hi : i < 10 := by simpa using h2
    simp only [mulVecC, exDiag, List.getElem_map, List.getElem_range]
    interval_cases i <;> simp [List.range_succ]
  · simp at hl

/-- Exact solvers, a form, and a routine which returns a complex eigenvector for the eigenvalue zero; the other hypotheses of `C93_remove0` are met
by this form in the example above. -/
example : ∃ (eigs : EigSolver) (A : HVarf (SFn String)) (v : List ℂ) (solver : Solver) (solverC : SolverC)
    (gmres : List (List ℝ) → List ℝ → Out (List ℝ)) (gmresC : List (List ℂ) → List ℂ → Out (List ℂ)), ExactEigs eigs ∧ VarfOk A ∧
    eigs A.matrix = .ok ([0], [v]) ∧ ¬ vecNorm (v.map Complex.im) ≤ 1 / 10 ^ 15 ∧ A.matrix = exDiag (fun i => (i : ℝ)) 10 ∧
    Solves solver gmres false false A.is_sparse ∧ SolvesC solverC gmresC false false A.is_sparse := by
  obtain ⟨A, n, ok, -, hM, -, -, hd, -, rfl⟩ := exDiag_form fun i => (i : ℝ)
  obtain ⟨s, hs⟩ := exists_exact
  obtain ⟨sC, hsC⟩ := exists_exactC
  refine ⟨exEigsI fun i => (i : ℝ), A, _, fun _ => s, fun _ => sC, s, sC, exEigsI_exact _, ok,
    by rw [hM, exEigsI, if_pos rfl]; simp only [Nat.cast_zero, Complex.ofReal_zero]; rfl, ?_, hM, Or.inl ⟨rfl, hs⟩, Or.inl ⟨rfl, hsC⟩⟩
  rw [vecNorm]
  simp [List.range_succ]
  norm_num

/-- An antisymmetric form of degree 3 in dimension 2: the rotation in the plane of the first two basis functions, and zero on the others. -/
noncomputable def exRot : List (List ℝ) :=
  (List.range 10).map fun i => (List.range 10).map fun j => if i = 0 ∧ j = 1 then -1 else if i = 1 ∧ j = 0 then 1 else 0

/-- The routine which returns the eigenvalue `-i` of the rotation. -/
noncomputable def exEigsRot : EigSolver :=
  open scoped Classical in
  fun M => if M = exRot then .ok ([-Complex.I], [(List.range 10).map fun j : ℕ =>
    if j = 0 then ((1 / √2 : ℝ) : ℂ) else if j = 1 then ((1 / √2 : ℝ) : ℂ) * Complex.I else 0]) else .throws

theorem exEigsRot_exact : ExactEigs exEigsRot := by
  intro M vals vecs hM h
  rw [exEigsRot] at h
  split_ifs at h with hMe
  cases h
  refine ⟨rfl, ?_⟩
  rintro (_ | k) l v hl hv
  · simp only [List.getElem?_cons_zero, Option.some.injEq] at hl hv
    subst hl hv hMe
    refine ⟨by simp [exRot], ?_, ?_⟩
    · refine List.ext_getElem (by simp [mulVecC, exRot]) fun i h1 h2 => ?_
      have hi : i < 10 := by simpa using h2
      simp only [mulVecC, exRot, List.getElem_map, List.getElem_range]
      interval_cases i <;> simp [List.range_succ]
      · ring
      · rw [← mul_assoc, mul_comm _ Complex.I, ← mul_assoc, Complex.I_mul_I]
        ring
    · have h2 : (√2)⁻¹ * (√2)⁻¹ = (1 : ℝ) / 2 := by
        rw [← mul_inv, Real.mul_self_sqrt (by norm_num)]
        norm_num
      simp [List.range_succ, Complex.normSq_mul, -Complex.ofReal_inv]
      linarith
  · simp at hl

/-- The hypotheses of `C93_remove0_singular`. -/
example : ∃ (eigs : EigSolver) (A : HVarf (SFn String)) (f : HSeries (SFn String)) (l : ℂ) (v : List ℂ) (solverC : SolverC), ExactEigs eigs ∧
    VarfOk A ∧ FitsForm A f ∧ (∀ I J c, Entry A I J c → Entry A J I (-c)) ∧ l ≠ 0 ∧ eigs A.matrix = .ok ([l], [v]) ∧
    (∀ M b, ¬ NonsingularC M → solverC A.is_sparse M b = .throws) ∧ ExactSolverC (solverC A.is_sparse) := by
  classical
  have hu := usable_small .triangle (show 1 ≤ pos01.dim by decide) (by decide) (show 3 ≤ 250 by decide)
  obtain ⟨L, hL⟩ := iterOk_exists hu.toSized.fits'
  have hLl : L.length = 10 := by
    rw [hL.length_triangle]
    decide
  have hsq : ∀ r ∈ exRot, r.length = exRot.length := by
    intro r hr
    obtain ⟨i, -, rfl⟩ := List.mem_map.1 hr
    simp [exRot]
  obtain ⟨A, e, ok, -⟩ := mkVarf_ok (b := false) (M := exRot)
    (factor := (⟨[0, 1], {{({0}, "u"), ({1}, "w")}}⟩ : SFn String)) pos01_ok (by decide) hu hL (by simp [exRot, hLl]) hsq
  rw [mkVarf_small hu hL (by simp [exRot, hLl])] at e
  cases e
  obtain ⟨-, own⟩ := own_make ok (x := (List.range 10).map fun i : ℕ => (i : ℝ)) (by simp [exRot])
  obtain ⟨sC, hsC⟩ := exists_exactC
  refine ⟨exEigsRot, _, _, -Complex.I, _, fun _ M b => if NonsingularC M then sC M b else .throws, exEigsRot_exact, ok, own_fits own, ?_, by simp,
    by rw [exEigsRot, if_pos rfl], fun M b h => if_neg h, fun M b h1 h2 h3 => by simpa only [if_pos h3] using hsC M b h1 h2 h3⟩
  rintro I J c ⟨L', i, j, r, h1, h2, h3, h4, h5⟩
  simp only [exRot, List.getElem?_map, Option.map_eq_some_iff] at h4
  obtain ⟨i', hi, rfl⟩ := h4
  simp only [List.getElem?_map, Option.map_eq_some_iff] at h5
  obtain ⟨j', hj, rfl⟩ := h5
  obtain ⟨hi1, hi2⟩ := List.getElem?_eq_some_iff.1 hi
  obtain ⟨hj1, hj2⟩ := List.getElem?_eq_some_iff.1 hj
  rw [List.getElem_range] at hi2 hj2
  subst hi2 hj2
  refine ⟨L', j, i, (List.range 10).map fun k => if j = 0 ∧ k = 1 then -1 else if j = 1 ∧ k = 0 then 1 else 0, h1, h3, h2, ?_, ?_⟩
  · simp only [exRot, List.getElem?_map]
    rw [List.getElem?_eq_getElem hj1, List.getElem_range, Option.map_some]
  · simp only [List.getElem?_map]
    rw [List.getElem?_eq_getElem hi1, List.getElem_range, Option.map_some]
    congr 1
    split_ifs with g1 g2 g3 g4 g5 g6 <;> first | omega | norm_num

end Hermipy.Props
