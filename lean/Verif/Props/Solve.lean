import Verif.Lemmas.Solve
import Verif.Lemmas.VarfTensorize
import Verif.Props.SeriesTensorize

/-! # C75: `Varf.solve` -/

namespace Hermipy.Props
open Hermipy Hermipy.Spec
variable {F : Type}

theorem fits_length {Φ : Type} {A : HVarf Φ} {f : HSeries Φ} (hA : VarfOk A) (hf : FitsForm A f) : f.coeffs.length = A.matrix.length := by
  obtain ⟨L, hL, hlen⟩ := hA.list
  obtain ⟨L', hL', hlen'⟩ := hf.ok.list
  rw [← hf.index_set, ← hf.degree, ← dim_of_dirs hA.pos hf.ok.pos hf.position.1] at hL'
  rw [hlen, hlen', hL'.unique hL]

theorem own_fits {Φ : Type} {A : HVarf Φ} {f : HSeries Φ} (h : Own A f) : FitsForm A f :=
  ⟨h.ok, by rw [h.position]; exact pos_eq_self _, h.index_set.symm, h.degree.symm⟩

/-- The constructor accepts a vector with as many entries as the form has rows. -/
theorem own_make {Φ : Type} {A : HVarf Φ} (hA : VarfOk A) {x : List ℝ} (hx : x.length = A.matrix.length) :
    mkSeries x A.position A.factor A.index_set = .ok ⟨x, A.position, A.degree, A.factor, A.index_set⟩ ∧
      Own A ⟨x, A.position, A.degree, A.factor, A.index_set⟩ := by
  obtain ⟨L, hL, hlen⟩ := hA.list
  obtain ⟨e, ok⟩ := remake_series (coeffs := x) (factor := A.factor) hA.pos hA.dirs hA.usable hL (by rw [hx, hlen])
    (by rw [← hlen]; exact hA.degree)
  exact ⟨e, ok, rfl, rfl, rfl, rfl⟩

theorem call_eq {Φ : Type} {A : HVarf Φ} {f : HSeries Φ} (hA : VarfOk A) (hf : FitsForm A f) :
    varf_call A f = .ok ⟨mulVec A.matrix f.coeffs, A.position, A.degree, A.factor, A.index_set⟩ := by
  rw [varf_call, if_neg (by have := hf.position; have := hf.index_set; tauto),
    matDot_ok fun r hr => by rw [hA.square r hr, fits_length hA hf], Out.ok_bind, (own_make hA (by simp [mulVec])).1]

theorem same_coefs {Φ : Type} {A : HVarf Φ} {f : HSeries Φ} (hA : VarfOk A) (hf : FitsForm A f) :
    SameCoefs (⟨f.coeffs, A.position, A.degree, A.factor, A.index_set⟩ : HSeries Φ) f := by
  intro I c
  simp only [Coef, ← hf.index_set, ← hf.degree, ← dim_of_dirs hA.pos hf.ok.pos hf.position.1]

theorem linsolve_ok {solver : Solver} {gmres : List (List ℝ) → List ℝ → Out (List ℝ)} {g ilu sparse : Bool}
    (hs : Solves solver gmres g ilu sparse) {M : List (List ℝ)} {b : List ℝ} (hM : Square M) (hb : b.length = M.length) (hn : Nonsingular M) :
    ∃ x, runSolver solver gmres g ilu sparse M b = .ok x ∧
      x.length = M.length ∧ mulVec M x = b := by
  have hc : ¬ ((∃ r ∈ M, r.length ≠ M.length) ∨ b.length ≠ M.length) := by
    rintro (⟨r, hr, h⟩ | h)
    · exact h (hM r hr)
    · exact h hb
  rcases hs with ⟨rfl, h⟩ | ⟨rfl, rfl, h⟩
  · obtain ⟨x, e, h1, h2⟩ := h M b hM hb hn
    exact ⟨x, by rw [runSolver, if_neg (by simp), linsolve, if_neg hc, e], h1, h2⟩
  · obtain ⟨x, e, h1, h2⟩ := h M b hM hb hn
    exact ⟨x, by rw [runSolver, if_pos rfl, if_pos rfl, linsolve, if_neg hc, e], h1, h2⟩

variable [DecidableEq F]
variable {solver : Solver} {gmres : List (List ℝ) → List ℝ → Out (List ℝ)} {g ilu : Bool}

/-- **C75.** If the matrix of the form is nonsingular, `A.solve(f)` is a series with the position, factor, index set and degree of the form,
to which the form applies, and the coefficients of `A(A.solve(f))` are those of `f`. -/
theorem C75_solve {A : HVarf (SFn F)} {f : HSeries (SFn F)} (hs : Solves solver gmres g ilu A.is_sparse) (hA : VarfOk A) (hf : FitsForm A f)
    (hn : Nonsingular A.matrix) :
    ∃ u h, varf_solve solver gmres g ilu A .nothing f = .ok u ∧ Own A u ∧ varf_call A u = .ok h ∧ Own A h ∧ SameCoefs h f := by
  have hlen := fits_length hA hf
  obtain ⟨x, e, h1, h2⟩ := linsolve_ok hs hA.square hlen hn
  obtain ⟨e', own⟩ := own_make hA h1
  refine ⟨_, ⟨f.coeffs, A.position, A.degree, A.factor, A.index_set⟩, ?_, own, ?_, (own_make hA hlen).2, same_coefs hA hf⟩
  · rw [varf_solve, if_neg (by have := hf.position; have := hf.index_set; tauto), removalCoeffs, Out.ok_bind, systemOf, Out.ok_bind]
    simp only
    rw [e, Out.ok_bind, dropMultiplier, e']
  · rw [call_eq hA (own_fits own)]
    simp only [h2]

/-- **C75.** Solving undoes applying the form: the coefficients of `A.solve(A(v))` are those of `v`. -/
theorem C75_inverse {A : HVarf (SFn F)} {v f : HSeries (SFn F)} (hs : Solves solver gmres g ilu A.is_sparse) (hA : VarfOk A) (hv : FitsForm A v)
    (hn : Nonsingular A.matrix) (hf : varf_call A v = .ok f) :
    ∃ u, varf_solve solver gmres g ilu A .nothing f = .ok u ∧ Own A u ∧ SameCoefs u v := by
  rw [call_eq hA hv] at hf
  obtain rfl := Out.ok.inj hf
  obtain ⟨-, own⟩ := own_make hA (x := mulVec A.matrix v.coeffs) (by simp [mulVec])
  obtain ⟨x, e, h1, h2⟩ := linsolve_ok hs hA.square (b := mulVec A.matrix v.coeffs) (by simp [mulVec]) hn
  obtain rfl := solution_unique hA.square hn h1 (fits_length hA hv) h2
  obtain ⟨e', own'⟩ := own_make hA h1
  refine ⟨_, ?_, own', same_coefs hA hv⟩
  rw [varf_solve, if_neg (by simpa using pos_eq_self _), removalCoeffs, Out.ok_bind, systemOf, Out.ok_bind]
  simp only
  rw [e, Out.ok_bind, dropMultiplier, e']

/-! ## Removing a vector -/

theorem solve_bordered {A : HVarf (SFn F)} {f : HSeries (SFn F)} {R : Removal (SFn F)} {w : List ℝ}
    (hs : Solves solver gmres g ilu A.is_sparse) (hA : VarfOk A) (hf : FitsForm A f) (hR : removalCoeffs A R = .ok (some w))
    (hw : w.length = A.matrix.length) (hn : Nonsingular (bordered A.matrix w)) :
    ∃ u l, varf_solve solver gmres g ilu A R f = .ok u ∧ Own A u ∧ dot w u.coeffs = 0 ∧
      f.coeffs = List.zipWith (fun a c => a + c * l) (mulVec A.matrix u.coeffs) w := by
  have hlen := fits_length hA hf
  have hb : (bordered A.matrix w).length = A.matrix.length + 1 := by simp [bordered, hw]
  obtain ⟨y, e, h1, h2⟩ := linsolve_ok hs (border_square hA.square hw) (b := f.coeffs ++ [0]) (by simp [hb, hlen]) hn
  obtain ⟨x, l, rfl⟩ : ∃ x l, y = x ++ [l] := by
    have : y ≠ [] := by rintro rfl; rw [hb] at h1; simp at h1
    exact ⟨y.dropLast, y.getLast this, (List.dropLast_append_getLast this).symm⟩
  have hx : x.length = A.matrix.length := by rw [hb] at h1; simpa using h1
  rw [border_mulVec hA.square hw hx] at h2
  obtain ⟨h3, h4⟩ := List.append_inj' h2 rfl
  obtain ⟨e', own⟩ := own_make hA hx
  refine ⟨_, l, ?_, own, by simpa using h4, h3.symm⟩
  rw [varf_solve, if_neg (by have := hf.position; have := hf.index_set; tauto), hR, Out.ok_bind, systemOf]
  rw [border_ok hA.square hw, Out.ok_bind, Out.ok_bind]
  simp only
  rw [e, Out.ok_bind, dropMultiplier, List.dropLast_concat, e']

theorem agree_self {p : Position} (h : p.dirs.Pairwise (· < ·)) (d : ℕ) : Agree p p d := by
  rintro x y ⟨i, r, h1, h2, h3, h4, -⟩ ⟨j, r', k1, k2, k3, k4, -⟩
  have hij : i = j := by
    obtain ⟨hi, e1⟩ := List.getElem?_eq_some_iff.1 h1
    obtain ⟨hj, e2⟩ := List.getElem?_eq_some_iff.1 k1
    exact (List.Nodup.getElem_inj_iff (h.imp (ne_of_lt ·))).1 (e1.trans e2.symm)
  subst hij
  rw [h3] at k3
  cases k3
  rw [h2] at k2
  rw [h4] at k4
  exact ⟨Option.some.inj k2, Option.some.inj k4⟩

/-- The scalar product of two series in the space of the form. -/
theorem own_product {A : HVarf (SFn F)} (hp : ProductFactor A) {v w : HSeries (SFn F)} (hv : Own A v) (hw : Own A w) :
    ∃ r, series_tensorize [v, w] = .ok r ∧ series_float r = .ok (dot v.coeffs w.coeffs) := by
  let _ : Interp F := ⟨fun _ _ _ => 1, fun _ _ _ _ _ => rfl⟩
  obtain ⟨p, ht⟩ := hp.terms
  have hc : ¬ Couples p.toList A.position.dirs := by
    rintro ⟨a, ha, -, y, hy, hn⟩
    exact hn (hp.dirs ▸ hp.fac.vars p (by simp [ht]) a (Multiset.mem_toList.1 ha) y hy)
  have hs : A.position.dirs.Pairwise (· < ·) := hp.dirs ▸ hp.fac.sorted
  obtain ⟨r, e, -, h0, hr, -⟩ := C67_full (s1 := v) (s2 := w) (p1 := p) (p2 := p)
    { ok1 := hv.ok, ok2 := hw.ok, diag1 := by rw [hv.position]; exact hp.diag, diag2 := by rw [hw.position]; exact hp.diag
      fac1 := by rw [hv.factor]; exact hp.fac, fac2 := by rw [hw.factor]; exact hp.fac
      dirs1 := by rw [hv.factor, hv.position]; exact hp.dirs, dirs2 := by rw [hw.factor, hw.position]; exact hp.dirs
      terms1 := by rw [hv.factor]; exact ht, terms2 := by rw [hw.factor]; exact ht
      couples1 := by rw [hv.position]; exact hc, couples2 := by rw [hv.position]; exact hc
      common := by rw [hv.position, hw.position]
      agree := by rw [hv.position, hw.position]; exact fun d _ => agree_self hs d
      index_set := by rw [hv.index_set, hw.index_set], degree := by rw [hv.degree, hw.degree] } (by rw [hv.position, hw.position])
  exact ⟨r, e, by rw [series_float, if_neg (by simp [h0]), hr]; rfl⟩

theorem removal_vec {A : HVarf (SFn F)} (hA : VarfOk A) (hp : ProductFactor A) {v : HSeries (SFn F)} (hv : Own A v) :
    removalCoeffs A (.vec v) = .ok (some (v.coeffs.map (· / √(dot v.coeffs v.coeffs)))) := by
  obtain ⟨r, e, er⟩ := own_product hp hv hv
  have hlen : (v.coeffs.map (· / √(dot v.coeffs v.coeffs))).length = A.matrix.length := by
    rw [List.length_map, fits_length hA (own_fits hv)]
  obtain ⟨ew, own⟩ := own_make hA hlen
  have hd : series_div v (√(dot v.coeffs v.coeffs)) =
      .ok ⟨v.coeffs.map (· / √(dot v.coeffs v.coeffs)), A.position, A.degree, A.factor, A.index_set⟩ := by
    rw [series_div, hv.position, hv.factor, hv.index_set, ew]
  obtain ⟨-, own'⟩ := own_make hA (x := mulVec A.matrix (v.coeffs.map (· / √(dot v.coeffs v.coeffs)))) (by simp [mulVec])
  obtain ⟨r', e', er'⟩ := own_product hp own own'
  rw [removalCoeffs, e, Out.ok_bind, er, Out.ok_bind, hd, Out.ok_bind, call_eq hA (own_fits own), Out.ok_bind]
  simp only
  rw [e', Out.ok_bind, er', Out.ok_bind]

theorem dot_scale (a b : List ℝ) (t : ℝ) : dot (a.map (· / t)) b = dot a b / t := by
  induction a generalizing b with
  | nil => simp [dot]
  | cons x a ih =>
    cases b with
    | nil => simp [dot]
    | cons y b =>
      have := ih b
      simp only [dot, List.map_cons, List.zipWith_cons_cons, List.sum_cons] at this ⊢
      rw [this]
      ring

theorem dot_nonneg_self (a : List ℝ) : 0 ≤ dot a a := by
  induction a with
  | nil => simp [dot]
  | cons x a ih =>
    simp only [dot, List.zipWith_cons_cons, List.sum_cons] at ih ⊢
    nlinarith [mul_self_nonneg x]

theorem dot_combine {n : ℕ} {p a c : List ℝ} (hp : p.length = n) (ha : a.length = n) (hc : c.length = n) (l : ℝ) :
    dot p (List.zipWith (fun a c => a + c * l) a c) = dot p a + dot p c * l := by
  rw [dot_fin p _ hp (by simp [ha, hc]), dot_fin p a hp ha, dot_fin p c hp hc, Finset.sum_mul, ← Finset.sum_add_distrib]
  apply Finset.sum_congr rfl
  intro i _
  simp [ha, hc]
  ring

/-- What removing the vector `v` gives, whether the vector comes normalised from `remove_vec` or not from `eigs`. -/
theorem remove_core {A : HVarf (SFn F)} {f v : HSeries (SFn F)} {R : Removal (SFn F)} {t : ℝ} (ht : t ≠ 0)
    (hs : Solves solver gmres g ilu A.is_sparse) (hA : VarfOk A) (hf : FitsForm A f) (hv : Own A v)
    (hR : removalCoeffs A R = .ok (some (v.coeffs.map (· / t)))) (hv0 : dot v.coeffs v.coeffs ≠ 0) (hker : KernelIn A.matrix v.coeffs)
    {p : List ℝ} (hp : p.length = A.matrix.length) (himg : Annihilates p A.matrix) (hpv : dot p v.coeffs ≠ 0) :
    ∃ u h, varf_solve solver gmres g ilu A R f = .ok u ∧ Own A u ∧ dot v.coeffs u.coeffs = 0 ∧ varf_call A u = .ok h ∧ Own A h ∧
      ∀ I a b, Coef f I a → Coef v I b → Coef h I (a - dot p f.coeffs / dot p v.coeffs * b) := by
  have hlv := fits_length hA (own_fits hv)
  have hlf := fits_length hA hf
  have hw : (v.coeffs.map (· / t)).length = A.matrix.length := by rw [List.length_map, hlv]
  have hpw : dot p (v.coeffs.map (· / t)) = dot p v.coeffs / t := by rw [dot_comm, dot_scale, dot_comm]
  have hn : Nonsingular (bordered A.matrix (v.coeffs.map (· / t))) := by
    apply border_nonsingular hA.square hw (p := p) _ _ hp himg
    · rw [hpw]
      exact div_ne_zero hpv ht
    · intro x hx h0
      obtain ⟨c, hc⟩ := hker x hx h0
      refine ⟨c * t, ?_⟩
      rw [hc, List.map_map]
      apply List.map_congr_left
      intro y _
      simp only [Function.comp]
      field_simp
    · rw [dot_scale, dot_comm, dot_scale]
      exact div_ne_zero (div_ne_zero hv0 ht) ht
  obtain ⟨u, l, e, own, h0, hfu⟩ := solve_bordered hs hA hf hR hw hn
  have hlu := fits_length hA (own_fits own)
  have hl : dot p f.coeffs = dot p v.coeffs / t * l := by
    rw [hfu, dot_combine hp (by simp [mulVec]) hw, himg _ hlu, hpw, zero_add]
  refine ⟨u, _, e, own, ?_, call_eq hA (own_fits own), (own_make hA (by simp [mulVec])).2, ?_⟩
  · rw [dot_scale] at h0
    rcases div_eq_zero_iff.1 h0 with h | h
    · exact h
    · exact absurd h ht
  · intro I a b hfa hvb
    have hdim := dim_of_dirs hA.pos hf.ok.pos hf.position.1
    obtain ⟨L, k, h1, h2, h3⟩ := hfa
    obtain ⟨L', k', j1, j2, j3⟩ := hvb
    rw [← hf.index_set, ← hdim, ← hf.degree] at h1
    rw [hv.index_set, hv.position, hv.degree, h1] at j1
    cases j1
    obtain ⟨L2, hL2, hlen2⟩ := hA.list
    rw [hL2.list] at h1
    cases h1
    obtain ⟨hk, e1⟩ := List.getElem?_eq_some_iff.1 h2
    obtain ⟨hk', e2⟩ := List.getElem?_eq_some_iff.1 j2
    have : k = k' := (List.Nodup.getElem_inj_iff hL2.nodup).1 (e1.trans e2.symm)
    subst this
    refine ⟨_, k, hL2.list, h2, ?_⟩
    have hkA : k < A.matrix.length := by omega
    have hvk : v.coeffs[k]'(by omega) = b := by
      rw [List.getElem?_eq_getElem (by omega)] at j3
      exact Option.some.inj j3
    rw [hfu] at h3
    rw [List.getElem?_eq_getElem (by simp [mulVec, hlv, hkA])] at h3 ⊢
    have h3 := Option.some.inj h3
    rw [List.getElem_zipWith, List.getElem_map, hvk] at h3
    congr 1
    rw [hl, ← h3]
    field_simp
    ring

/-- **C75.** With `remove_vec=v`: if the kernel of the form is spanned by `v`, and if `p` is orthogonal to the image of the form but not to
`v`, the result is orthogonal to `v`, and the form maps it to `f` without its component along `v` (parallel to the image): `f - (p·f / p·v) v`. -/
theorem C75_remove_partial {A : HVarf (SFn F)} {f v : HSeries (SFn F)} (hs : Solves solver gmres g ilu A.is_sparse) (hA : VarfOk A)
    (hpf : ProductFactor A) (hf : FitsForm A f) (hv : Own A v) (hker : KernelIn A.matrix v.coeffs) {p : List ℝ}
    (hp : p.length = A.matrix.length) (himg : Annihilates p A.matrix) (hpv : dot p v.coeffs ≠ 0) :
    ∃ u h, varf_solve solver gmres g ilu A (.vec v) f = .ok u ∧ Own A u ∧ dot v.coeffs u.coeffs = 0 ∧ varf_call A u = .ok h ∧ Own A h ∧
      ∀ I a b, Coef f I a → Coef v I b → Coef h I (a - dot p f.coeffs / dot p v.coeffs * b) := by
  have hv0 : dot v.coeffs v.coeffs ≠ 0 := by
    intro h0
    apply hpv
    have hz : ∀ l : List ℝ, dot l l = 0 → ∀ c ∈ l, c = 0 := by
      intro l
      induction l with
      | nil => simp
      | cons x l ih =>
        intro h c hc
        have e : dot (x :: l) (x :: l) = x * x + dot l l := by simp [dot]
        rw [e] at h
        have h1 := dot_nonneg_self l
        have h2 := mul_self_nonneg x
        rcases List.mem_cons.1 hc with rfl | hc
        · exact mul_self_eq_zero.1 (by linarith)
        · exact ih (by linarith) c hc
    have hl := fits_length hA (own_fits hv)
    rw [dot_fin p _ hp hl]
    apply Finset.sum_eq_zero
    intro i _
    have hi : (i : ℕ) < v.coeffs.length := by rw [hl]; exact i.2
    have := hz _ h0 _ (List.getElem_mem hi)
    simp [hi, this]
  exact remove_core (Real.sqrt_ne_zero'.2 (lt_of_le_of_ne (dot_nonneg_self _) hv0.symm)) hs hA hf hv (removal_vec hA hpf hv) hv0 hker hp himg hpv

/-- **C75.** For a symmetric form whose kernel is spanned by `v`, and for `f` orthogonal to `v`, `A.solve(f, remove_vec=v)` solves the system,
and is orthogonal to `v`. -/
theorem C75_remove_symmetric_partial {A : HVarf (SFn F)} {f v : HSeries (SFn F)} (hs : Solves solver gmres g ilu A.is_sparse) (hA : VarfOk A)
    (hpf : ProductFactor A) (hf : FitsForm A f) (hv : Own A v) (hker : KernelIn A.matrix v.coeffs) (hv1 : ∀ r ∈ A.matrix, dot r v.coeffs = 0)
    (hv0 : dot v.coeffs v.coeffs ≠ 0) (hsym : ∀ I J c, Entry A I J c → Entry A J I c) (hfv : dot v.coeffs f.coeffs = 0) :
    ∃ u h, varf_solve solver gmres g ilu A (.vec v) f = .ok u ∧ Own A u ∧ dot v.coeffs u.coeffs = 0 ∧ varf_call A u = .ok h ∧ Own A h ∧
      SameCoefs h f := by
  have hlv := fits_length hA (own_fits hv)
  obtain ⟨L, hL, hlen⟩ := hA.list
  have hs' : ∀ i j (hi : i < A.matrix.length) (hj : j < A.matrix.length), (A.matrix[i]).getD j 0 = (A.matrix[j]).getD i 0 := by
    intro i j hi hj
    have hri := hA.square _ (List.getElem_mem hi)
    have hrj := hA.square _ (List.getElem_mem hj)
    have h1 : Entry A (L[i]'(by omega)) (L[j]'(by omega)) ((A.matrix[i])[j]'(by omega)) :=
      ⟨L, i, j, A.matrix[i], hL.list, by simp, by simp, by simp, by simp⟩
    have h2 := hsym _ _ _ h1
    have h3 : Entry A (L[j]'(by omega)) (L[i]'(by omega)) ((A.matrix[j])[i]'(by omega)) :=
      ⟨L, j, i, A.matrix[j], hL.list, by simp, by simp, by simp, by simp⟩
    have := hA.entry.2 _ _ _ _ h2 h3
    simp [hri, hrj, hi, hj, this]
  have himg : Annihilates v.coeffs A.matrix := by
    intro x hx
    rw [dot_fin v.coeffs _ hlv (by simp [mulVec])]
    have e1 : ∀ i : Fin A.matrix.length, v.coeffs.getD i 0 * (mulVec A.matrix x).getD i 0 =
        ∑ j : Fin A.matrix.length, x.getD j 0 * ((A.matrix[(j : ℕ)]'j.2).getD i 0 * v.coeffs.getD i 0) := by
      intro i
      have : (mulVec A.matrix x).getD i 0 = dot (A.matrix[(i : ℕ)]'i.2) x := by simp [mulVec]
      rw [this, dot_fin _ x (hA.square _ (List.getElem_mem i.2)) hx, Finset.mul_sum]
      apply Finset.sum_congr rfl
      intro j _
      rw [hs' i j i.2 j.2]
      ring
    rw [Finset.sum_congr rfl fun i _ => e1 i, Finset.sum_comm]
    apply Finset.sum_eq_zero
    intro j _
    rw [← Finset.mul_sum, ← dot_fin _ v.coeffs (hA.square _ (List.getElem_mem j.2)) hlv, hv1 _ (List.getElem_mem j.2), mul_zero]
  obtain ⟨u, h, e, own, h0, eh, ownh, hco⟩ := C75_remove_partial hs hA hpf hf hv hker hlv himg hv0
  refine ⟨u, h, e, own, h0, eh, ownh, ?_⟩
  rw [hfv, zero_div] at hco
  have key : ∀ I a, Coef f I a → Coef h I a := by
    intro I a ha
    obtain ⟨M, k, h1, h2, h3⟩ := ha
    have hk : k < v.coeffs.length := by
      rw [hlv, ← fits_length hA hf]
      exact (List.getElem?_eq_some_iff.1 h3).1
    have hb : Coef v I (v.coeffs[k]) := by
      refine ⟨M, k, ?_, h2, by simp⟩
      rw [hv.index_set, hv.position, hv.degree, hf.index_set, dim_of_dirs hA.pos hf.ok.pos hf.position.1, hf.degree, h1]
    have := hco I a _ ⟨M, k, h1, h2, h3⟩ hb
    simpa using this
  intro I c
  refine ⟨fun hc => ?_, key I c⟩
  obtain ⟨M, k, h1, h2, h3⟩ := hc
  have hk : k < f.coeffs.length := by
    rw [fits_length hA hf, ← fits_length hA (own_fits ownh)]
    exact (List.getElem?_eq_some_iff.1 h3).1
  have hb : Coef f I (f.coeffs[k]) := by
    refine ⟨M, k, ?_, h2, by simp⟩
    rw [← hf.index_set, ← dim_of_dirs hA.pos hf.ok.pos hf.position.1, ← hf.degree, ← ownh.index_set, ← ownh.position, ← ownh.degree, h1]
  rw [ownh.ok.coef.2 _ _ _ ⟨M, k, h1, h2, h3⟩ (key I _ hb)]
  exact hb

/-- **C75.** With `remove0`, for the eigenvector `s` that the library has returned: the same as for `remove_vec`. -/
theorem C75_remove0_partial {A : HVarf (SFn F)} {f s : HSeries (SFn F)} (hs : Solves solver gmres g ilu A.is_sparse) (hA : VarfOk A)
    (hf : FitsForm A f) (hv : Own A s) (hker : KernelIn A.matrix s.coeffs) (hv0 : dot s.coeffs s.coeffs ≠ 0) {p : List ℝ}
    (hp : p.length = A.matrix.length) (himg : Annihilates p A.matrix) (hpv : dot p s.coeffs ≠ 0) :
    ∃ u h, varf_solve solver gmres g ilu A (.eig s) f = .ok u ∧ Own A u ∧ dot s.coeffs u.coeffs = 0 ∧ varf_call A u = .ok h ∧ Own A h ∧
      ∀ I a b, Coef f I a → Coef s I b → Coef h I (a - dot p f.coeffs / dot p s.coeffs * b) :=
  remove_core one_ne_zero hs hA hf hv (by simp [removalCoeffs]) hv0 hker hp himg hpv

/-- **C75.** Whatever the form does to `v`: if the bordered system is nonsingular, the result is orthogonal to `v`, and the form maps it to
`f` up to a multiple of `v`. -/
theorem C75_constrained_partial {A : HVarf (SFn F)} {f v : HSeries (SFn F)} (hs : Solves solver gmres g ilu A.is_sparse) (hA : VarfOk A)
    (hpf : ProductFactor A) (hf : FitsForm A f) (hv : Own A v)
    (hn : Nonsingular (bordered A.matrix (v.coeffs.map (· / √(dot v.coeffs v.coeffs))))) (hv0 : dot v.coeffs v.coeffs ≠ 0) :
    ∃ u h l, varf_solve solver gmres g ilu A (.vec v) f = .ok u ∧ Own A u ∧ dot v.coeffs u.coeffs = 0 ∧ varf_call A u = .ok h ∧
      f.coeffs = List.zipWith (fun a c => a + l * c) h.coeffs v.coeffs := by
  have hlv := fits_length hA (own_fits hv)
  obtain ⟨u, l, e, own, h0, hfu⟩ := solve_bordered hs hA hf (removal_vec hA hpf hv) (by rw [List.length_map, hlv]) hn
  have ht : √(dot v.coeffs v.coeffs) ≠ 0 := Real.sqrt_ne_zero'.2 (lt_of_le_of_ne (dot_nonneg_self _) hv0.symm)
  refine ⟨u, _, l / √(dot v.coeffs v.coeffs), e, own, ?_, call_eq hA (own_fits own), ?_⟩
  · rw [dot_scale] at h0
    rcases div_eq_zero_iff.1 h0 with h | h
    · exact h
    · exact absurd h ht
  · rw [hfu, List.zipWith_map_right]
    congr 1
    funext a c
    field_simp

/-! ## What is rejected, and what is not -/

/-- **C75.** Series with another position, index set or degree are rejected. -/
theorem C75_rejects {A : HVarf (SFn F)} {f : HSeries (SFn F)} (hA : VarfOk A) (hf : SeriesOk f) :
    (∀ R, ¬ pos_eq A.position f.position ∨ A.index_set ≠ f.index_set → varf_solve solver gmres g ilu A R f = .throws) ∧
      (A.degree ≠ f.degree → varf_solve solver gmres g ilu A .nothing f = .throws) := by
  constructor
  · intro R h
    rw [varf_solve, if_pos h]
  · intro hdeg
    rw [varf_solve]
    split
    · rfl
    · rename_i h'
      push Not at h'
      obtain ⟨hp, hs⟩ := h'
      have hne : f.coeffs.length ≠ A.matrix.length := by
        intro e
        have h1 := hA.degree
        have h2 := hf.degree
        rw [← e, dim_of_dirs hA.pos hf.pos hp.1, hs, h2] at h1
        exact hdeg (Out.ok.inj h1).symm
      rw [removalCoeffs, Out.ok_bind, systemOf, Out.ok_bind]
      simp only [runSolver, linsolve, if_pos (Or.inr hne : (∃ r ∈ A.matrix, r.length ≠ A.matrix.length) ∨ f.coeffs.length ≠ A.matrix.length)]
      split_ifs <;> rfl

omit [DecidableEq F] in
theorem bind_eq_ok {α β : Type} {x : Out α} {k : α → Out β} {b : β} (h : (x >>= k) = .ok b) : ∃ a, x = .ok a ∧ k a = .ok b := by
  cases x with
  | ok a => exact ⟨a, rfl, h⟩
  | stop s => cases h
  | diverge => cases h

/-- **C75.** No result is returned for a vector to remove with another position, index set or degree than the form. -/
theorem C75_remove_rejects {A : HVarf (SFn F)} {f v u : HSeries (SFn F)} (hA : VarfOk A) (hv : SeriesOk v)
    (h : ¬ pos_eq A.position v.position ∨ A.index_set ≠ v.index_set ∨ A.degree ≠ v.degree) :
    varf_solve solver gmres g ilu A (.vec v) f ≠ .ok u := by
  intro hu
  rw [varf_solve] at hu
  split_ifs at hu
  obtain ⟨_, hw, -⟩ := bind_eq_ok hu
  rw [removalCoeffs] at hw
  obtain ⟨_, -, hw⟩ := bind_eq_ok hw
  obtain ⟨n2, -, hw⟩ := bind_eq_ok hw
  obtain ⟨w, hd, hw⟩ := bind_eq_ok hw
  obtain ⟨_, hc, -⟩ := bind_eq_ok hw
  obtain ⟨w', e, al, -⟩ := series_map_ok v hv (· / √n2)
  rw [series_div, e] at hd
  obtain rfl := Out.ok.inj hd
  rw [C61_rejects A w' hA al.ok (by rw [al.position, al.index_set, al.degree]; exact h)] at hc
  cases hc

omit [DecidableEq F] in
/-- **C75.** A series without directions stands for its coefficient; other series are rejected by `float`. -/
theorem C75_float (f : HSeries (SFn F)) :
    (f.position.dim ≠ 0 → series_float f = .throws) ∧ ∀ c, f.position.dim = 0 → f.coeffs = [c] → series_float f = .ok c := by
  constructor
  · intro h
    rw [series_float, if_pos h]
  · intro c h hc
    rw [series_float, if_neg (by simp [h]), hc]
    rfl

/-- **C75, finding.** `use_gmres=True` without `preconditioner='ilu'` never returns: the name `M` is not bound. -/
theorem C75_gmres_false (A : HVarf (SFn F)) (R : Removal (SFn F)) (f u : HSeries (SFn F)) :
    varf_solve solver gmres true false A R f ≠ .ok u := by
  rw [varf_solve]
  split
  · simp
  · intro h
    cases hr : removalCoeffs A R with
    | stop s => rw [hr] at h; cases h
    | diverge => rw [hr] at h; cases h
    | ok w =>
      rw [hr, Out.ok_bind] at h
      cases hb : systemOf A.matrix f.coeffs w with
      | stop s => rw [hb] at h; cases h
      | diverge => rw [hb] at h; cases h
      | ok M => rw [hb] at h; cases h

/-- **C75, finding.** `remove_vec` never returns for a vector whose factor is a sum, or whose covariance matrix is not diagonal: its norm is
computed by `tensorize`. -/
theorem C75_remove_false {A : HVarf (SFn F)} {f v u : HSeries (SFn F)} (hv : SeriesOk v) (hfac : SFnOk v.factor)
    (h : v.factor.terms.card ≠ 1 ∨ ¬ v.position.is_diag) : varf_solve solver gmres g ilu A (.vec v) f ≠ .ok u := by
  have key : ∀ r, series_tensorize [v, v] ≠ .ok r := by
    intro r hr
    have hr : series_tensorize2 v v = .ok r := by
      rw [series_tensorize, List.foldlM_cons] at hr
      obtain ⟨a, h1, h2⟩ := bind_eq_ok hr
      rw [h1, ← Out.ok.inj h2]
    have hd := PosOk.dim_pos hv.pos hv.dirs
    rw [series_tensorize2, if_neg hd, if_neg hd] at hr
    obtain ⟨f1, hf1, hr⟩ := bind_eq_ok hr
    obtain ⟨f2, hf2, hr⟩ := bind_eq_ok hr
    rcases h with h | h
    · rw [fn_project, split_ok hfac.fnOk, Out.ok_bind] at hf1
      have hlen : (v.factor.toFn.terms.map fun args => asFunctions (splitTerm v.factor.toFn.dirs args)).length = v.factor.terms.card := by
        simp [SFn.toFn]
      match hl : v.factor.toFn.terms.map fun args => asFunctions (splitTerm v.factor.toFn.dirs args), hf1 with
      | [], hf1 => cases hf1
      | [_], _ => rw [hl] at hlen; exact h hlen.symm
      | _ :: _ :: _, hf1 => cases hf1
    · split_ifs at hr
      obtain ⟨_, -, hr⟩ := bind_eq_ok hr
      obtain ⟨_, hp, -⟩ := bind_eq_ok hr
      rw [pos_tensorize, checkDirs, if_pos h] at hp
      cases hp
  intro hu
  rw [varf_solve] at hu
  split_ifs at hu
  obtain ⟨_, hw, -⟩ := bind_eq_ok hu
  rw [removalCoeffs] at hw
  obtain ⟨r, hr, -⟩ := bind_eq_ok hw
  exact key r hr

/-- **C75, finding.** The factor of the series is not compared with that of the form: series with the same coefficients and another factor
give the same result. -/
theorem C75_factor_false (A : HVarf (SFn F)) (R : Removal (SFn F)) (f : HSeries (SFn F)) (φ : SFn F) :
    varf_solve solver gmres g ilu A R { f with factor := φ } = varf_solve solver gmres g ilu A R f := rfl

/-! ## Objects meeting the hypotheses -/

/-- A diagonal matrix. -/
def exDiag (a : ℕ → ℝ) (n : ℕ) : List (List ℝ) := (List.range n).map fun i => (List.range n).map fun j => if i = j then a i else 0

theorem exDiag_dot (a : ℕ → ℝ) {n i : ℕ} (hi : i < n) (x : List ℝ) (hx : x.length = n) :
    dot ((List.range n).map fun j => if i = j then a i else 0) x = a i * x.getD i 0 := by
  rw [dot_fin _ x (by simp) hx, Finset.sum_eq_single ⟨i, hi⟩]
  · simp [hi]
  · intro j _ hj
    have : i ≠ j := fun h => hj (Fin.ext h.symm)
    simp [this]
  · simp

theorem exDiag_form (a : ℕ → ℝ) : ∃ (A : HVarf (SFn String)) (n : ℕ), VarfOk A ∧ ProductFactor A ∧ A.matrix = exDiag a n ∧ A.position = pos01 ∧
    A.factor = ⟨[0, 1], {{({0}, "u"), ({1}, "w")}}⟩ ∧ A.degree = 3 ∧ A.index_set = .triangle ∧ n = 10 := by
  have hu := usable_small .triangle (show 1 ≤ pos01.dim by decide) (by decide) (show 3 ≤ 250 by decide)
  obtain ⟨L, hL⟩ := iterOk_exists hu.toSized.fits'
  have hsq : ∀ r ∈ exDiag a L.length, r.length = (exDiag a L.length).length := by
    intro r hr
    obtain ⟨i, -, rfl⟩ := List.mem_map.1 hr
    simp [exDiag]
  obtain ⟨A, e, ok, -⟩ := mkVarf_ok (b := false) (M := exDiag a L.length)
    (factor := (⟨[0, 1], {{({0}, "u"), ({1}, "w")}}⟩ : SFn String)) pos01_ok (by decide) hu hL (by simp [exDiag]) hsq
  rw [mkVarf_small hu hL (by simp [exDiag])] at e
  cases e
  refine ⟨_, L.length, ok, ⟨?_, ⟨?_, ?_⟩, rfl, _, rfl⟩, rfl, rfl, rfl, rfl, rfl, ?_⟩
  · intro i j r c hij h1 h2
    rcases i with _ | _ | i <;> simp [pos01] at h1
    · subst h1
      rcases j with _ | _ | j <;> simp at h2 hij ⊢
      exact h2.symm
    · subst h1
      rcases j with _ | _ | j <;> simp at h2 hij ⊢
      exact h2.symm
  · simp
  · simp
    rintro a b (⟨rfl, rfl⟩ | ⟨rfl, rfl⟩) <;> simp
  · rw [hL.length_triangle]
    decide

/-- A form of degree 3 in dimension 2 with nonsingular matrix, and a series. -/
example : ∃ (solver : Solver) (gmres : List (List ℝ) → List ℝ → Out (List ℝ)) (A : HVarf (SFn String)) (f : HSeries (SFn String)),
    Solves solver gmres false false A.is_sparse ∧ Solves solver gmres true true A.is_sparse ∧ VarfOk A ∧ FitsForm A f ∧
      Nonsingular A.matrix ∧ A.degree = 3 ∧ f.coeffs = (List.range 10).map fun i : ℕ => (i : ℝ) := by
  obtain ⟨s, hs⟩ := exists_exact
  obtain ⟨A, n, ok, -, hM, -, -, hd, -, rfl⟩ := exDiag_form fun i => (i : ℝ) + 1
  obtain ⟨-, own⟩ := own_make ok (x := (List.range 10).map fun i : ℕ => (i : ℝ)) (by rw [hM]; simp [exDiag])
  refine ⟨fun _ => s, s, A, _, Or.inl ⟨rfl, hs⟩, Or.inr ⟨rfl, rfl, hs⟩, ok, own_fits own, ?_, hd, rfl⟩
  rw [hM]
  intro x hx h0 c hc
  have hx : x.length = 10 := by simpa [exDiag] using hx
  obtain ⟨i, hi, rfl⟩ := List.getElem_of_mem hc
  have := h0 _ (List.mem_map.2 ⟨i, List.mem_range.2 (by omega), rfl⟩)
  rw [exDiag_dot (fun i => (i : ℝ) + 1) (by omega) x hx] at this
  rcases mul_eq_zero.1 this with h | h
  · have : (0 : ℝ) ≤ i := Nat.cast_nonneg i
    linarith
  · simpa [hi] using h

/-- A symmetric form of degree 3 in dimension 2 whose kernel is spanned by the constant function, and a series orthogonal to it. -/
example : ∃ (solver : Solver) (gmres : List (List ℝ) → List ℝ → Out (List ℝ)) (A : HVarf (SFn String)) (f v : HSeries (SFn String)),
    Solves solver gmres false false A.is_sparse ∧ VarfOk A ∧ ProductFactor A ∧ FitsForm A f ∧ Own A v ∧ KernelIn A.matrix v.coeffs ∧
      (∀ r ∈ A.matrix, dot r v.coeffs = 0) ∧ dot v.coeffs v.coeffs ≠ 0 ∧ (∀ I J c, Entry A I J c → Entry A J I c) ∧
      dot v.coeffs f.coeffs = 0 ∧ Annihilates v.coeffs A.matrix ∧ A.degree = 3 ∧ f.coeffs = (List.range 10).map fun i : ℕ => (i : ℝ) := by
  obtain ⟨s, hs⟩ := exists_exact
  obtain ⟨A, n, ok, pf, hM, -, -, hd, -, rfl⟩ := exDiag_form fun i => (i : ℝ)
  obtain ⟨-, own⟩ := own_make ok (x := (List.range 10).map fun i : ℕ => (i : ℝ)) (by rw [hM]; simp [exDiag])
  obtain ⟨-, own'⟩ := own_make ok (x := (List.range 10).map fun j : ℕ => if 0 = j then (1 : ℝ) else 0) (by rw [hM]; simp [exDiag])
  have he : ∀ x : List ℝ, x.length = 10 → dot ((List.range 10).map fun j : ℕ => if 0 = j then (1 : ℝ) else 0) x = x.getD 0 0 := by
    intro x hx
    rw [exDiag_dot (fun _ => 1) (by omega) x hx, one_mul]
  refine ⟨fun _ => s, s, A, _, _, Or.inl ⟨rfl, hs⟩, ok, pf, own_fits own, own', ?_, ?_, ?_, ?_, ?_, ?_, hd, rfl⟩
  · rw [hM]
    intro x hx h0
    have hx : x.length = 10 := by simpa [exDiag] using hx
    refine ⟨x.getD 0 0, ?_⟩
    apply List.ext_getElem (by simp [hx])
    intro i h1 h2
    have := h0 _ (List.mem_map.2 ⟨i, List.mem_range.2 (by omega), rfl⟩)
    rw [exDiag_dot (fun i => (i : ℝ)) (by omega) x hx] at this
    rcases mul_eq_zero.1 this with h | h
    · have : i = 0 := by exact_mod_cast h
      subst this
      simp [h1]
    · have hx0 : x[i] = 0 := by simpa [h1] using h
      by_cases hi : i = 0
      · subst hi
        simp [h1]
      · simp [hx0, Ne.symm hi]
  · rw [hM]
    intro r hr
    obtain ⟨i, hi, rfl⟩ := List.mem_map.1 hr
    rw [exDiag_dot (fun i => (i : ℝ)) (List.mem_range.1 hi) _ (by simp)]
    by_cases h0 : i = 0
    · simp [h0]
    · have := List.mem_range.1 hi
      simp [this, Ne.symm h0]
  · rw [he _ (by simp)]
    simp
  · rintro I J c ⟨L, i, j, r, h1, h2, h3, h4, h5⟩
    rw [hM] at h4
    obtain ⟨k, hk, rfl⟩ : ∃ k, k < 10 ∧ i = k := ⟨i, by simpa [exDiag] using (List.getElem?_eq_some_iff.1 h4).1, rfl⟩
    have h4' : (List.range 10).map (fun j => if i = j then (i : ℝ) else 0) = r := by simpa [exDiag, hk] using h4
    subst h4'
    have hj : j < 10 := by simpa using (List.getElem?_eq_some_iff.1 h5).1
    have h5' : (if i = j then (i : ℝ) else 0) = c := by simpa [hj] using h5
    refine ⟨L, j, i, (List.range 10).map (fun l => if j = l then (j : ℝ) else 0), h1, h3, h2, by simp [hM, exDiag, hj], ?_⟩
    rw [← h5']
    by_cases hij : i = j
    · subst hij; simp [hk]
    · simp [hk, hij, Ne.symm hij]
  · rw [he _ (by simp)]
    simp
  · rw [hM]
    intro x hx
    have hx : x.length = 10 := by simpa [exDiag] using hx
    rw [he _ (by simp [mulVec, exDiag])]
    have : (mulVec (exDiag (fun i => (i : ℝ)) 10) x).getD 0 0 = dot ((List.range 10).map fun j => if 0 = j then ((0 : ℕ) : ℝ) else 0) x := by
      simp [mulVec, exDiag]
    rw [this, exDiag_dot (fun i => (i : ℝ)) (by omega) x hx]
    simp

/-- A series whose factor is a sum. -/
example : ∃ v : HSeries (SFn String), SeriesOk v ∧ SFnOk v.factor ∧ v.factor.terms.card ≠ 1 := by
  obtain ⟨A, n, ok, -, hM, hp, -, hd, hi, rfl⟩ := exDiag_form fun i => (i : ℝ)
  obtain ⟨L, hL, hlen⟩ := ok.list
  obtain ⟨-, okv⟩ := remake_series (coeffs := L.map fun _ => 1)
    (factor := (⟨[0, 1], {{({0}, "u")}, {({1}, "w")}}⟩ : SFn String)) ok.pos ok.dirs ok.usable hL (by simp) (by rw [← hlen]; exact ok.degree)
  refine ⟨_, okv, ⟨by simp, ?_⟩, by simp⟩
  simp

end Hermipy.Props
