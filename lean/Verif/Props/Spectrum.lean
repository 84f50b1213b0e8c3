import Verif.Lemmas.Spectrum
import Verif.Props.DiscretizeMap
import Verif.Props.Equations
import Verif.Props.QuadConstructors

/-! # C80: operators whose eigenfunctions are the basis functions -/

namespace Hermipy.Props
open Hermipy Hermipy.Spec

/-! ## The generator -/

theorem orderAt_length (d i k : ℕ) : (orderAt d i k).length = d := by simp [orderAt]

theorem orderAt_getD {d i k : ℕ} (hi : i < d) (j : ℕ) : (orderAt d i k).getD j 0 = if i = j then k else 0 := by
  rw [orderAt, List.getD_eq_getElem?_getD, List.getElem?_set]
  by_cases h : i = j
  · subst h
    simp [hi]
  · rw [if_neg h, if_neg h]
    by_cases hj : j < d <;> simp [hj]

theorem orderAt_inj {d i j k l : ℕ} (hi : i < d) (hj : j < d) (hk : k ≠ 0) (h : orderAt d i k = orderAt d j l) : i = j ∧ k = l := by
  have h1 := orderAt_getD (k := k) hi i
  rw [h, orderAt_getD hj, if_pos rfl] at h1
  by_cases e : j = i
  · rw [if_pos e] at h1
    exact ⟨e.symm, h1.symm⟩
  · rw [if_neg e] at h1
    exact absurd h1.symm hk

theorem orderAt_sum {d i k : ℕ} (hi : i < d) : (orderAt d i k).sum = k := by
  rw [orderAt, List.sum_set]
  simp [hi]

variable {dirs : List ℕ} {p : Position} {fourier : List ℕ} {a : ℕ → ℝ}

theorem mem_generator {t : OpTerm (Smooth dirs.length)} (h : t ∈ generator dirs p fourier a) : ∃ i < dirs.length,
    (t = ⟨Smooth.const (a i * entryOf p.cov i i), orderAt dirs.length i 2⟩) ∨ (fourier.getD i 0 ≠ 1 ∧
      t = ⟨-(Smooth.const (a i) * (Smooth.X dirs (dirs.getD i 0) - Smooth.const (p.mean.getD i 0))), orderAt dirs.length i 1⟩) := by
  obtain ⟨i, hi, h⟩ := List.mem_flatMap.1 h
  refine ⟨i, List.mem_range.1 hi, ?_⟩
  rcases List.mem_cons.1 h with h | h
  · exact Or.inl h
  · split at h
    · simp at h
    · rename_i hf
      exact Or.inr ⟨hf, by simpa using h⟩

theorem generator_index_nodup : ((generator dirs p fourier a).map OpTerm.index).Nodup := by
  rw [generator, List.map_flatMap, List.nodup_flatMap]
  constructor
  · intro i hi
    split
    · simp
    · simp only [List.map_cons, List.map_nil, List.nodup_cons, List.mem_singleton, List.not_mem_nil, not_false_eq_true, List.nodup_nil, and_true]
      intro h
      exact absurd (orderAt_inj (List.mem_range.1 hi) (List.mem_range.1 hi) two_ne_zero h).2 (by omega)
  · apply List.Pairwise.imp_of_mem (R := (· < ·)) _ List.pairwise_lt_range
    intro i j hi hj hij t h1 h2
    have key : ∀ {i : ℕ}, t ∈ List.map OpTerm.index (⟨Smooth.const (a i * entryOf p.cov i i), orderAt dirs.length i 2⟩ ::
        if fourier.getD i 0 = 1 then [] else [⟨-(Smooth.const (a i) * (Smooth.X dirs (dirs.getD i 0) - Smooth.const (p.mean.getD i 0))),
          orderAt dirs.length i 1⟩] : List (OpTerm (Smooth dirs.length))) → ∃ k, k ≠ 0 ∧ t = orderAt dirs.length i k := by
      intro i h
      split at h
      · simp only [List.map_cons, List.map_nil, List.mem_singleton] at h
        exact ⟨2, by omega, h⟩
      · simp only [List.map_cons, List.map_nil, List.mem_cons, List.not_mem_nil, or_false] at h
        rcases h with h | h
        · exact ⟨2, by omega, h⟩
        · exact ⟨1, by omega, h⟩
    obtain ⟨k, hk, e⟩ := key h1
    obtain ⟨l, -, e2⟩ := key h2
    have := (orderAt_inj (List.mem_range.1 hi) (List.mem_range.1 hj) hk (e ▸ e2)).1
    omega

/-- The basis functions are eigenfunctions of the generator. -/
theorem generator_eigen (hp : PosOk p) (hd : p.dirs = dirs) (hv : VarPos p) {J : List ℕ} (hJ : J.length = p.dim) (x : ℕ → ℝ) :
    opApply (Smooth.ev dirs) dirs (generator dirs p fourier a) (coordBasis p fourier J) x = eigenvalue fourier a J p.dim * coordBasis p fourier J x := by
  have hdim : dirs.length = p.dim := hd ▸ hp.dirs
  have hsum : ∀ (l : List ℕ) (f : ℕ → List (OpTerm (Smooth dirs.length))), opApply (Smooth.ev dirs) dirs (l.flatMap f) (coordBasis p fourier J) x =
      (l.map fun i => opApply (Smooth.ev dirs) dirs (f i) (coordBasis p fourier J) x).sum := by
    intro l f
    induction l with
    | nil => rfl
    | cons i l ih =>
      rw [List.flatMap_cons, List.map_cons, List.sum_cons, ← ih]
      simp only [opApply, List.map_append, List.sum_append]
  have hrange : ∀ (n : ℕ) (f : ℕ → ℝ), ((List.range n).map f).sum = ∑ i ∈ Finset.range n, f i := by
    intro n f
    induction n with
    | zero => rfl
    | succ n ih => rw [List.range_succ, List.map_append, List.sum_append, ih, Finset.sum_range_succ, List.map_singleton, List.sum_singleton]
  rw [generator, hsum, hrange, eigenvalue, neg_mul, Finset.sum_mul, ← Finset.sum_neg_distrib, ← hdim]
  refine Finset.sum_congr rfl fun i hi => ?_
  have hil := Finset.mem_range.1 hi
  have hi : i < p.dim := by omega
  have hdir := direction_eigen hp hv (fourier := fourier) hJ hi x
  have h1 : orderDirs dirs (orderAt dirs.length i 1) = [dirs.getD i 0] := by rw [orderDirs_orderAt hil]; rfl
  have h2 : orderDirs dirs (orderAt dirs.length i 2) = [dirs.getD i 0, dirs.getD i 0] := by rw [orderDirs_orderAt hil]; rfl
  have hX : Smooth.ev dirs (Smooth.X dirs (dirs.getD i 0)) x = x (dirs.getD i 0) := Smooth.ev_X (by rw [List.getD_eq_getElem _ _ hil]; exact List.getElem_mem hil) x
  rw [hd] at hdir
  by_cases hf : fourier.getD i 0 = 1
  · rw [if_pos hf, sub_zero] at hdir
    rw [if_pos hf]
    simp only [opApply, List.map_cons, List.map_nil, List.sum_cons, List.sum_nil, h2, pds, List.foldr_cons, List.foldr_nil]
    change a i * entryOf p.cov i i * _ + 0 = _
    linear_combination a i * hdir
  · rw [if_neg hf] at hdir
    rw [if_neg hf]
    simp only [opApply, List.map_cons, List.map_nil, List.sum_cons, List.sum_nil, h1, h2, pds, List.foldr_cons, List.foldr_nil]
    rw [map_neg, map_mul, map_sub, Pi.neg_apply, Pi.mul_apply, Pi.sub_apply, hX]
    change a i * entryOf p.cov i i * _ + (-(a i * (_ - p.mean.getD i 0)) * _ + 0) = _
    linear_combination a i * hdir

theorem generator_normal (hp : PosOk p) (hd : p.dirs = dirs) (hv : VarPos p) (ha : ∀ i < p.dim, a i ≠ 0) : Normal dirs (generator dirs p fourier a) := by
  have hdim : dirs.length = p.dim := hd ▸ hp.dirs
  refine ⟨fun t ht => ?_, fun t ht => ?_, generator_index_nodup⟩
  · obtain ⟨i, -, rfl | ⟨-, rfl⟩⟩ := mem_generator ht <;> exact orderAt_length _ _ _
  · obtain ⟨i, hi, rfl | ⟨-, rfl⟩⟩ := mem_generator ht
    · intro h
      have h := congrFun (congrArg (Smooth.ev dirs) h) 0
      exact mul_ne_zero (ha i (by omega)) (hv i (by omega)).ne' h
    · intro h
      have hX : ∀ x : ℕ → ℝ, Smooth.ev dirs (Smooth.X dirs (dirs.getD i 0)) x = x (dirs.getD i 0) :=
        fun x => Smooth.ev_X (by rw [List.getD_eq_getElem _ _ hi]; exact List.getElem_mem hi) x
      have h := congrFun (congrArg (Smooth.ev dirs) h) fun _ => p.mean.getD i 0 + 1
      rw [map_neg, map_mul, map_sub, Pi.neg_apply, Pi.mul_apply, Pi.sub_apply, hX] at h
      change -(a i * (p.mean.getD i 0 + 1 - p.mean.getD i 0)) = 0 at h
      exact ha i (by omega) (by linarith)

/-- Operators in normal form with the same coefficients are the same up to the order of the terms. -/
theorem normal_perm {K : Type} [CommRing K] {S T : List (OpTerm K)} (hS : Normal dirs S) (hT : Normal dirs T)
    (h : ∀ m, m.length = dirs.length → coeffAt S m = coeffAt T m) : S.Perm T := by
  have key : ∀ {U : List (OpTerm K)}, Normal dirs U → ∀ t, t ∈ U ↔ t.index.length = dirs.length ∧ coeffAt U t.index = t.coeff ∧ t.coeff ≠ 0 := by
    intro U hU t
    constructor
    · intro ht
      exact ⟨hU.wide t ht, coeffAt_of_mem hU.distinct ht, hU.nonzero t ht⟩
    · rintro ⟨-, h1, h2⟩
      obtain ⟨u, hu, e⟩ := List.mem_map.1 (coeffAt_index (h1 ▸ h2))
      have := coeffAt_of_mem hU.distinct hu
      have e2 : u = t := by
        cases u
        cases t
        simp only at e this h1
        subst e
        rw [← this, h1]
      exact e2 ▸ hu
  refine (List.perm_ext_iff_of_nodup (List.Nodup.of_map _ hS.distinct) (List.Nodup.of_map _ hT.distinct)).2 fun t => ?_
  rw [key hS, key hT]
  constructor <;> rintro ⟨h1, h2, h3⟩
  · exact ⟨h1, by rw [← h _ h1, h2], h3⟩
  · exact ⟨h1, by rw [h _ h1, h2], h3⟩

theorem _root_.Hermipy.Spec.Rates.ne_zero (h : Rates p fourier a) : ∀ i < p.dim, a i ≠ 0 := by
  intro i hi h0
  have := h.second i hi
  rw [h0, abs_zero, zero_mul] at this
  norm_num at this

/-- The general case: an operator which becomes the generator when it is mapped by the factor of the quadrature. -/
theorem spectrum_core (hs : dirs.Pairwise (· < ·)) (free : Smooth dirs.length → Finset ℕ) {sparse : Bool} {slack : ℕ} {eig : Eig} (he : EigDiag eig)
    {q : HQuad (Smooth dirs.length)} (hq : QuadOk q) (hqd : q.position.dirs = dirs) {g : Smooth dirs.length}
    (hg : @SFn.value _ (Smooth.interp dirs) q.factor = Smooth.ev dirs g) (hg0 : ∀ x, (g : (Fin dirs.length → ℝ) → ℝ) x ≠ 0) {s : IndexSet} {degree : ℕ} (hr : Resolves slack s degree q)
    (hra : Rates q.position q.do_fourier a) {A : HOp (Smooth dirs.length)} (hA : Normal A.dirs A.terms) (hd : A.dirs = dirs) (h5 : ∀ t ∈ A.terms, t.index.sum ≤ 5)
    (hco : ∀ m, m.length = dirs.length → Smooth.inv g * productCoeff (Smooth.D dirs) dirs A.terms g m =
      coeffAt (generator dirs q.position q.do_fourier a) m) :
    let _ := Smooth.interp dirs
    ∃ V, quad_discretize_op (Smooth.D dirs) Smooth.inv free (List.ofFn Smooth.coord) (quad_varf sparse slack eig degree s q)
        (fun f ds => quad_varfd sparse slack eig degree s ds q f) (Smooth.fn dirs) q g (.op A) = .ok V ∧ VarfOk V ∧ V.is_sparse = sparse ∧
      V.position = q.position ∧ V.factor = q.factor ∧ V.index_set = s ∧ SameSets s V.degree degree ∧
      ∀ I J, InSet s q.position.dim degree I → InSet s q.position.dim degree J →
        Entry V I J (if I = J then eigenvalue q.do_fourier a J q.position.dim else 0) := by
  intro inst
  have hdim : dirs.length = q.position.dim := (congrArg List.length hqd).symm.trans hq.pos.dirs
  have hn : dirs.Nodup := hqd ▸ hq.pos.nodup
  have hval : Smooth.ev dirs g = q.factor.value := hg.symm
  have ha := hra.ne_zero
  have hL2 : ∀ L2, s.s_list q.nodes.length (2 * degree) = .ok L2 → Lists L2 (InSet s q.nodes.length (2 * degree)) := by
    intro L2 h
    have ok := IterOk.of_list (by rw [hq.dim]; exact hr.sized.fits') h
    exact ⟨ok.nodup, ok.mem⟩
  have hpz := phiZero_pos q.position.dim q.do_fourier
  have hgen := generator_normal (fourier := q.do_fourier) hq.pos hqd hr.variances ha
  have hdiv : ∀ c : ℝ, 1 / 10 ^ 12 ≤ |c| → 1 / 10 ^ 12 ≤ |c / phiZero q.position.dim q.do_fourier| := by
    intro c hc
    rw [abs_div, abs_of_pos hpz.1]
    exact hc.trans (le_div_self (abs_nonneg c) hpz.1 hpz.2)
  obtain ⟨V, e, v1, v2, v3, v4, v5, v6, v7⟩ := C76_discretize_partial (sparse := sparse) (Smooth.partials_ok dirs) (Smooth.ev_D hn) free he hq hr.variances
    (fun v => by rw [hqd]; exact Smooth.depends dirs v) hval (Smooth.mul_inv hg0) hr.usable hr.sized hr.parity (fn := Smooth.fn dirs)
    (fun c => ⟨⟨hs, fun p hp a ha d hd => by
      rw [Smooth.fn, Multiset.mem_singleton] at hp
      rw [hp, Multiset.mem_singleton] at ha
      rw [ha] at hd
      exact List.mem_toFinset.1 hd⟩, hqd.symm⟩) (fun c => Smooth.fn_value dirs c) (vars := List.ofFn Smooth.coord) (List.length_ofFn.trans hdim) hA
    (hd.trans hqd.symm) h5 (coordBasis_smooth hq.pos hqd q.do_fourier) hr.products (by
      intro m hm hne
      have hm : m.length = dirs.length := hm.trans hdim.symm
      rw [hqd] at hne ⊢
      rw [hco m hm] at hne ⊢
      obtain ⟨t, ht, rfl⟩ := List.mem_map.1 (coeffAt_index hne)
      rw [coeffAt_of_mem hgen.distinct ht]
      constructor
      · obtain ⟨i, hi, rfl | ⟨hf, rfl⟩⟩ := mem_generator ht
        · refine exact_coordBasis hq hr.variances hr.parity.cross hr.products hL2 hr.rule (K := List.replicate q.position.dim 0)
            (c := a i * entryOf q.position.cov i i / phiZero q.position.dim q.do_fourier) (by simp) (by simp) (fun x => ?_) (hdiv _ ?_)
          · rw [coordBasis_zero, div_mul_cancel₀ _ hpz.1.ne']
            rfl
          · rw [abs_mul, abs_of_pos (hr.variances i (by omega))]
            exact hra.second i (by omega)
        · refine exact_coordBasis hq hr.variances hr.parity.cross hr.products hL2 hr.rule (K := orderAt q.position.dim i 1)
            (c := -(a i * √(entryOf q.position.cov i i)) / phiZero q.position.dim q.do_fourier) (orderAt_length _ _ _) (fun k hk => ?_) (fun x => ?_) (hdiv _ ?_)
          · rw [orderAt_getD (by omega)]
            split <;> omega
          · have hX : Smooth.ev dirs (Smooth.X dirs (dirs.getD i 0)) x = x (dirs.getD i 0) :=
              Smooth.ev_X (by rw [List.getD_eq_getElem _ _ hi]; exact List.getElem_mem hi) x
            rw [coordBasis_one (by omega) hf, hqd, map_neg, map_mul, map_sub, Pi.neg_apply, Pi.mul_apply, Pi.sub_apply, hX]
            change -(a i * (_ - q.position.mean.getD i 0)) = _
            have h1 := (Real.sqrt_pos.2 (hr.variances i (by omega))).ne'
            have h2 := hpz.1.ne'
            field_simp
          · rw [abs_neg, abs_mul, abs_of_nonneg (Real.sqrt_nonneg _)]
            exact hra.first i (by omega) hf
      · intro d _ hdm h1
        exact hr.derivatives _ (by rw [← hq.pos.dirs]; exact List.idxOf_lt_length_iff.2 hdm) h1)
  refine ⟨V, e, v1, v2, v3, v4, v5, v6, fun I J hI hJ => ?_⟩
  obtain ⟨R, -, hRd, hN, -, hc, hent⟩ := mapFactor_ok (ev := Smooth.ev dirs) (Smooth.partials_ok dirs) (Smooth.ev_D hn) free hq
    (fun v => by rw [hqd]; exact Smooth.depends dirs v) hval (Smooth.mul_inv hg0) hA (hd.trans hqd.symm) h5
  have hperm : R.terms.Perm (generator dirs q.position q.do_fourier a) := by
    refine normal_perm (dirs := dirs) (by rw [hRd, hqd] at hN; exact hN) hgen fun m hm => ?_
    rw [hc m (by rw [hqd]; exact hm), hqd, hco m hm]
  have h := v7 I J hI hJ
  rw [← hent J (coordBasis_smooth hq.pos hqd q.do_fourier J) I] at h
  have hle : ∀ {K}, InSet s q.position.dim degree K → ∀ k < q.position.dim, K.getD k 0 ≤ degree := by
    intro K hK k hk
    have hl := inSet_length hK
    exact inSet_le hr.parity.cross hK _ (by rw [List.getD_eq_getElem _ _ (by omega)]; exact List.getElem_mem _)
  rw [opEntry_eigen hq hr.variances hr.rule (inSet_length hI) (inSet_length hJ)
    (c := eigenvalue q.do_fourier a J q.position.dim) (fun k hk => by have := hle hI k hk; have := hle hJ k hk; omega) (fun x => by
      rw [← generator_eigen (a := a) hq.pos hqd hr.variances (inSet_length hJ), opApply, opApply, hqd]
      exact (hperm.map _).sum_eq)] at h
  exact h

/-- C80: the matrix that `discretize_op` returns for the generator is diagonal, with the eigenvalues of the generator on the diagonal, when the
factor of the quadrature is 1. -/
theorem C80_spectrum_partial (hs : dirs.Pairwise (· < ·)) (free : Smooth dirs.length → Finset ℕ) {sparse : Bool} {slack : ℕ} {eig : Eig} (he : EigDiag eig)
    {q : HQuad (Smooth dirs.length)} (hq : QuadOk q) (hqd : q.position.dirs = dirs) (hg : @SFn.value _ (Smooth.interp dirs) q.factor = 1)
    {s : IndexSet} {degree : ℕ} (hr : Resolves slack s degree q) (hra : Rates q.position q.do_fourier a) :
    let _ := Smooth.interp dirs
    ∃ V, quad_discretize_op (Smooth.D dirs) Smooth.inv free (List.ofFn Smooth.coord) (quad_varf sparse slack eig degree s q)
        (fun f ds => quad_varfd sparse slack eig degree s ds q f) (Smooth.fn dirs) q 1 (.op ⟨dirs, generator dirs q.position q.do_fourier a⟩) = .ok V ∧
      VarfOk V ∧ V.is_sparse = sparse ∧ V.position = q.position ∧ V.factor = q.factor ∧ V.index_set = s ∧ SameSets s V.degree degree ∧
      ∀ I J, InSet s q.position.dim degree I → InSet s q.position.dim degree J →
        Entry V I J (if I = J then eigenvalue q.do_fourier a J q.position.dim else 0) := by
  have hdim : dirs.length = q.position.dim := (congrArg List.length hqd).symm.trans hq.pos.dirs
  have hn := generator_normal (fourier := q.do_fourier) hq.pos hqd hr.variances hra.ne_zero
  refine spectrum_core hs free he hq hqd (g := 1) (by rw [hg, map_one]) (fun x => one_ne_zero) hr hra hn rfl ?_ ?_
  · intro t ht
    obtain ⟨i, hi, rfl | ⟨-, rfl⟩⟩ := mem_generator ht <;> rw [orderAt_sum hi] <;> omega
  · intro m hm
    have h1 : Smooth.inv (1 : Smooth dirs.length) = 1 := by
      have := Smooth.mul_inv (f := (1 : Smooth dirs.length)) fun x => one_ne_zero
      rwa [one_mul] at this
    rw [h1, one_mul, productCoeff_one (Smooth.partials_ok dirs) hn.wide hm]

/-! ## Quadratures built by `Quad.gauss_hermite` and `Quad.fourier` -/

theorem exactTo_gauss {n degree : ℕ} {rule : List ℝ × List ℝ} (hg : GaussRule n rule) (h : degree < n) :
    ExactTo (2 * degree + 1) 0 rule.1 (rule.2.map fun w => w / √(2 * Real.pi)) := by
  intro i j hij
  have hq := hg.exact (Polynomial.C (1 / (√(i.factorial : ℝ) * √(j.factorial : ℝ))) * (He i * He j)) (by
    refine lt_of_le_of_lt ((Polynomial.natDegree_C_mul_le _ _).trans Polynomial.natDegree_mul_le) ?_
    rw [natDegree_He, natDegree_He]
    omega)
  have e : ∀ x, (Polynomial.C (1 / (√(i.factorial : ℝ) * √(j.factorial : ℝ))) * (He i * He j)).eval x = herm i x * herm j x := by
    intro x
    rw [herm_eq, herm_eq, Polynomial.eval_mul, Polynomial.eval_C, Polynomial.eval_mul]
    field_simp
  simp only [e] at hq
  rw [← gaussMean_herm, gaussMean, hg.nodes]
  have e2 : (fun x => herm i x * herm j x * (Real.exp (-(x ^ 2) / 2) / √(2 * Real.pi))) =
      fun x => herm i x * herm j x * Real.exp (-(x ^ 2) / 2) / √(2 * Real.pi) := by
    funext x
    ring
  rw [e2, MeasureTheory.integral_div, ← hq, Finset.sum_div]
  refine Finset.sum_congr rfl fun t ht => ?_
  have ht := Finset.mem_range.1 ht
  have e3 : (rule.2.map fun w => w / √(2 * Real.pi)).getD t 0 = rule.2.getD t 0 / √(2 * Real.pi) := by simp [hg.weights, ht]
  rw [e3, phi, phi, if_neg (by omega), if_neg (by omega)]
  ring

theorem generator_congr {fourier' : List ℕ} (h : ∀ i, fourier.getD i 0 = fourier'.getD i 0) : generator dirs p fourier a = generator dirs p fourier' a := by
  unfold generator
  simp only [h]

theorem value_one {dirs : List ℕ} {f : SFn (Smooth dirs.length)} (h : f.terms = {0}) : @SFn.value _ (Smooth.interp dirs) f = 1 := by
  funext x
  let _ := Smooth.interp dirs
  rw [SFn.value, h, Multiset.map_singleton, Multiset.sum_singleton, productValue, Multiset.map_zero, Multiset.prod_zero, Pi.one_apply]

theorem value_smooth {dirs : List ℕ} {f : SFn (Smooth dirs.length)} {g : Smooth dirs.length} (h : f.terms = {{(dirs.toFinset, g)}}) :
    @SFn.value _ (Smooth.interp dirs) f = Smooth.ev dirs g := by
  funext x
  let _ := Smooth.interp dirs
  rw [← Smooth.fn_value, SFn.value, SFn.value, h]
  rfl

/-- Quadratures of `Quad.gauss_hermite` meet what is asked. -/
theorem gauss_resolves {hermegauss : ℕ → List ℝ × List ℝ} {n degree : ℕ} (hg : GaussRule n (hermegauss n)) (hn : degree < n)
    (hd : DirsOk dirs) (hpts : n ^ dirs.length < 2 ^ 32) {mean : List ℝ} (hm : mean.length = dirs.length)
    {cov : List (List ℝ)} (hc : cov.length = dirs.length ∧ ∀ r ∈ cov, r.length = dirs.length) (hv : Variances cov)
    (hpos : ∀ i < dirs.length, 0 < entryOf cov i i) {s : IndexSet} (hs : s = .triangle ∨ s = .cube) (hU : UsableTo s dirs.length degree) (hz : Sized s dirs.length (2 * degree))
    {slack : ℕ} (hsl : 1 ≤ degree ∨ 1 ≤ slack) {F : Type} {factor : FactorArg F} (hf : FactorOk dirs factor) :
    ∃ q, quad_gauss_hermite hermegauss (.one n) none (some dirs) none factor (some mean) (some cov) none = .ok q ∧ QuadOk q ∧
      q.position.dim = dirs.length ∧ q.position.mean = mean ∧ q.position.cov = cov ∧ q.position.dirs = dirs ∧ q.factor.terms = factorTerms factor ∧
      (∀ f ∈ q.do_fourier, f = 0) ∧ Resolves slack s degree q := by
  obtain ⟨q, e, hb, hvq, hN, hW, hF⟩ := gauss_hermite_built (F := F) (d := dirs.length) (n_points := .one n) (dim := none) (dirs := some dirs)
    (mean := some mean) (cov := some cov) (factor := factor) hg (by omega) (by simp) (Or.inl ⟨rfl, by simp⟩) hpts
    ⟨by simpa using hm, by simpa using ⟨hc, hv⟩, by simp, hd, hf⟩
  have h0 : ∀ k, q.do_fourier.getD k 0 = 0 := by
    intro k
    by_cases hk : k < q.do_fourier.length
    · rw [List.getD_eq_getElem _ _ hk]
      exact hF _ (List.getElem_mem hk)
    · simp [Nat.le_of_not_lt hk]
  have hcov := hb.position.covGiven cov rfl
  refine ⟨q, e, hb.ok, hb.dim, hb.position.meanGiven mean rfl, hcov, hb.position.dirsGiven dirs rfl, hb.factorTerms, hF, ?_⟩
  have hfl : q.do_fourier.length = q.nodes.length := hb.ok.grid.flags.1
  have h1 : 1 ∉ q.do_fourier := fun h => absurd (hF 1 h) (by omega)
  refine ⟨by rw [hb.dim]; exact hU, ?_, by rw [hb.dim]; exact hz, ⟨fun h => absurd h h1, fun _ => hsl, by rcases hs with rfl | rfl <;> simp⟩, ?_, ?_, ?_⟩
  · intro i hi
    rw [hcov]
    exact hpos i (by rw [← hb.dim]; exact hi)
  · refine C35_closed _ _ _ _ hfl (fun h => absurd h h1) (by rcases hs with rfl | rfl <;> simp) ?_
    rcases hs with rfl | rfl
    · exact Or.inr (Or.inr (Or.inr ⟨rfl, h1⟩))
    · exact Or.inr (Or.inl rfl)
  · intro i _ h
    rw [h0] at h
    omega
  · intro k hk
    have hk : k < dirs.length := by rw [hN] at hk; simpa using hk
    have e1 : q.nodes.getD k [] = (hermegauss n).1 := by rw [hN]; simp [hk]
    have e2 : q.weights.getD k [] = (hermegauss n).2.map fun w => w / √(2 * Real.pi) := by rw [hW]; simp [hk]
    rw [h0, e1, e2]
    exact exactTo_gauss hg hn

/-- C80: for the quadrature of `Quad.gauss_hermite` with more points than the degree, triangles and cubes. -/
theorem C80_gauss_hermite_partial {hermegauss : ℕ → List ℝ × List ℝ} {n degree : ℕ} (hg : GaussRule n (hermegauss n)) (hn : degree < n)
    (hd : DirsOk dirs) (hpts : n ^ dirs.length < 2 ^ 32) {mean : List ℝ} (hm : mean.length = dirs.length)
    {cov : List (List ℝ)} (hc : cov.length = dirs.length ∧ ∀ r ∈ cov, r.length = dirs.length) (hv : Variances cov)
    (hpos : ∀ i < dirs.length, 0 < entryOf cov i i) {s : IndexSet} (hs : s = .triangle ∨ s = .cube) (hU : UsableTo s dirs.length degree) (hz : Sized s dirs.length (2 * degree))
    {slack : ℕ} (hsl : 1 ≤ degree ∨ 1 ≤ slack) :
    ∃ q, quad_gauss_hermite (F := Smooth dirs.length) hermegauss (.one n) none (some dirs) none (.expr {0}) (some mean) (some cov) none = .ok q ∧
      q.position.dim = dirs.length ∧ q.position.mean = mean ∧ q.position.cov = cov ∧ q.position.dirs = dirs ∧
      ∀ (free : Smooth dirs.length → Finset ℕ) (sparse : Bool) (eig : Eig) (a : ℕ → ℝ), EigDiag eig → Rates q.position [] a →
        let _ := Smooth.interp dirs
        ∃ V, quad_discretize_op (Smooth.D dirs) Smooth.inv free (List.ofFn Smooth.coord) (quad_varf sparse slack eig degree s q)
            (fun f ds => quad_varfd sparse slack eig degree s ds q f) (Smooth.fn dirs) q 1 (.op ⟨dirs, generator dirs q.position [] a⟩) = .ok V ∧
          VarfOk V ∧ V.is_sparse = sparse ∧ V.position = q.position ∧ V.factor = q.factor ∧ V.index_set = s ∧ SameSets s V.degree degree ∧
          ∀ I J, InSet s dirs.length degree I → InSet s dirs.length degree J →
            Entry V I J (if I = J then -∑ i ∈ Finset.range dirs.length, a i * J.getD i 0 else 0) := by
  obtain ⟨q, e, hq, hdim, hmean, hcov, hdirs, hfac, hF, hr⟩ := gauss_resolves (F := Smooth dirs.length) (factor := .expr {0}) hg hn hd hpts hm hc hv hpos hs hU hz hsl (by
    intro p hp a ha
    rw [Multiset.mem_singleton.1 hp] at ha
    simp at ha)
  have h0 : ∀ k, q.do_fourier.getD k 0 = ([] : List ℕ).getD k 0 := by
    intro k
    rw [List.getD_nil]
    by_cases hk : k < q.do_fourier.length
    · rw [List.getD_eq_getElem _ _ hk]
      exact hF _ (List.getElem_mem hk)
    · simp [Nat.le_of_not_lt hk]
  refine ⟨q, e, hdim, hmean, hcov, hdirs, ?_⟩
  intro free sparse eig a he hra inst
  obtain ⟨V, e, v1, v2, v3, v4, v5, v6, v7⟩ := C80_spectrum_partial (sparse := sparse) hd.sorted free he hq hdirs (value_one hfac) hr (a := a)
    ⟨hra.second, fun i hi h => hra.first i hi (by rw [← h0]; exact h)⟩
  rw [generator_congr h0] at e
  refine ⟨V, e, v1, v2, v3, v4, v5, v6, fun I J hI hJ => ?_⟩
  have h := v7 I J (by rw [hdim]; exact hI) (by rw [hdim]; exact hJ)
  rw [eigenvalue, hdim] at h
  have e2 : ∀ i, level (q.do_fourier.getD i 0) (J.getD i 0) = J.getD i 0 := by
    intro i
    rw [h0, level, List.getD_nil, if_neg (by omega)]
  simp only [e2] at h
  exact h

/-- In two dimensions, with the rates 1 and 3. -/
example {eig : Eig} (he : EigDiag eig) :
    let _ := Smooth.interp [0, 1]
    ∃ q V, quad_gauss_hermite (fun _ => gauss2) (.one 2) none (some [0, 1]) none (.expr {0}) (some [0, 1]) (some [[1, 0], [0, 4]]) none = .ok q ∧
      quad_discretize_op (Smooth.D [0, 1]) Smooth.inv (fun _ => ∅) (List.ofFn Smooth.coord) (quad_varf false 0 eig 1 .cube q)
        (fun f ds => quad_varfd false 0 eig 1 .cube ds q f) (Smooth.fn [0, 1]) q 1
        (.op ⟨[0, 1], generator [0, 1] q.position [] fun i => if i = 0 then 1 else 3⟩) = .ok V ∧ Entry V [0, 1] [0, 1] (-3) ∧ Entry V [1, 1] [1, 1] (-4) := by
  intro inst
  obtain ⟨q, e, hdim, hm, hc, hd, h⟩ := C80_gauss_hermite_partial (dirs := [0, 1]) (hermegauss := fun _ => gauss2) (n := 2) (degree := 1) gauss2_ok (by norm_num)
    ⟨by simp, by simp, by simp⟩ (by norm_num) (mean := [0, 1]) rfl (cov := [[1, 0], [0, 4]]) (by simp)
    ⟨by rintro (_ | _ | i) (_ | _ | j) h <;> simp [entryOf] at h ⊢, by rintro (_ | _ | i) <;> simp [entryOf]⟩
    (by rintro (_ | _ | i) h <;> simp [entryOf] at h ⊢) (s := .cube) (Or.inr rfl) (usableTo_small _ (by simp) (by norm_num)) (usable_small _ (by simp) (by simp) (by norm_num)).toSized (slack := 0)
    (Or.inl (le_refl 1))
  have key : ∀ i < 2, i = 0 ∨ i = 1 := by omega
  have hdim : q.position.dim = 2 := hdim
  obtain ⟨V, e2, -, -, -, -, -, -, h⟩ := h (fun _ => ∅) false eig (fun i => if i = 0 then 1 else 3) he ⟨by
    intro i hi
    rcases key i (by omega) with rfl | rfl <;> norm_num [hc, entryOf], by
    intro i hi _
    rcases key i (by omega) with rfl | rfl
    · norm_num [hc, entryOf]
    · rw [hc, show entryOf [[1, 0], [0, 4]] 1 1 = 2 ^ 2 by norm_num [entryOf], Real.sqrt_sq (by norm_num)]
      norm_num⟩
  refine ⟨q, V, e, e2, ?_, ?_⟩
  · have := h [0, 1] [0, 1] ⟨rfl, by simp⟩ ⟨rfl, by simp⟩
    simpa [Finset.sum_range_succ] using this
  · have := h [1, 1] [1, 1] ⟨rfl, by simp⟩ ⟨rfl, by simp⟩
    norm_num [Finset.sum_range_succ] at this
    exact this

/-! ## The Fokker-Planck equation -/

theorem productCoeff_collect {K : Type} [CommRing K] [DecidableEq K] {D : ℕ → K → K} (dirs : List ℕ) (T : List (OpTerm K)) (g : K) (m : List ℕ) :
    productCoeff D dirs (collect T) g m = productCoeff D dirs T g m := apply_collect T fun a => leibniz D g dirs a m

section line
local notation "∂" => Smooth.D [0] 0

/-- The harmonic potential whose density at the temperature `1/β` is the normal distribution with mean `m` and variance `v`. -/
noncomputable def harmonic (β m v : ℝ) : Smooth [0].length :=
  Smooth.const (1 / (β * v) / 2) * ((Smooth.X [0] 0 - Smooth.const m) * (Smooth.X [0] 0 - Smooth.const m))

theorem fokker_planck_terms {K : Type} [CommRing K] {D : ℕ → K → K} (h : Partials D) (inv : K → K) {β V : K} (hb : D 0 (inv β) = 0) :
    fokker_planck_1d D inv β V = [⟨D 0 (D 0 V), [0]⟩, ⟨D 0 V, [1]⟩, ⟨0, [0]⟩, ⟨0, [1]⟩, ⟨0, [1]⟩, ⟨inv β, [2]⟩] := by
  have h1 : D 0 1 = 0 := by
    have := h.mul 0 1 1
    rw [mul_one, mul_one, one_mul] at this
    simpa using this
  simp [fokker_planck_1d, diffTerms, scaleTerms, unknown, diffTerm, h1, h.zero, hb]

theorem fokker_planck_map {β m v : ℝ} (hβ : β ≠ 0) (hv : v ≠ 0) {p : Position} (hm : p.mean.getD 0 0 = m) (hc : entryOf p.cov 0 0 = v) {f : List ℕ}
    (hf : f.getD 0 0 ≠ 1) (k : List ℕ) (hk : k.length = [0].length) :
    Smooth.inv (gibbs β (harmonic β m v)) * productCoeff (Smooth.D [0]) [0]
      (collect (fokker_planck_1d (Smooth.D [0]) Smooth.inv (Smooth.const β) (harmonic β m v))) (gibbs β (harmonic β m v)) k =
    coeffAt (generator [0] p f fun _ => 1 / (β * v)) k := by
  have h := Smooth.partials_ok [0]
  obtain ⟨k, rfl⟩ := List.length_eq_one_iff.1 hk
  have hV : ∂ (harmonic β m v) = Smooth.const (1 / (β * v)) * (Smooth.X [0] 0 - Smooth.const m) := by
    have := D_confine (dirs := [0]) 0 (1 / (β * v)) m (d := 0) (e := 0) (by simp)
    rwa [zero_add, h.zero, zero_add, if_pos rfl] at this
  have hVV : ∂ (∂ (harmonic β m v)) = Smooth.const (1 / (β * v)) := by
    rw [hV, h.mul, h.sub, Smooth.D_const, Smooth.D_const, Smooth.D_X (by simp), if_pos rfl]
    ring
  have hg : gibbs β (harmonic β m v) * Smooth.inv (gibbs β (harmonic β m v)) = 1 := Smooth.mul_inv fun x => (gibbs_pos _ _ x).ne'
  have hb : Smooth.const β * Smooth.inv (Smooth.const β) = (1 : Smooth [0].length) := Smooth.const_mul_inv hβ
  have hw : (Smooth.const (1 / (β * v) * v) : Smooth [0].length) = Smooth.inv (Smooth.const β) := by
    rw [Smooth.inv_const hβ]
    congr 1
    field_simp
  have hgen : generator [0] p f (fun _ => 1 / (β * v)) = [⟨Smooth.inv (Smooth.const β), [2]⟩,
      ⟨-(Smooth.const (1 / (β * v)) * (Smooth.X [0] 0 - Smooth.const m)), [1]⟩] := by
    have : generator [0] p f (fun _ => 1 / (β * v)) = [⟨Smooth.const (1 / (β * v) * entryOf p.cov 0 0), [2]⟩] ++
      if f.getD 0 0 = 1 then [] else [⟨-(Smooth.const (1 / (β * v)) * (Smooth.X [0] 0 - Smooth.const (p.mean.getD 0 0))), [1]⟩] := by
      simp [generator, orderAt]
    rw [this, if_neg hf, hm, hc, hw]
    rfl
  rw [productCoeff_collect, fokker_planck_terms h _ (D_inv_const hβ 0), hgen]
  obtain ⟨g, hg'⟩ : ∃ g, g = gibbs β (harmonic β m v) := ⟨_, rfl⟩
  have hD : ∂ g = -(Smooth.const β * (Smooth.const (1 / (β * v)) * (Smooth.X [0] 0 - Smooth.const m)) * g) := by
    rw [hg', D_gibbs, hV]
  rw [hVV, hV]
  rw [← hg'] at hg ⊢
  have hDD : ∂ (∂ g) = -(Smooth.const β * Smooth.const (1 / (β * v)) * g) +
      (Smooth.const β * (Smooth.const (1 / (β * v)) * (Smooth.X [0] 0 - Smooth.const m))) ^ 2 * g := by
    rw [hD, h.neg, h.mul, h.mul, h.mul, h.sub, hD, Smooth.D_const, Smooth.D_const, Smooth.D_const, Smooth.D_X (by simp), if_pos rfl]
    ring
  generalize Smooth.X [0] 0 - Smooth.const m = y at *
  generalize Smooth.const (1 / (β * v)) = c at *
  generalize Smooth.inv (Smooth.const β) = b' at *
  generalize Smooth.const β = b at *
  rcases k with _ | _ | _ | k
  · simp [productCoeff, leibniz, coeffAt]
    rw [hDD, hD]
    linear_combination (-c * g * Smooth.inv g + y ^ 2 * b * c ^ 2 * g * Smooth.inv g) * hb
  · simp [productCoeff, leibniz, coeffAt]
    rw [hD]
    linear_combination (-2 * c * y * g * Smooth.inv g) * hb - c * y * hg
  · simp [productCoeff, leibniz, coeffAt]
    linear_combination b' * hg
  · simp [productCoeff, leibniz, coeffAt, Nat.choose_eq_zero_of_lt]

theorem fokker_planck_normal {β : ℝ} (hβ : β ≠ 0) {V : Smooth [0].length} :
    Normal [0] (collect (fokker_planck_1d (Smooth.D [0]) Smooth.inv (Smooth.const β) V)) ∧
      ∀ t ∈ collect (fokker_planck_1d (Smooth.D [0]) Smooth.inv (Smooth.const β) V), t.index.sum ≤ 5 := by
  have hm : ∀ t ∈ collect (fokker_planck_1d (Smooth.D [0]) Smooth.inv (Smooth.const β) V), t.index = [0] ∨ t.index = [1] ∨ t.index = [2] := by
    intro t ht
    obtain ⟨e, hne⟩ := mem_collect.1 ht
    rw [fokker_planck_terms (Smooth.partials_ok [0]) _ (D_inv_const hβ 0)] at e
    by_contra hc
    push Not at hc
    refine hne (e.trans ?_)
    simp [coeffAt, hc.1.symm, hc.2.1.symm, hc.2.2.symm]
  refine ⟨⟨fun t ht => ?_, fun t ht => (mem_collect.1 ht).2, collect_index_nodup _⟩, fun t ht => ?_⟩
  · rcases hm t ht with h | h | h <;> rw [h] <;> rfl
  · rcases hm t ht with h | h | h <;> rw [h] <;> simp

theorem fokker_planck_rates {p : Position} {f : List ℕ} (hd : p.dim = 1) {β v : ℝ} (hc : entryOf p.cov 0 0 = v) (hβ : β ≠ 0) (hv : 0 < v)
    (h2 : 1 / 10 ^ 12 ≤ |1 / β|) (h1 : 1 / 10 ^ 12 ≤ |1 / β| / √v) : Rates p f fun _ => 1 / (β * v) := by
  have hs := Real.sqrt_pos.2 hv
  have e : |1 / (β * v)| = |1 / β| / v := by rw [← div_div, abs_div, abs_of_pos hv]
  refine ⟨fun i hi => ?_, fun i hi _ => ?_⟩
  · obtain rfl : i = 0 := by omega
    rwa [hc, e, div_mul_cancel₀ _ hv.ne']
  · obtain rfl : i = 0 := by omega
    have : |1 / β| / v * √v = |1 / β| / √v := by
      nth_rewrite 1 [← Real.mul_self_sqrt hv.le]
      field_simp
    rwa [hc, e, this]

theorem fokker_planck_core {degree : ℕ} {β m v : ℝ} (hv : 0 < v) (h2 : 1 / 10 ^ 12 ≤ |1 / β|) (h1 : 1 / 10 ^ 12 ≤ |1 / β| / √v) {s : IndexSet}
    {slack : ℕ} (free : Smooth [0].length → Finset ℕ) {sparse : Bool} {eig : Eig} (he : EigDiag eig) {q : HQuad (Smooth [0].length)} (hq : QuadOk q)
    (hdirs : q.position.dirs = [0]) (hm0 : q.position.mean.getD 0 0 = m) (hc0 : entryOf q.position.cov 0 0 = v) (h0 : q.do_fourier.getD 0 0 = 0)
    (hval : @SFn.value _ (Smooth.interp [0]) q.factor = Smooth.ev [0] (gibbs β (harmonic β m v))) (hr : Resolves slack s degree q) :
    let _ := Smooth.interp [0]
    ∃ V, quad_discretize_op (Smooth.D [0]) Smooth.inv free (List.ofFn Smooth.coord) (quad_varf sparse slack eig degree s q)
        (fun f ds => quad_varfd sparse slack eig degree s ds q f) (Smooth.fn [0]) q (gibbs β (harmonic β m v))
        (.op ⟨[0], collect (fokker_planck_1d (Smooth.D [0]) Smooth.inv (Smooth.const β) (harmonic β m v))⟩) = .ok V ∧
      VarfOk V ∧ V.is_sparse = sparse ∧ V.position = q.position ∧ V.factor = q.factor ∧ V.index_set = s ∧ SameSets s V.degree degree ∧
      ∀ I J, InSet s q.position.dim degree I → InSet s q.position.dim degree J →
        Entry V I J (if I = J then eigenvalue q.do_fourier (fun _ => 1 / (β * v)) J q.position.dim else 0) := by
  have hβ : β ≠ 0 := by
    rintro rfl
    norm_num at h2
  have hdim1 : q.position.dim = 1 := (hq.pos.dirs.symm.trans (congrArg List.length hdirs))
  refine spectrum_core (dirs := [0]) (List.pairwise_singleton _ _) free he hq hdirs hval (fun x => (gibbs_pos _ _ x).ne') hr
    (fokker_planck_rates hdim1 hc0 hβ hv h2 h1) (A := ⟨[0], collect (fokker_planck_1d (Smooth.D [0]) Smooth.inv (Smooth.const β) (harmonic β m v))⟩)
    (fokker_planck_normal hβ).1 rfl (fokker_planck_normal hβ).2 fun k hk => ?_
  have := fokker_planck_map hβ hv.ne' hm0 hc0 (f := q.do_fourier) (by omega) k hk
  dsimp only
  exact this

/-- C80: the Fokker-Planck operator of a harmonic potential, discretized with the quadrature of `Quad.gauss_hermite` whose position is that of the
stationary density and whose factor is this density: the entries are `-j / (β v)` on the diagonal, and 0 elsewhere. -/
theorem C80_fokker_planck_partial {hermegauss : ℕ → List ℝ × List ℝ} {n degree : ℕ} (hg : GaussRule n (hermegauss n)) (hn : degree < n)
    (hpts : n < 2 ^ 32) (hdeg : degree ≤ 250) {β m v : ℝ} (hv : 0 < v) (h2 : 1 / 10 ^ 12 ≤ |1 / β|) (h1 : 1 / 10 ^ 12 ≤ |1 / β| / √v) {s : IndexSet}
    (hs : s = .triangle ∨ s = .cube) (hz : Sized s 1 (2 * degree)) {slack : ℕ} (hsl : 1 ≤ degree ∨ 1 ≤ slack) (free : Smooth [0].length → Finset ℕ)
    {sparse : Bool} {eig : Eig} (he : EigDiag eig) :
    let _ := Smooth.interp [0]
    ∃ q V, quad_gauss_hermite hermegauss (.one n) none (some [0]) none (.expr {{([0].toFinset, gibbs β (harmonic β m v))}}) (some [m]) (some [[v]]) none =
        .ok q ∧
      quad_discretize_op (Smooth.D [0]) Smooth.inv free (List.ofFn Smooth.coord) (quad_varf sparse slack eig degree s q)
        (fun f ds => quad_varfd sparse slack eig degree s ds q f) (Smooth.fn [0]) q (gibbs β (harmonic β m v))
        (.op ⟨[0], collect (fokker_planck_1d (Smooth.D [0]) Smooth.inv (Smooth.const β) (harmonic β m v))⟩) = .ok V ∧
      VarfOk V ∧ V.is_sparse = sparse ∧ V.position = q.position ∧ V.factor = q.factor ∧ V.index_set = s ∧ SameSets s V.degree degree ∧
      ∀ i j, i ≤ degree → j ≤ degree → Entry V [i] [j] (if i = j then -(j / (β * v)) else 0) := by
  intro inst
  have hβ : β ≠ 0 := by
    rintro rfl
    norm_num at h2
  obtain ⟨q, e, hq, hdim, hmean, hcov, hdirs, hfac, hF, hr⟩ := gauss_resolves (F := Smooth [0].length) (dirs := [0]) (mean := [m]) (cov := [[v]])
    (factor := .expr {{([0].toFinset, gibbs β (harmonic β m v))}}) hg hn ⟨by simp, by simp, by simp⟩ (by simpa using hpts) rfl
    (by simp) ⟨fun i j hij => by
      rcases i with _ | i <;> rcases j with _ | j <;> simp [entryOf] at hij ⊢, fun i => by rcases i with _ | i <;> simp [entryOf, hv.le]⟩
    (by intro i hi; simp at hi; subst hi; simpa [entryOf] using hv) hs (usableTo_small s (by simp) hdeg) hz hsl (by
      intro p hp a ha d hd
      rw [Multiset.mem_singleton.1 hp, Multiset.mem_singleton] at ha
      rw [ha] at hd
      exact List.mem_toFinset.1 hd)
  have hdim1 : q.position.dim = 1 := hdim
  have hc0 : entryOf q.position.cov 0 0 = v := by rw [hcov]; rfl
  have hm0 : q.position.mean.getD 0 0 = m := by rw [hmean]; rfl
  have h0 : q.do_fourier.getD 0 0 = 0 := by
    by_cases hk : 0 < q.do_fourier.length
    · rw [List.getD_eq_getElem _ _ hk]
      exact hF _ (List.getElem_mem hk)
    · simp [Nat.le_of_not_lt hk]
  obtain ⟨V, e2, v1, v2, v3, v4, v5, v6, v7⟩ := fokker_planck_core hv h2 h1 free (sparse := sparse) he hq hdirs hm0 hc0 h0 (value_smooth hfac) hr
  refine ⟨q, V, e, e2, v1, v2, v3, v4, v5, v6, fun i j hi hj => ?_⟩
  have hin : ∀ k ≤ degree, InSet s q.position.dim degree [k] := by
    intro k hk
    rw [hdim1]
    rcases hs with rfl | rfl
    · exact ⟨rfl, by simpa using hk⟩
    · exact ⟨rfl, by simpa using hk⟩
  have h := v7 [i] [j] (hin i hi) (hin j hj)
  have hl : ∀ k, level 0 k = k := fun k => if_neg zero_ne_one
  rw [eigenvalue, hdim1, Finset.sum_range_one, h0, hl] at h
  have e3 : (if ([i] : List ℕ) = [j] then -(1 / (β * v) * (([j].getD 0 0 : ℕ) : ℝ)) else 0) = if i = j then -((j : ℝ) / (β * v)) else 0 := by
    by_cases hij : i = j
    · subst hij
      rw [if_pos rfl, if_pos rfl]
      simp
      ring
    · rw [if_neg (by simpa using hij), if_neg hij]
  rwa [e3] at h

/-- At the temperature 1/2, with mean 1 and variance 4: the first eigenvalue is `-1/8`. -/
example {eig : Eig} (he : EigDiag eig) :
    let _ := Smooth.interp [0]
    ∃ q V, quad_gauss_hermite (fun _ => gauss2) (.one 2) none (some [0]) none
      (.expr {{([0].toFinset, gibbs 2 (harmonic 2 1 4))}}) (some [1]) (some [[4]]) none = .ok q ∧
    quad_discretize_op (Smooth.D [0]) Smooth.inv (fun _ => ∅) (List.ofFn Smooth.coord)
      (quad_varf true 0 eig 1 .triangle q) (fun f ds => quad_varfd true 0 eig 1 .triangle ds q f)
      (Smooth.fn [0]) q (gibbs 2 (harmonic 2 1 4))
      (.op ⟨[0], collect (fokker_planck_1d (Smooth.D [0]) Smooth.inv (Smooth.const 2) (harmonic 2 1 4))⟩) = .ok V ∧
    Entry V [0] [0] 0 ∧ Entry V [1] [1] (-(1 / 8)) ∧ Entry V [0] [1] 0 := by
  intro inst
  obtain ⟨q, V, e, e2, -, -, -, -, -, -, h⟩ := C80_fokker_planck_partial (hermegauss := fun _ => gauss2) (n := 2) (degree := 1) gauss2_ok (by norm_num)
    (by norm_num) (by norm_num) (β := 2) (m := 1) (v := 4) (by norm_num) (by norm_num [abs_of_pos])
    (by rw [show (4 : ℝ) = 2 ^ 2 by norm_num, Real.sqrt_sq (by norm_num)]; norm_num [abs_of_pos]) (Or.inl rfl)
    (usable_small _ (by simp) (by simp) (by norm_num)).toSized (slack := 0) (Or.inl (le_refl 1)) (fun _ => ∅) (sparse := true) he
  refine ⟨q, V, e, e2, ?_, ?_, ?_⟩
  · simpa using h 0 0 (by omega) (by omega)
  · have := h 1 1 (by omega) (by omega)
    norm_num at this ⊢
    exact this
  · simpa using h 0 1 (by omega) (by omega)

end line

/-! ## Periodic functions -/

/-- What `Quad.fourier` returns. -/
theorem fourier_resolves {n degree : ℕ} (hn : degree + 1 < n) (hev : degree % 2 = 0) (hd : DirsOk dirs) (hU : UsableTo .cube dirs.length degree)
    (hpts : n ^ dirs.length < 2 ^ 32) {b : List (ℝ × ℝ)} (hb : b.length = dirs.length ∧ ∀ x ∈ b, x.1 < x.2) (hz : Sized .cube dirs.length (2 * degree))
    {slack : ℕ} :
    ∃ q : HQuad (Smooth dirs.length), quad_fourier (.one n) (some b) none (.expr {0}) (some dirs) = .ok q ∧ QuadOk q ∧ q.position.dim = dirs.length ∧
      q.position.dirs = dirs ∧ q.factor.terms = {0} ∧ q.do_fourier = List.replicate dirs.length 1 ∧
      (∀ i < dirs.length, (b.getD i 0).1 < (b.getD i 0).2 ∧ entryOf q.position.cov i i = (((b.getD i 0).2 - (b.getD i 0).1) / (2 * Real.pi)) ^ 2) ∧
      Resolves slack .cube degree q := by
  obtain ⟨P, b', ds, hb', hds, -, -, hP, e, hq⟩ := fourier_built (F := Smooth dirs.length) (n := n) (d := dirs.length) (n_points := .one n) (bounds := some b)
    (dirs := some dirs) (factor := .expr {0}) (by omega) (Or.inl ⟨rfl, by simp⟩) (by simpa using hb) (by simp) hd hpts (by
      intro p hp a ha
      rw [Multiset.mem_singleton.1 hp] at ha
      simp at ha)
  rw [Option.getD_some] at hb' hds
  subst hb' hds
  obtain ⟨q, hq0⟩ : ∃ q : HQuad (Smooth ds.length), q = ⟨(List.replicate ds.length n).map fourierNodes, (List.replicate ds.length n).map fourierWeights, P,
    ⟨P.dirs, factorTerms (.expr {0})⟩⟩ := ⟨_, rfl⟩
  rw [← hq0] at e hq
  have hpos : q.position = P := by rw [hq0]
  have hdim : q.position.dim = ds.length := by rw [hpos, hP]
  have hdirs : q.position.dirs = ds := by rw [hpos, hP]
  have hlen : q.nodes.length = ds.length := by rw [hq0]; simp
  have hdf : q.do_fourier = List.replicate ds.length 1 := by rw [HQuad.do_fourier, hpos, hP]; simp
  have h1 : ∀ i < ds.length, q.do_fourier.getD i 0 = 1 := by
    intro i hi
    rw [hdf]
    simp [hi]
  have hlt : ∀ i < ds.length, (b'.getD i 0).1 < (b'.getD i 0).2 := by
    intro i hi
    have hi : i < b'.length := by omega
    rw [List.getD_eq_getElem _ _ hi]
    exact hb.2 _ (List.getElem_mem hi)
  have hcov : ∀ i < ds.length, entryOf q.position.cov i i = (((b'.getD i 0).2 - (b'.getD i 0).1) / (2 * Real.pi)) ^ 2 := by
    intro i hi
    have hi : i < b'.length := by omega
    rw [hpos, hP, entryOf_diagMat _ (by simpa using hi) (by simpa using hi), if_pos rfl]
    simp [hi]
  have hpi := Real.pi_pos
  have hcpos : ∀ i < ds.length, 0 < entryOf q.position.cov i i := by
    intro i hi
    rw [hcov i hi]
    have := hlt i hi
    exact pow_pos (div_pos (by linarith) (by linarith)) 2
  have hr : Resolves slack .cube degree q := by
    refine ⟨by rw [hdim]; exact hU, fun i hi => hcpos i (by omega), by rw [hdim]; exact hz, ⟨fun _ => hev, fun h => ?_, by simp⟩,
      closed_cube (fun _ => hev) (by rw [hdf, hlen]; simp), fun i hi _ J hJ hodd => ?_, fun k hk => ?_⟩
    · rw [hdf] at h
      simp at h
    · refine ⟨by rw [partner, List.length_set]; exact hJ.1, fun x hx => ?_⟩
      rcases List.mem_or_eq_of_mem_set hx with hx | rfl
      · exact hJ.2 x hx
      · rw [if_neg (by omega)]
        have hi' : i < J.length := by rw [hJ.1]; exact hi
        have := hJ.2 (J.getD i 0) (by rw [List.getD_eq_getElem _ _ hi']; exact List.getElem_mem hi')
        omega
    · have hk : k < ds.length := by omega
      rw [h1 k hk]
      have e1 : q.nodes.getD k [] = fourierNodes n := by rw [hq0]; simp [hk]
      have e2 : q.weights.getD k [] = fourierWeights n := by rw [hq0]; simp [hk]
      rw [e1, e2]
      exact exactTo_fourier (by omega)
  exact ⟨q, e, hq, hdim, hdirs, by rw [hq0]; rfl, hdf, fun i hi => ⟨hlt i hi, hcov i hi⟩, hr⟩

/-- C80: the Laplacian with the constants `κ`, discretized with the quadrature of `Quad.fourier` for the bounds `b`: on the diagonal are the numbers
`-Σ κ_i (2π k_i / (r_i - l_i))²`, where `k_i` is the wave number. -/
theorem C80_fourier_partial {n degree : ℕ} (hn : degree + 1 < n) (hev : degree % 2 = 0) (hd : DirsOk dirs) (hU : UsableTo .cube dirs.length degree)
    (hpts : n ^ dirs.length < 2 ^ 32) {b : List (ℝ × ℝ)} (hb : b.length = dirs.length ∧ ∀ x ∈ b, x.1 < x.2) (hz : Sized .cube dirs.length (2 * degree))
    {slack : ℕ} {κ : ℕ → ℝ} (hκ : ∀ i < dirs.length, 1 / 10 ^ 12 ≤ |κ i|) (free : Smooth dirs.length → Finset ℕ)
    {sparse : Bool} {eig : Eig} (he : EigDiag eig) :
    let _ := Smooth.interp dirs
    ∃ q V, quad_fourier (.one n) (some b) none (.expr {0}) (some dirs) = .ok q ∧
      quad_discretize_op (Smooth.D dirs) Smooth.inv free (List.ofFn Smooth.coord) (quad_varf sparse slack eig degree .cube q)
        (fun f ds => quad_varfd sparse slack eig degree .cube ds q f) (Smooth.fn dirs) q 1 (.op ⟨dirs, laplacian dirs κ⟩) = .ok V ∧
      VarfOk V ∧ V.is_sparse = sparse ∧ V.position = q.position ∧ V.factor = q.factor ∧ V.index_set = .cube ∧ SameSets .cube V.degree degree ∧
      ∀ I J, InSet .cube dirs.length degree I → InSet .cube dirs.length degree J →
        Entry V I J (if I = J then -∑ i ∈ Finset.range dirs.length,
          κ i * (2 * Real.pi * ((J.getD i 0 + 1) / 2 : ℕ) / ((b.getD i 0).2 - (b.getD i 0).1)) ^ 2 else 0) := by
  intro inst
  obtain ⟨q, e, hq, hdim, hdirs, hfac, hdf, hcb, hr⟩ := fourier_resolves hn hev hd hU hpts hb hz (slack := slack)
  have h1 : ∀ i < dirs.length, q.do_fourier.getD i 0 = 1 := by
    intro i hi
    rw [hdf]
    simp [hi]
  have hlt := fun i hi => (hcb i hi).1
  have hcov := fun i hi => (hcb i hi).2
  have hcpos : ∀ i < dirs.length, 0 < entryOf q.position.cov i i := fun i hi => hr.variances i (by omega)
  have hpi := Real.pi_pos
  have hgen : generator dirs q.position q.do_fourier (fun i => κ i / entryOf q.position.cov i i) = laplacian dirs κ := by
    rw [generator, laplacian, List.map_eq_flatMap]
    refine List.flatMap_congr fun i hi => ?_
    have hi := List.mem_range.1 hi
    rw [if_pos (h1 i hi), div_mul_cancel₀ _ (hcpos i hi).ne']
  obtain ⟨V, e2, v1, v2, v3, v4, v5, v6, v7⟩ := C80_spectrum_partial (sparse := sparse) hd.sorted free he hq hdirs (value_one hfac) hr
    (a := fun i => κ i / entryOf q.position.cov i i) ⟨fun i hi => by
      have hi : i < dirs.length := by omega
      rw [abs_div, abs_of_pos (hcpos i hi), div_mul_cancel₀ _ (hcpos i hi).ne']
      exact hκ i hi, fun i hi h => absurd (h1 i (by omega)) h⟩
  rw [hgen] at e2
  refine ⟨q, V, e, e2, v1, v2, v3, v4, v5, v6, fun I J hI hJ => ?_⟩
  have h := v7 I J (by rw [hdim]; exact hI) (by rw [hdim]; exact hJ)
  rw [eigenvalue, hdim] at h
  have e3 : ∑ i ∈ Finset.range dirs.length, κ i / entryOf q.position.cov i i * (level (q.do_fourier.getD i 0) (J.getD i 0) : ℕ) =
      ∑ i ∈ Finset.range dirs.length, κ i * (2 * Real.pi * ((J.getD i 0 + 1) / 2 : ℕ) / ((b.getD i 0).2 - (b.getD i 0).1)) ^ 2 := by
    refine Finset.sum_congr rfl fun i hi => ?_
    have hi := Finset.mem_range.1 hi
    rw [h1 i hi, level, if_pos rfl, hcov i hi]
    have := hlt i hi
    have hne : (b.getD i 0).2 - (b.getD i 0).1 ≠ 0 := by linarith
    rw [Nat.cast_pow]
    field_simp
  rwa [e3] at h

/-- The diffusion `3 ∂²` on an interval of length 2, degree 2: `sin(πx)` and `cos(πx)` have the eigenvalue `-3π²`. -/
example {eig : Eig} (he : EigDiag eig) :
    let _ := Smooth.interp [0]
    ∃ q V, quad_fourier (.one 4) (some [(0, 2)]) none (.expr {0}) (some [0]) = .ok q ∧
    quad_discretize_op (Smooth.D [0]) Smooth.inv (fun _ => ∅) (List.ofFn Smooth.coord)
      (quad_varf false 0 eig 2 .cube q) (fun f ds => quad_varfd false 0 eig 2 .cube ds q f) (Smooth.fn [0]) q 1
      (.op ⟨[0], laplacian [0] fun _ => 3⟩) = .ok V ∧ Entry V [0] [0] 0 ∧ Entry V [1] [1] (-(3 * Real.pi ^ 2)) ∧ Entry V [2] [2] (-(3 * Real.pi ^ 2)) ∧
      Entry V [1] [2] 0 := by
  intro inst
  obtain ⟨q, V, e, e2, -, -, -, -, -, -, h⟩ := C80_fourier_partial (dirs := [0]) (n := 4) (degree := 2) (by norm_num) rfl ⟨by simp, by simp, by simp⟩ (usableTo_small _ (by simp) (by norm_num))
    (by norm_num) (b := [(0, 2)]) (by simp) (usable_small _ (by simp) (by simp) (by norm_num)).toSized (slack := 0) (κ := fun _ => 3) (by norm_num)
    (fun _ => ∅) (sparse := false) he
  have hin : ∀ k ≤ 2, InSet .cube [0].length 2 [k] := fun k hk => ⟨rfl, by simpa using hk⟩
  refine ⟨q, V, e, e2, ?_, ?_, ?_, ?_⟩
  · simpa using h [0] [0] (hin 0 (by omega)) (hin 0 (by omega))
  · simpa using h [1] [1] (hin 1 (by omega)) (hin 1 (by omega))
  · simpa using h [2] [2] (hin 2 (by omega)) (hin 2 (by omega))
  · simpa using h [1] [2] (hin 1 (by omega)) (hin 2 (by omega))

end Hermipy.Props
