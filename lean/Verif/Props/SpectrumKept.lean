import Verif.Lemmas.DropError
import Verif.Props.Spectrum
import Verif.Props.QuadNorm
import Verif.Spec.SpectrumKept

/-! # C80: generators with terms that are dropped as negligible -/

namespace Hermipy.Props
open Hermipy Hermipy.Spec

variable {dirs : List ℕ} {a : ℕ → ℝ}

theorem counts_iff {F : Type} [Interp F] {q : HQuad F} (hq : QuadOk q) (c : ℝ) :
    Counts q.do_fourier c ↔ 1 / 10 ^ 12 ≤ |c / phiZero q.position.dim q.do_fourier| := by
  have hl : q.do_fourier.length = q.position.dim := by rw [hq.grid.flags.1, hq.dim]
  have h := phiZero_count q.do_fourier
  have hpz := (phiZero_pos q.do_fourier.length q.do_fourier).1
  rw [hl] at h hpz
  rw [Counts, abs_div, abs_of_pos hpz, div_eq_mul_inv |c|, ← eq_inv_of_mul_eq_one_right h]

open Classical in
/-- The terms may come in any order. -/
theorem kept_terms (hs : dirs.Pairwise (· < ·)) {sparse : Bool} {slack : ℕ} {eig : Eig} (he : EigDiag eig)
    {q : HQuad (Smooth dirs.length)} (hq : QuadOk q) (hqd : q.position.dirs = dirs) {s : IndexSet} {degree : ℕ} (hr : Resolves slack s degree q)
    (ha : ∀ i < dirs.length, a i ≠ 0) {T : List (OpTerm (Smooth dirs.length))} (hT : T.Perm (generator dirs q.position q.do_fourier a)) :
    let _ := Smooth.interp dirs
    ∃ V, discretize_op (quad_varf sparse slack eig degree s q) (fun f ds => quad_varfd sparse slack eig degree s ds q f) (Smooth.fn dirs) q dirs
        (argsOf (List.ofFn Smooth.coord) T) = .ok V ∧
      VarfOk V ∧ V.is_sparse = sparse ∧ V.position = q.position ∧ V.factor = q.factor ∧ V.index_set = s ∧ SameSets s V.degree degree ∧
      ∀ I J, InSet s q.position.dim degree I → InSet s q.position.dim degree J →
        Entry V I J (opEntry q (Smooth.ev dirs) (keptGenerator dirs q.position q.do_fourier a) I J) := by
  intro inst
  have hdim : dirs.length = q.position.dim := (congrArg List.length hqd).symm.trans hq.pos.dirs
  have h1 : 1 ≤ q.position.dim := Nat.one_le_iff_ne_zero.2 (PosOk.dim_pos hq.pos hq.dirs_ne)
  obtain ⟨L, hL⟩ := iterOk_exists (hr.usable _ h1 le_rfl).toSized.fits'
  obtain ⟨L2, hL2⟩ := iterOk_exists hr.sized.fits'
  have hpz := phiZero_pos q.position.dim q.do_fourier
  have hgen := generator_normal (fourier := q.do_fourier) hq.pos hqd hr.variances (a := a) (by rwa [← hdim])
  have hLists : ∀ L2, s.s_list q.nodes.length (2 * degree) = .ok L2 → Lists L2 (InSet s q.nodes.length (2 * degree)) := by
    intro L2 h
    have ok := IterOk.of_list (by rw [hq.dim]; exact hr.sized.fits') h
    exact ⟨ok.nodup, ok.mem⟩
  have hle : ∀ {m}, InSet s q.position.dim (2 * degree) m → ∀ k < q.position.dim, m.getD k 0 ≤ 2 * degree := by
    intro m hm k hk
    have hl := inSet_length hm
    exact inSet_le (fun h => by have := hr.parity.cross h; omega) hm _ (by rw [List.getD_eq_getElem _ _ (by omega)]; exact List.getElem_mem _)
  have hfn : ∀ c, SFnOk (Smooth.fn dirs c) := fun c => ⟨hs, fun p hp a ha d hd => by
      rw [Smooth.fn, Multiset.mem_singleton] at hp
      rw [hp, Multiset.mem_singleton] at ha
      rw [ha] at hd
      exact List.mem_toFinset.1 hd⟩
  -- one coefficient: a multiple of a basis function
  have hone : ∀ {v : Smooth dirs.length} {K : List ℕ} {c : ℝ} {ds : List ℕ}, K.length = q.position.dim → (∀ k < q.position.dim, K.getD k 0 ≤ 1) →
      (∀ x, Smooth.ev dirs v x = c * coordBasis q.position q.do_fourier K x) → (∀ d ∈ ds, d ∈ q.position.dirs) → DiffClosed s degree q ds →
      quad_varfd sparse slack eig degree s ds q (Smooth.fn dirs v) = .ok ⟨sparse, L.map fun I => L.map fun J =>
        if 1 / 10 ^ 12 ≤ |c| then dformEntry q (Smooth.ev dirs v) ds I J else 0, q.position, recDegree s degree, q.factor, s⟩ := by
    intro v K c ds hK hK1 hv hin hdc
    have hfilter : ds.filter (fun d => decide (d ∈ q.position.dirs)) = ds := List.filter_eq_self.2 (by simpa using hin)
    have hval : (Smooth.fn dirs v).value = Smooth.ev dirs v := Smooth.fn_value dirs v
    by_cases hb : 1 / 10 ^ 12 ≤ |c|
    · have e := quad_varfd_exact (sparse := sparse) he hq hr.variances hr.usable hr.sized hr.parity (hfn v).vars hqd.symm (by
        rw [hval]
        exact exact_coordBasis hq hr.variances hr.parity.cross hr.products hLists hr.rule hK (fun k hk => by have := hK1 k hk; omega) hv hb) hdc hL
      rw [hfilter, hval] at e
      simp only [if_pos hb]
      exact e
    · have e := quad_varfd_ok (sparse := sparse) he hq hr.usable hr.sized hr.parity hL hL2 (f := Smooth.fn dirs v) hqd.symm (hfn v).vars hdc
      have hdc' := hdc.dirs
      rw [hfilter] at e hdc'
      simp only [if_neg hb]
      rw [e]
      congr 2
      apply List.map_congr_left
      intro I _
      apply List.map_congr_left
      intro J hJ
      obtain ⟨b, J', -, hE, -⟩ := qSteps_one hq.pos ds hin hdc' J ((hL.mem J).1 hJ)
      rw [hE, keptForm_small q (fun m hm => ?_), mul_zero]
      have hm := (hL2.mem m).1 hm
      rw [hval, fcoef_coordBasis hq hr.variances hr.rule hK (inSet_length hm) (fun k hk => by have := hle hm k hk; have := hK1 k hk; omega) hv]
      split
      · exact not_le.1 hb
      · norm_num
  have hdcl : ∀ m, DiffClosed s degree q (orderDirs q.position.dirs m) := fun m d _ hdm h =>
    hr.derivatives _ (by rw [← hq.pos.dirs]; exact List.idxOf_lt_length_iff.2 hdm) h
  let Big : List ℕ → Prop := fun m => ∃ i < dirs.length, (m = orderAt dirs.length i 2 ∧ Counts q.do_fourier (a i * entryOf q.position.cov i i)) ∨
    (m = orderAt dirs.length i 1 ∧ Counts q.do_fourier (a i * √(entryOf q.position.cov i i)))
  have big2 : ∀ i < dirs.length, (Big (orderAt dirs.length i 2) ↔ Counts q.do_fourier (a i * entryOf q.position.cov i i)) := by
    intro i hi
    constructor
    · rintro ⟨j, hj, ⟨h, hc⟩ | ⟨h, hc⟩⟩
      · obtain ⟨rfl, -⟩ := orderAt_inj hi hj two_ne_zero h
        exact hc
      · have := (orderAt_inj hi hj two_ne_zero h).2
        omega
    · exact fun h => ⟨i, hi, Or.inl ⟨rfl, h⟩⟩
  have big1 : ∀ i < dirs.length, (Big (orderAt dirs.length i 1) ↔ Counts q.do_fourier (a i * √(entryOf q.position.cov i i))) := by
    intro i hi
    constructor
    · rintro ⟨j, hj, ⟨h, hc⟩ | ⟨h, hc⟩⟩
      · have := (orderAt_inj hi hj one_ne_zero h).2
        omega
      · obtain ⟨rfl, -⟩ := orderAt_inj hi hj one_ne_zero h
        exact hc
    · exact fun h => ⟨i, hi, Or.inr ⟨rfl, h⟩⟩
  have hmemT : ∀ {t}, t ∈ T → t ∈ generator dirs q.position q.do_fourier a := fun ht => hT.mem_iff.1 ht
  have hgenT : Normal dirs T := ⟨fun t ht => hgen.wide t (hmemT ht), fun t ht => hgen.nonzero t (hmemT ht), (hT.map _).nodup_iff.2 hgen.distinct⟩
  let G : List ℕ → List ℕ → List ℕ → ℝ := fun m I J => if Big m then dformEntry q (Smooth.ev dirs (coeffAt T m)) (orderDirs q.position.dirs m) I J else 0
  have hsum : ∀ I J, ∑ m ∈ ordersOf T, G m I J = opEntry q (Smooth.ev dirs) (keptGenerator dirs q.position q.do_fourier a) I J := by
    intro I J
    have e1 : ordersOf T = (T.map OpTerm.index).toFinset := by
      refine Finset.filter_true_of_mem fun m hm => ?_
      obtain ⟨t, ht, rfl⟩ := List.mem_map.1 (List.mem_toFinset.1 hm)
      rw [coeffAt_of_mem hgenT.distinct ht]
      exact hgenT.nonzero t ht
    rw [e1, List.sum_toFinset _ hgenT.distinct, List.map_map, opEntry_terms, keptGenerator]
    have e2 : T.map ((fun m => G m I J) ∘ OpTerm.index) = T.map fun t => if Big t.index then
        dformEntry q (Smooth.ev dirs t.coeff) (orderDirs q.position.dirs t.index) I J else 0 := by
      apply List.map_congr_left
      intro t ht
      simp only [Function.comp_apply, G]
      rw [coeffAt_of_mem hgenT.distinct ht]
    rw [e2, (hT.map _).sum_eq]
    rw [generator, List.map_flatMap, List.map_flatMap, List.flatMap_def, List.flatMap_def,
      List.sum_flatten, List.sum_flatten, List.map_map, List.map_map]
    congr 1
    apply List.map_congr_left
    intro i hi
    have hi := List.mem_range.1 hi
    simp only [Function.comp_apply, List.map_cons, List.map_append, List.sum_cons, List.sum_append]
    congr 1
    · rw [if_congr (big2 i hi) rfl rfl]
      split <;> simp
    · by_cases hf : q.do_fourier.getD i 0 = 1
      · simp only [hf, if_true, ne_eq, not_true_eq_false, false_and, if_false, List.map_nil, List.sum_nil]
      · simp only [hf, if_false, ne_eq, not_false_eq_true, true_and]
        simp only [List.map_cons, List.map_nil, List.sum_cons, List.sum_nil, add_zero]
        rw [if_congr (big1 i hi) rfl rfl]
        split <;> simp
  obtain ⟨ok, hent⟩ := form_of_entries (sparse := sparse) (fun I J => ∑ m ∈ ordersOf T, G m I J) hq.pos hq.dirs_ne (hr.usable _ h1 le_rfl)
    (factor := q.factor) hL
  refine ⟨_, ?_, ok, rfl, rfl, rfl, rfl, recDegree_same s degree, fun I J hI hJ => by rw [← hsum]; exact hent I J hI hJ⟩
  have key := discretize_op_parts (varf := quad_varf sparse slack eig degree s q) (varfd := fun f ds => quad_varfd sparse slack eig degree s ds q f)
    (fn := Smooth.fn dirs) (sparse := sparse) (G := G) hq hr.usable hL (vars := List.ofFn Smooth.coord) (List.length_ofFn.trans hdim) (T := T) hgenT.nonzero
    (fun t ht => (hgenT.wide t ht).trans hdim) (by
      intro t ht
      obtain ⟨i, hi, rfl | ⟨-, rfl⟩⟩ := mem_generator (hmemT ht) <;> rw [orderAt_sum hi] <;> omega)
    (fun h0 => by
      exfalso
      have h00 : 0 < dirs.length := by omega
      have hmem : (⟨Smooth.const (a 0 * entryOf q.position.cov 0 0), orderAt dirs.length 0 2⟩ : OpTerm (Smooth dirs.length)) ∈ T := by
        rw [hT.mem_iff]
        simp only [generator, List.mem_flatMap, List.mem_range]
        exact ⟨0, h00, by simp⟩
      have := h0 (orderAt dirs.length 0 2)
      exact hgenT.nonzero _ hmem ((coeffAt_of_mem hgenT.distinct hmem).symm.trans this))
    (by
      intro m hm
      obtain ⟨t, ht, rfl⟩ := List.mem_map.1 (coeffAt_index hm)
      simp only [G]
      rw [coeffAt_of_mem hgenT.distinct ht]
      obtain ⟨i, hi, rfl | ⟨hf, rfl⟩⟩ := mem_generator (hmemT ht)
      · have e := hone (v := Smooth.const (a i * entryOf q.position.cov i i)) (K := List.replicate q.position.dim 0)
          (c := a i * entryOf q.position.cov i i / phiZero q.position.dim q.do_fourier) (ds := orderDirs q.position.dirs (orderAt dirs.length i 2))
          (by simp) (by simp) (fun x => by rw [coordBasis_zero, div_mul_cancel₀ _ hpz.1.ne']; rfl) (fun d hd => mem_orderDirs hd) (hdcl _)
        simp only [big2 i hi, counts_iff hq]
        exact e
      · have e := hone (v := -(Smooth.const (a i) * (Smooth.X dirs (dirs.getD i 0) - Smooth.const (q.position.mean.getD i 0)))) (K := orderAt q.position.dim i 1)
          (c := -(a i * √(entryOf q.position.cov i i)) / phiZero q.position.dim q.do_fourier) (ds := orderDirs q.position.dirs (orderAt dirs.length i 1))
          (orderAt_length _ _ _) (fun k hk => by rw [orderAt_getD (by omega)]; split <;> omega) (fun x => by
            have hX : Smooth.ev dirs (Smooth.X dirs (dirs.getD i 0)) x = x (dirs.getD i 0) :=
              Smooth.ev_X (by rw [List.getD_eq_getElem _ _ hi]; exact List.getElem_mem hi) x
            rw [coordBasis_one (by omega) hf, hqd, map_neg, map_mul, map_sub, Pi.neg_apply, Pi.mul_apply, Pi.sub_apply, hX]
            change -(a i * (_ - q.position.mean.getD i 0)) = _
            have h1 := (Real.sqrt_pos.2 (hr.variances i (by omega))).ne'
            have h2 := hpz.1.ne'
            field_simp) (fun d hd => mem_orderDirs hd) (hdcl _)
        simp only [big1 i hi, counts_iff hq]
        rw [neg_div, abs_neg] at e
        exact e)
  rw [hqd] at key
  exact key

open Classical in
/-- C80, whatever the rates (not zero): a term of the generator is dropped by `discretize_op` if and only if its coefficient is below `10⁻¹²`, and
the matrix is that of the remaining terms. The factor of the quadrature is 1. -/
theorem C80_kept (hs : dirs.Pairwise (· < ·)) (free : Smooth dirs.length → Finset ℕ) {sparse : Bool} {slack : ℕ} {eig : Eig} (he : EigDiag eig)
    {q : HQuad (Smooth dirs.length)} (hq : QuadOk q) (hqd : q.position.dirs = dirs) {s : IndexSet} {degree : ℕ} (hr : Resolves slack s degree q)
    (ha : ∀ i < dirs.length, a i ≠ 0) :
    let _ := Smooth.interp dirs
    ∃ V, quad_discretize_op (Smooth.D dirs) Smooth.inv free (List.ofFn Smooth.coord) (quad_varf sparse slack eig degree s q)
        (fun f ds => quad_varfd sparse slack eig degree s ds q f) (Smooth.fn dirs) q 1 (.op ⟨dirs, generator dirs q.position q.do_fourier a⟩) = .ok V ∧
      VarfOk V ∧ V.is_sparse = sparse ∧ V.position = q.position ∧ V.factor = q.factor ∧ V.index_set = s ∧ SameSets s V.degree degree ∧
      ∀ I J, InSet s q.position.dim degree I → InSet s q.position.dim degree J →
        Entry V I J (opEntry q (Smooth.ev dirs) (keptGenerator dirs q.position q.do_fourier a) I J) := by
  intro inst
  obtain ⟨V, e, h⟩ := kept_terms (sparse := sparse) hs he hq hqd hr ha (List.Perm.refl _)
  refine ⟨V, ?_, h⟩
  have e0 : mapFactor (Smooth.D dirs) Smooth.inv free q 1 ⟨dirs, generator dirs q.position q.do_fourier a⟩ =
      .ok ⟨dirs, generator dirs q.position q.do_fourier a⟩ := by
    rw [mapFactor, if_neg]
    simp [hq.factorDirs]
  rw [quad_discretize_op, toOp, Out.ok_bind, e0, Out.ok_bind]
  exact e

open Classical in
/-- C80, whatever the rates (not zero), for an operator which becomes the generator when it is mapped by the factor `g` of the quadrature: the terms
that count for the threshold are those of the generator. -/
theorem C80_mapped_kept (hs : dirs.Pairwise (· < ·)) (free : Smooth dirs.length → Finset ℕ) {sparse : Bool} {slack : ℕ} {eig : Eig} (he : EigDiag eig)
    {q : HQuad (Smooth dirs.length)} (hq : QuadOk q) (hqd : q.position.dirs = dirs) {g : Smooth dirs.length}
    (hg : @SFn.value _ (Smooth.interp dirs) q.factor = Smooth.ev dirs g) (hg0 : ∀ x, (g : (Fin dirs.length → ℝ) → ℝ) x ≠ 0) {s : IndexSet}
    {degree : ℕ} (hr : Resolves slack s degree q) (ha : ∀ i < dirs.length, a i ≠ 0) {A : HOp (Smooth dirs.length)} (hA : Normal A.dirs A.terms)
    (hd : A.dirs = dirs) (h5 : ∀ t ∈ A.terms, t.index.sum ≤ 5)
    (hco : ∀ m, m.length = dirs.length → Smooth.inv g * productCoeff (Smooth.D dirs) dirs A.terms g m =
      coeffAt (generator dirs q.position q.do_fourier a) m) :
    let _ := Smooth.interp dirs
    ∃ V, quad_discretize_op (Smooth.D dirs) Smooth.inv free (List.ofFn Smooth.coord) (quad_varf sparse slack eig degree s q)
        (fun f ds => quad_varfd sparse slack eig degree s ds q f) (Smooth.fn dirs) q g (.op A) = .ok V ∧
      VarfOk V ∧ V.is_sparse = sparse ∧ V.position = q.position ∧ V.factor = q.factor ∧ V.index_set = s ∧ SameSets s V.degree degree ∧
      ∀ I J, InSet s q.position.dim degree I → InSet s q.position.dim degree J →
        Entry V I J (opEntry q (Smooth.ev dirs) (keptGenerator dirs q.position q.do_fourier a) I J) := by
  intro inst
  have hdim : dirs.length = q.position.dim := (congrArg List.length hqd).symm.trans hq.pos.dirs
  have hn : dirs.Nodup := hqd ▸ hq.pos.nodup
  have hval : Smooth.ev dirs g = q.factor.value := hg.symm
  have hgen := generator_normal (fourier := q.do_fourier) hq.pos hqd hr.variances (a := a) (by rwa [← hdim])
  obtain ⟨R, e, hRd, hN, -, hc, -⟩ := mapFactor_ok (ev := Smooth.ev dirs) (Smooth.partials_ok dirs) (Smooth.ev_D hn) free hq
    (fun v => by rw [hqd]; exact Smooth.depends dirs v) hval (Smooth.mul_inv hg0) hA (hd.trans hqd.symm) h5
  have hperm : R.terms.Perm (generator dirs q.position q.do_fourier a) := by
    refine normal_perm (dirs := dirs) (by rw [hRd, hqd] at hN; exact hN) hgen fun m hm => ?_
    rw [hc m (by rw [hqd]; exact hm), hqd, hco m hm]
  obtain ⟨V, e2, h⟩ := kept_terms (sparse := sparse) hs he hq hqd hr ha hperm
  refine ⟨V, ?_, h⟩
  rw [quad_discretize_op, toOp, Out.ok_bind, e, Out.ok_bind, hRd, hqd]
  exact e2

/-- C80. If all rates are so small that no term reaches `10⁻¹²`, the matrix is zero. -/
theorem C80_vanish (hs : dirs.Pairwise (· < ·)) (free : Smooth dirs.length → Finset ℕ) {sparse : Bool} {slack : ℕ} {eig : Eig} (he : EigDiag eig)
    {q : HQuad (Smooth dirs.length)} (hq : QuadOk q) (hqd : q.position.dirs = dirs) {s : IndexSet} {degree : ℕ} (hr : Resolves slack s degree q)
    (ha : ∀ i < dirs.length, a i ≠ 0) (h2 : ∀ i < dirs.length, ¬ Counts q.do_fourier (a i * entryOf q.position.cov i i))
    (h1 : ∀ i < dirs.length, q.do_fourier.getD i 0 ≠ 1 → ¬ Counts q.do_fourier (a i * √(entryOf q.position.cov i i))) :
    let _ := Smooth.interp dirs
    ∃ V, quad_discretize_op (Smooth.D dirs) Smooth.inv free (List.ofFn Smooth.coord) (quad_varf sparse slack eig degree s q)
        (fun f ds => quad_varfd sparse slack eig degree s ds q f) (Smooth.fn dirs) q 1 (.op ⟨dirs, generator dirs q.position q.do_fourier a⟩) = .ok V ∧
      ∀ I J, InSet s q.position.dim degree I → InSet s q.position.dim degree J → Entry V I J 0 := by
  intro inst
  obtain ⟨V, e, -, -, -, -, -, -, h⟩ := C80_kept (sparse := sparse) hs free he hq hqd hr ha
  refine ⟨V, e, fun I J hI hJ => ?_⟩
  have h := h I J hI hJ
  have e0 : keptGenerator dirs q.position q.do_fourier a = [] := by
    rw [keptGenerator, List.flatMap_eq_nil_iff]
    intro i hi
    have hi := List.mem_range.1 hi
    rw [if_neg (h2 i hi), if_neg (fun h => h1 i hi h.1 h.2), List.append_nil]
  rwa [e0, opEntry_terms, List.map_nil, List.sum_nil] at h

open Classical in
/-- C80: the Laplacian with the quadrature of `Quad.fourier`, for all constants `κ_i` (not zero): on the diagonal are the numbers
`-Σ κ_i (2π k_i / (r_i - l_i))²`, where the sum is over the directions with `|κ_i| (2π)^(d/2) ≥ 10⁻¹²`; the other directions are lost. -/
theorem C80_fourier_kept {n degree : ℕ} (hn : degree + 1 < n) (hev : degree % 2 = 0) (hd : DirsOk dirs) (hU : UsableTo .cube dirs.length degree)
    (hpts : n ^ dirs.length < 2 ^ 32) {b : List (ℝ × ℝ)} (hb : b.length = dirs.length ∧ ∀ x ∈ b, x.1 < x.2) (hz : Sized .cube dirs.length (2 * degree))
    {slack : ℕ} {κ : ℕ → ℝ} (hκ : ∀ i < dirs.length, κ i ≠ 0) (free : Smooth dirs.length → Finset ℕ)
    {sparse : Bool} {eig : Eig} (he : EigDiag eig) :
    let _ := Smooth.interp dirs
    ∃ q V, quad_fourier (.one n) (some b) none (.expr {0}) (some dirs) = .ok q ∧
      quad_discretize_op (Smooth.D dirs) Smooth.inv free (List.ofFn Smooth.coord) (quad_varf sparse slack eig degree .cube q)
        (fun f ds => quad_varfd sparse slack eig degree .cube ds q f) (Smooth.fn dirs) q 1 (.op ⟨dirs, laplacian dirs κ⟩) = .ok V ∧
      VarfOk V ∧ V.is_sparse = sparse ∧ V.position = q.position ∧ V.factor = q.factor ∧ V.index_set = .cube ∧ SameSets .cube V.degree degree ∧
      ∀ I J, InSet .cube dirs.length degree I → InSet .cube dirs.length degree J →
        Entry V I J (if I = J then -∑ i ∈ (Finset.range dirs.length).filter (fun i => 1 / 10 ^ 12 ≤ |κ i| * √(2 * Real.pi) ^ dirs.length),
          κ i * (2 * Real.pi * ((J.getD i 0 + 1) / 2 : ℕ) / ((b.getD i 0).2 - (b.getD i 0).1)) ^ 2 else 0) := by
  intro inst
  obtain ⟨q, e, hq, hdim, hdirs, hfac, hdf, hcb, hr⟩ := fourier_resolves hn hev hd hU hpts hb hz (slack := slack)
  have h1 : ∀ i < dirs.length, q.do_fourier.getD i 0 = 1 := by
    intro i hi
    rw [hdf]
    simp [hi]
  have hcpos : ∀ i < dirs.length, 0 < entryOf q.position.cov i i := fun i hi => hr.variances i (by omega)
  have hcount : ∀ c, Counts q.do_fourier c ↔ 1 / 10 ^ 12 ≤ |c| * √(2 * Real.pi) ^ dirs.length := by
    intro c
    rw [Counts, hdf, List.count_replicate_self]
  let κ' : ℕ → ℝ := fun i => if 1 / 10 ^ 12 ≤ |κ i| * √(2 * Real.pi) ^ dirs.length then κ i else 0
  have hgen : generator dirs q.position q.do_fourier (fun i => κ i / entryOf q.position.cov i i) = laplacian dirs κ := by
    rw [generator, laplacian, List.map_eq_flatMap]
    refine List.flatMap_congr fun i hi => ?_
    have hi := List.mem_range.1 hi
    rw [if_pos (h1 i hi), div_mul_cancel₀ _ (hcpos i hi).ne']
  obtain ⟨V, e2, v1, v2, v3, v4, v5, v6, v7⟩ := C80_kept (sparse := sparse) hd.sorted free he hq hdirs hr (a := fun i => κ i / entryOf q.position.cov i i)
    fun i hi => div_ne_zero (hκ i hi) (hcpos i hi).ne'
  rw [hgen] at e2
  refine ⟨q, V, e, e2, v1, v2, v3, v4, v5, v6, fun I J hI hJ => ?_⟩
  have h := v7 I J (by rw [hdim]; exact hI) (by rw [hdim]; exact hJ)
  have e3 : opEntry q (Smooth.ev dirs) (keptGenerator dirs q.position q.do_fourier fun i => κ i / entryOf q.position.cov i i) I J =
      opEntry q (Smooth.ev dirs) (generator dirs q.position q.do_fourier fun i => κ' i / entryOf q.position.cov i i) I J := by
    rw [opEntry_terms, opEntry_terms, keptGenerator, generator, List.map_flatMap, List.map_flatMap, List.flatMap_def, List.flatMap_def,
      List.sum_flatten, List.sum_flatten, List.map_map, List.map_map]
    congr 1
    apply List.map_congr_left
    intro i hi
    have hi := List.mem_range.1 hi
    simp only [Function.comp_apply]
    have hno : ¬ (q.do_fourier.getD i 0 ≠ 1 ∧ Counts q.do_fourier (κ i / entryOf q.position.cov i i * √(entryOf q.position.cov i i))) :=
      fun h => h.1 (h1 i hi)
    rw [if_neg hno, if_pos (h1 i hi), div_mul_cancel₀ _ (hcpos i hi).ne', div_mul_cancel₀ _ (hcpos i hi).ne', List.append_nil]
    by_cases hc : 1 / 10 ^ 12 ≤ |κ i| * √(2 * Real.pi) ^ dirs.length
    · rw [if_pos ((hcount _).2 hc)]
      simp only [κ', if_pos hc]
    · rw [if_neg fun h => hc ((hcount _).1 h)]
      simp only [κ', if_neg hc, List.map_cons, List.map_nil, List.sum_cons, List.sum_nil, add_zero]
      have : Smooth.ev dirs (Smooth.const 0) = fun _ => 0 := rfl
      rw [this]
      simp [dformEntry, quadrature]
  have hle : ∀ {K}, InSet .cube q.position.dim degree K → ∀ k < q.position.dim, K.getD k 0 ≤ degree := by
    intro K hK k hk
    have hl := inSet_length hK
    exact hK.2 _ (by rw [List.getD_eq_getElem _ _ (by omega)]; exact List.getElem_mem _)
  rw [← hdim] at hI hJ
  rw [e3, opEntry_eigen hq hr.variances hr.rule (inSet_length hI) (inSet_length hJ)
    (c := eigenvalue q.do_fourier (fun i => κ' i / entryOf q.position.cov i i) J q.position.dim)
    (fun k hk => by have := hle hI k hk; have := hle hJ k hk; omega) (fun x => by
      rw [hdirs]
      exact generator_eigen hq.pos hdirs hr.variances (inSet_length hJ) x), eigenvalue, hdim] at h
  have e4 : ∑ i ∈ Finset.range dirs.length, κ' i / entryOf q.position.cov i i * (level (q.do_fourier.getD i 0) (J.getD i 0) : ℕ) =
      ∑ i ∈ (Finset.range dirs.length).filter (fun i => 1 / 10 ^ 12 ≤ |κ i| * √(2 * Real.pi) ^ dirs.length),
        κ i * (2 * Real.pi * ((J.getD i 0 + 1) / 2 : ℕ) / ((b.getD i 0).2 - (b.getD i 0).1)) ^ 2 := by
    rw [Finset.sum_filter]
    refine Finset.sum_congr rfl fun i hi => ?_
    have hi := Finset.mem_range.1 hi
    by_cases hc : 1 / 10 ^ 12 ≤ |κ i| * √(2 * Real.pi) ^ dirs.length
    · simp only [κ', if_pos hc]
      rw [h1 i hi, level, if_pos rfl, (hcb i hi).2]
      have := (hcb i hi).1
      have hne : (b.getD i 0).2 - (b.getD i 0).1 ≠ 0 := by linarith
      have := Real.pi_pos
      rw [Nat.cast_pow]
      field_simp
    · simp only [κ', if_neg hc, zero_div, zero_mul]
  rwa [e4] at h

/-- C80 is false for small constants: of `10⁻¹³ ∂²` on an interval of length 2 nothing is left, although the eigenvalue of `sin(πx)` is `-10⁻¹³ π²`. -/
theorem C80_small_false {eig : Eig} (he : EigDiag eig) (sparse : Bool) :
    let _ := Smooth.interp [0]
    ∃ q V, quad_fourier (.one 4) (some [(0, 2)]) none (.expr {0}) (some [0]) = .ok q ∧
    quad_discretize_op (Smooth.D [0]) Smooth.inv (fun _ => ∅) (List.ofFn Smooth.coord)
      (quad_varf sparse 0 eig 2 .cube q) (fun f ds => quad_varfd sparse 0 eig 2 .cube ds q f) (Smooth.fn [0]) q 1
      (.op ⟨[0], laplacian [0] fun _ => 1 / 10 ^ 13⟩) = .ok V ∧ Entry V [1] [1] 0 ∧ (0 : ℝ) ≠ -(1 / 10 ^ 13 * Real.pi ^ 2) := by
  intro inst
  obtain ⟨q, V, e, e2, -, -, -, -, -, -, h⟩ := C80_fourier_kept (dirs := [0]) (n := 4) (degree := 2) (by norm_num) rfl ⟨by simp, by simp, by simp⟩ (usableTo_small _ (by simp) (by norm_num))
    (by norm_num) (b := [(0, 2)]) (by simp) (usable_small _ (by simp) (by simp) (by norm_num)).toSized (slack := 0) (κ := fun _ => 1 / 10 ^ 13) (by norm_num)
    (fun _ => ∅) (sparse := sparse) he
  have h := h [1] [1] ⟨rfl, by simp⟩ ⟨rfl, by simp⟩
  refine ⟨q, V, e, e2, ?_, ?_⟩
  · rw [if_pos rfl, Finset.filter_false_of_mem, Finset.sum_empty, neg_zero] at h
    · exact h
    · intro i _ hc
      have h3 : √(2 * Real.pi) ≤ 3 := by
        rw [Real.sqrt_le_left (by norm_num)]
        have := Real.pi_lt_four
        linarith
      rw [abs_of_pos (by positivity)] at hc
      simp only [List.length_singleton, pow_one] at hc
      linarith
  · have := Real.pi_pos
    exact ne_of_gt (by rw [neg_lt_zero]; positivity)

/-- Two directions with the constants 3 and `10⁻¹⁴`: the second direction is lost. -/
example {eig : Eig} (he : EigDiag eig) :
    let _ := Smooth.interp [0, 1]
    ∃ q V, quad_fourier (.one 4) (some [(0, 2), (0, 2)]) none (.expr {0}) (some [0, 1]) = .ok q ∧
    quad_discretize_op (Smooth.D [0, 1]) Smooth.inv (fun _ => ∅) (List.ofFn Smooth.coord)
      (quad_varf false 0 eig 2 .cube q) (fun f ds => quad_varfd false 0 eig 2 .cube ds q f) (Smooth.fn [0, 1]) q 1
      (.op ⟨[0, 1], laplacian [0, 1] fun i => if i = 0 then 3 else 1 / 10 ^ 14⟩) = .ok V ∧ Entry V [1, 2] [1, 2] (-(3 * Real.pi ^ 2)) := by
  intro inst
  obtain ⟨q, V, e, e2, -, -, -, -, -, -, h⟩ := C80_fourier_kept (dirs := [0, 1]) (n := 4) (degree := 2) (by norm_num) rfl ⟨by simp, by simp, by simp⟩ (usableTo_small _ (by simp) (by norm_num))
    (by norm_num) (b := [(0, 2), (0, 2)]) (by simp) (usable_small _ (by simp) (by simp) (by norm_num)).toSized (slack := 0)
    (κ := fun i => if i = 0 then 3 else 1 / 10 ^ 14) (by intro i _; split <;> norm_num) (fun _ => ∅) (sparse := false) he
  have h := h [1, 2] [1, 2] ⟨rfl, by simp⟩ ⟨rfl, by simp⟩
  refine ⟨q, V, e, e2, ?_⟩
  have hp := Real.pi_gt_three
  have e1 : (Finset.range ([0, 1] : List ℕ).length).filter (fun i => (1 / 10 ^ 12 : ℝ) ≤ |if i = 0 then (3 : ℝ) else 1 / 10 ^ 14| *
      √(2 * Real.pi) ^ ([0, 1] : List ℕ).length) = {0} := by
    ext i
    simp only [List.length_cons, List.length_nil, zero_add, Nat.reduceAdd, Finset.mem_filter, Finset.mem_range, Finset.mem_singleton]
    rw [Real.sq_sqrt (by positivity)]
    constructor
    · rintro ⟨hi, hc⟩
      by_contra h0
      rw [if_neg h0, abs_of_pos (by positivity)] at hc
      have := Real.pi_lt_four
      linarith
    · rintro rfl
      refine ⟨by norm_num, ?_⟩
      rw [if_pos rfl, abs_of_pos (by norm_num)]
      linarith
  rw [if_pos rfl, e1] at h
  simpa using h

/-- The hypotheses of `C80_vanish` hold for the Ornstein-Uhlenbeck generator with the rate `10⁻¹³` and unit variance. -/
example {eig : Eig} (he : EigDiag eig) :
    let _ := Smooth.interp [0]
    ∃ q V, quad_gauss_hermite (fun _ => gauss2) (.one 2) none (some [0]) none (.expr {0}) (some [0]) (some [[1]]) none = .ok q ∧
      quad_discretize_op (Smooth.D [0]) Smooth.inv (fun _ => ∅) (List.ofFn Smooth.coord) (quad_varf false 0 eig 1 .cube q)
        (fun f ds => quad_varfd false 0 eig 1 .cube ds q f) (Smooth.fn [0]) q 1
        (.op ⟨[0], generator [0] q.position q.do_fourier fun _ => 1 / 10 ^ 13⟩) = .ok V ∧ Entry V [1] [1] 0 := by
  intro inst
  obtain ⟨q, e, hq, hdim, hmean, hcov, hdirs, hfac, hF, hr⟩ := gauss_resolves (F := Smooth [0].length) (dirs := [0]) (hermegauss := fun _ => gauss2) (n := 2)
    (degree := 1) (factor := .expr {0}) gauss2_ok (by norm_num) ⟨by simp, by simp, by simp⟩ (by norm_num) (mean := [0]) rfl (cov := [[1]]) (by simp)
    ⟨by rintro (_ | i) (_ | j) h <;> simp [entryOf] at h ⊢, by rintro (_ | i) <;> simp [entryOf]⟩
    (by rintro (_ | i) h <;> simp [entryOf] at h ⊢) (s := .cube) (Or.inr rfl) (usableTo_small _ (by simp) (by norm_num)) (usable_small _ (by simp) (by simp) (by norm_num)).toSized (slack := 0)
    (Or.inl (le_refl 1)) (by
      intro p hp a ha
      rw [Multiset.mem_singleton.1 hp] at ha
      simp at ha)
  have h0 : q.do_fourier.count 1 = 0 := List.count_eq_zero.2 fun h => by have := hF 1 h; omega
  have hone : entryOf q.position.cov 0 0 = 1 := by rw [hcov]; simp [entryOf]
  have hno : ¬ Counts q.do_fourier (1 / 10 ^ 13 * 1) := by
    rw [Counts, h0]
    norm_num
  obtain ⟨V, e2, h⟩ := C80_vanish (a := fun _ => 1 / 10 ^ 13) (sparse := false) (by simp) (fun _ => ∅) he hq hdirs hr (by intro i _; positivity) (by
      intro i hi
      obtain rfl : i = 0 := by simpa using hi
      rw [hone]
      exact hno) (by
      intro i hi _
      obtain rfl : i = 0 := by simpa using hi
      rw [hone, Real.sqrt_one]
      exact hno)
  have hdim : q.position.dim = 1 := hdim
  exact ⟨q, V, e, e2, h [1] [1] (by rw [hdim]; exact ⟨rfl, by simp⟩) (by rw [hdim]; exact ⟨rfl, by simp⟩)⟩

end Hermipy.Props
