import Verif.Spec.Spectrum
import Verif.Lemmas.QuadVarfd
import Verif.Lemmas.Gauss
import Mathlib.Data.List.GetD

/-! # Eigenfunctions of the Ornstein-Uhlenbeck generator and of the Laplacian -/

namespace Hermipy
open Spec
variable {F : Type}

/-- The differential equation of Hermite polynomials, with the derivatives written as in `herm_deriv`. -/
theorem herm_ode (n : ℕ) (y : ℝ) : √(n : ℝ) * (√((n - 1 : ℕ) : ℝ) * herm (n - 1 - 1) y) - y * (√(n : ℝ) * herm (n - 1) y) = -(n : ℝ) * herm n y := by
  rcases n with _ | _ | n
  · simp
  · simp [herm_zero, herm_one]
  · have e : He (n + 2) = Polynomial.X * He (n + 1) - Polynomial.C ((n : ℝ) + 1) * He n := by rw [He_succ, derivative_He]
    have h1 : √((n + 1 : ℕ) : ℝ) * √((n + 1 : ℕ) : ℝ) = (n + 1 : ℕ) := Real.mul_self_sqrt (by positivity)
    have h2 : √((n + 2 : ℕ) : ℝ) * √((n + 2 : ℕ) : ℝ) = (n + 2 : ℕ) := Real.mul_self_sqrt (by positivity)
    have f1 : √(((n + 1).factorial : ℕ) : ℝ) = √((n + 1 : ℕ) : ℝ) * √((n.factorial : ℕ) : ℝ) := by
      rw [← Real.sqrt_mul (by positivity), Nat.factorial_succ, Nat.cast_mul]
    have f2 : √(((n + 2).factorial : ℕ) : ℝ) = √((n + 2 : ℕ) : ℝ) * (√((n + 1 : ℕ) : ℝ) * √((n.factorial : ℕ) : ℝ)) := by
      rw [← f1, ← Real.sqrt_mul (by positivity), Nat.factorial_succ, Nat.cast_mul]
    have p0 : √((n.factorial : ℕ) : ℝ) ≠ 0 := by positivity
    have p1 : √((n + 1 : ℕ) : ℝ) ≠ 0 := by positivity
    have p2 : √((n + 2 : ℕ) : ℝ) ≠ 0 := by positivity
    change √((n + 2 : ℕ) : ℝ) * (√((n + 1 : ℕ) : ℝ) * herm n y) - y * (√((n + 2 : ℕ) : ℝ) * herm (n + 1) y) = -((n + 2 : ℕ) : ℝ) * herm (n + 2) y
    rw [herm_eq, herm_eq, herm_eq, f1, f2, e]
    simp only [Polynomial.eval_sub, Polynomial.eval_mul, Polynomial.eval_X, Polynomial.eval_C]
    generalize √((n + 2 : ℕ) : ℝ) = b at *
    generalize √((n + 1 : ℕ) : ℝ) = a at *
    field_simp
    push_cast at h1 h2 ⊢
    linear_combination (Polynomial.eval y (He n) * b ^ 2) * h1 + (Polynomial.eval y (He n) * ((n : ℝ) + 1) - y * Polynomial.eval y (He (n + 1))) * h2

/-- The dependence of a basis function on one direction. -/
theorem coordBasis_set {p : Position} (fourier : List ℕ) {J : List ℕ} (hJ : J.length = p.dim) {i : ℕ} (hi : i < p.dim) (x : ℕ → ℝ) :
    ∃ R, ∀ k, coordBasis p fourier (J.set i k) x =
      phi (fourier.getD i 0) k ((x (p.dirs.getD i 0) - p.mean.getD i 0) / √(entryOf p.cov i i)) * R := by
  refine ⟨∏ k ∈ (Finset.range p.dim).erase i, phi (fourier.getD k 0) (J.getD k 0) ((x (p.dirs.getD k 0) - p.mean.getD k 0) / √(entryOf p.cov k k)), ?_⟩
  intro k
  rw [coordBasis, ← Finset.mul_prod_erase _ _ (Finset.mem_range.2 hi), getD_set_self (by omega)]
  congr 1
  refine Finset.prod_congr rfl fun j hj => ?_
  have : (J.set i k).getD j 0 = J.getD j 0 := by simp [(Finset.mem_erase.1 hj).1.symm]
  rw [this]

theorem pd_pd_coordBasis {p : Position} (hp : PosOk p) {fourier J : List ℕ} (hJ : J.length = p.dim) {d : ℕ} (hd : d ∈ p.dirs) :
    pd d (pd d (coordBasis p fourier J)) = fun x =>
      dCoef (fourier.getD (p.dirs.idxOf d) 0) (p.dirs.idxOf d) J *
        dCoef (fourier.getD (p.dirs.idxOf d) 0) (p.dirs.idxOf d) (dIdx (fourier.getD (p.dirs.idxOf d) 0) (p.dirs.idxOf d) J) *
        (1 / √(entryOf p.cov (p.dirs.idxOf d) (p.dirs.idxOf d))) ^ 2 *
        coordBasis p fourier (dIdx (fourier.getD (p.dirs.idxOf d) 0) (p.dirs.idxOf d) (dIdx (fourier.getD (p.dirs.idxOf d) 0) (p.dirs.idxOf d) J)) x := by
  rw [pd_coordBasis hp hJ hd, pd_const_mul, pd_coordBasis hp (by rw [dIdx_length, hJ]) hd]
  funext x
  ring

/-- The generator of one direction. -/
theorem direction_eigen {p : Position} (hp : PosOk p) (hv : VarPos p) {fourier J : List ℕ} (hJ : J.length = p.dim) {i : ℕ} (hi : i < p.dim) (x : ℕ → ℝ) :
    entryOf p.cov i i * pd (p.dirs.getD i 0) (pd (p.dirs.getD i 0) (coordBasis p fourier J)) x -
      (if fourier.getD i 0 = 1 then 0 else (x (p.dirs.getD i 0) - p.mean.getD i 0) * pd (p.dirs.getD i 0) (coordBasis p fourier J) x) =
    -(level (fourier.getD i 0) (J.getD i 0) : ℝ) * coordBasis p fourier J x := by
  have hil : i < p.dirs.length := by rw [hp.dirs]; exact hi
  have hd : p.dirs.getD i 0 ∈ p.dirs := by rw [List.getD_eq_getElem _ _ hil]; exact List.getElem_mem hil
  have hidx := idxOf_getD hp.nodup hil
  have hs : 0 < entryOf p.cov i i := hv i hi
  have hs2 : √(entryOf p.cov i i) ^ 2 = entryOf p.cov i i := Real.sq_sqrt hs.le
  have hs0 := (Real.sqrt_pos.2 hs).ne'
  rw [pd_pd_coordBasis hp hJ hd, pd_coordBasis hp hJ hd, hidx]
  obtain ⟨R, hR⟩ := coordBasis_set (p := p) fourier hJ hi x
  have hJJ : J.set i (J.getD i 0) = J := by
    apply List.ext_getElem?
    intro j
    by_cases h : i = j
    · subst h
      rw [List.getElem?_set_self (by omega), List.getD_eq_getElem _ _ (by omega), List.getElem?_eq_getElem]
    · rw [List.getElem?_set_ne h]
  have hB := hR (J.getD i 0)
  rw [hJJ] at hB
  by_cases hf : fourier.getD i 0 = 1
  · rw [if_pos hf, sub_zero, hf, level, if_pos rfl]
    by_cases h0 : J.getD i 0 = 0
    · rw [h0]
      simp only [dCoef, signedWave, h0]
      simp
    · have e : dIdx 1 i (dIdx 1 i J) = J := by
        rw [dIdx, if_pos rfl, dIdx, if_pos rfl, partner, partner_getD (by omega), partner, List.set_set]
        conv_rhs => rw [← hJJ]
        congr 1
        split <;> split <;> omega
      have c : dCoef 1 i J * dCoef 1 i (dIdx 1 i J) = -((((J.getD i 0 + 1) / 2) ^ 2 : ℕ) : ℝ) := by
        rw [dCoef, if_pos rfl, dCoef, if_pos rfl, dIdx, if_pos rfl, signedWave, signedWave, partner_getD (by omega)]
        generalize J.getD i 0 = n at *
        rcases Nat.even_or_odd' n with ⟨k, rfl | rfl⟩
        · have h1 : 2 * k % 2 = 0 := by omega
          rw [if_pos h1, if_neg (by omega), if_pos (by omega), show 2 * k / 2 = k by omega, show (2 * k - 1 + 1) / 2 = k by omega,
            show (2 * k + 1) / 2 = k by omega]
          push_cast
          ring
        · have h1 : ¬ (2 * k + 1) % 2 = 0 := by omega
          rw [if_neg h1, if_pos (by omega), if_neg (by omega), show (2 * k + 1 + 1) / 2 = k + 1 by omega]
          push_cast
          ring
      rw [e, c]
      field_simp
      rw [hs2]
      ring
  · rw [if_neg hf, level, if_neg hf, dIdx, if_neg hf, dIdx, if_neg hf, lower, lower, getD_set_self (by omega), List.set_set]
    simp only []
    rw [hR, hR, hB, dCoef, if_neg hf, dCoef, if_neg hf, getD_set_self (by omega)]
    have hph : ∀ k y, phi (fourier.getD i 0) k y = herm k y := fun k y => by rw [phi, if_neg hf]
    simp only [hph]
    have ode := herm_ode (J.getD i 0) ((x (p.dirs.getD i 0) - p.mean.getD i 0) / √(entryOf p.cov i i))
    generalize herm (J.getD i 0 - 1 - 1) _ = A at *
    generalize herm (J.getD i 0 - 1) _ = B at *
    generalize herm (J.getD i 0) _ = C at *
    rw [one_div, inv_pow, hs2]
    field_simp at ode ⊢
    linear_combination R * ode

theorem orderDirs_orderAt {dirs : List ℕ} {i : ℕ} (hi : i < dirs.length) (k : ℕ) : orderDirs dirs (orderAt dirs.length i k) = List.replicate k (dirs.getD i 0) := by
  induction dirs generalizing i with
  | nil => simp at hi
  | cons d dirs ih =>
    have hz : ∀ l : List ℕ, orderDirs l (List.replicate l.length 0) = [] := by
      intro l
      induction l with
      | nil => rfl
      | cons a l ih => simpa [orderDirs, List.replicate_succ] using ih
    cases i with
    | zero =>
      have := hz dirs
      simp only [orderDirs] at this
      simp [orderDirs, orderAt, List.replicate_succ, this]
    | succ i =>
      have := ih (i := i) (by simpa using hi)
      rw [orderDirs] at this
      have e : orderAt (d :: dirs).length (i + 1) k = 0 :: orderAt dirs.length i k := rfl
      rw [orderDirs, e, List.zip_cons_cons, List.flatMap_cons, this, List.getD_cons_succ]
      rfl

/-- Basis functions whose numbers are small enough in each direction are orthonormal. -/
theorem basis_pair {q : HQuad F} (hq : QuadOk q) {N : ℕ}
    (ho : ∀ k < q.nodes.length, ExactTo N (q.do_fourier.getD k 0) (q.nodes.getD k []) (q.weights.getD k [])) {I J : List ℕ}
    (hI : I.length = q.position.dim) (hJ : J.length = q.position.dim) (hN : ∀ k < q.position.dim, I.getD k 0 + J.getD k 0 ≤ N) :
    quadrature q.nodes q.weights (fun _ x => basis q.nodes.length q.do_fourier I x * basis q.nodes.length q.do_fourier J x) = if I = J then 1 else 0 := by
  have e2 : (fun (_ : ℕ) (x : List ℝ) => basis q.nodes.length q.do_fourier I x * basis q.nodes.length q.do_fourier J x) = fun (_ : ℕ) (x : List ℝ) =>
      ∏ k ∈ Finset.range q.nodes.length, (fun k y => phi (q.do_fourier.getD k 0) (I.getD k 0) y * phi (q.do_fourier.getD k 0) (J.getD k 0) y) k (x.getD k 0) := by
    funext _ x
    rw [basis, basis, ← Finset.prod_mul_distrib]
  rw [e2, quadrature_prod hq.weights (fun k y => phi (q.do_fourier.getD k 0) (I.getD k 0) y * phi (q.do_fourier.getD k 0) (J.getD k 0) y)]
  have e3 : ∀ k ∈ Finset.range q.nodes.length, ∑ t ∈ Finset.range (q.nodes.getD k []).length, (q.weights.getD k []).getD t 0 *
      (fun k y => phi (q.do_fourier.getD k 0) (I.getD k 0) y * phi (q.do_fourier.getD k 0) (J.getD k 0) y) k ((q.nodes.getD k []).getD t 0) =
      if I.getD k 0 = J.getD k 0 then 1 else 0 := fun k hk =>
    ho k (Finset.mem_range.1 hk) _ _ (hN k (by rw [← hq.dim]; exact Finset.mem_range.1 hk))
  rw [Finset.prod_congr rfl e3]
  by_cases h : I = J
  · subst h
    simp
  · rw [if_neg h]
    obtain ⟨k, hk, hne⟩ : ∃ k < q.position.dim, I.getD k 0 ≠ J.getD k 0 := by
      by_contra hc
      push Not at hc
      apply h
      apply List.ext_getElem (by omega)
      intro k h1 h2
      have := hc k (by omega)
      rwa [List.getD_eq_getElem _ _ h1, List.getD_eq_getElem _ _ h2] at this
    exact Finset.prod_eq_zero (i := k) (Finset.mem_range.2 (by rw [hq.dim]; exact hk)) (if_neg hne)

/-- An operator which multiplies the basis function of `J` by a number has a diagonal matrix. -/
theorem opEntry_eigen {K : Type} {q : HQuad F} (hq : QuadOk q) (hv : VarPos q.position) {ev : K → (ℕ → ℝ) → ℝ} {T : List (OpTerm K)} {N : ℕ}
    (ho : ∀ k < q.nodes.length, ExactTo N (q.do_fourier.getD k 0) (q.nodes.getD k []) (q.weights.getD k [])) {I J : List ℕ} {c : ℝ}
    (hI : I.length = q.position.dim) (hJ : J.length = q.position.dim) (hN : ∀ k < q.position.dim, I.getD k 0 + J.getD k 0 ≤ N)
    (he : ∀ x, opApply ev q.position.dirs T (coordBasis q.position q.do_fourier J) x = c * coordBasis q.position q.do_fourier J x) :
    opEntry q ev T I J = if I = J then c else 0 := by
  have e1 : opEntry q ev T I J = c * quadrature q.nodes q.weights fun _ x => basis q.nodes.length q.do_fourier I x * basis q.nodes.length q.do_fourier J x := by
    rw [opEntry, ← quadrature_smul]
    apply quadrature_congr
    intro i p _
    rw [he, coordBasis_gridPoint hq hv]
    ring
  rw [e1, basis_pair hq ho hI hJ hN, mul_ite, mul_one, mul_zero]

/-- A multiple of a basis function has one coefficient. -/
theorem fcoef_coordBasis {q : HQuad F} (hq : QuadOk q) (hv : VarPos q.position) {N : ℕ}
    (ho : ∀ k < q.nodes.length, ExactTo N (q.do_fourier.getD k 0) (q.nodes.getD k []) (q.weights.getD k [])) {K m : List ℕ} {c : ℝ} {v : (ℕ → ℝ) → ℝ}
    (hK : K.length = q.position.dim) (hm : m.length = q.position.dim) (hN : ∀ k < q.position.dim, m.getD k 0 + K.getD k 0 ≤ N)
    (hv' : ∀ x, v x = c * coordBasis q.position q.do_fourier K x) :
    fcoef q.nodes q.weights q.do_fourier (gridValues q v) m = if m = K then c else 0 := by
  have e : fcoef q.nodes q.weights q.do_fourier (gridValues q v) m =
      c * quadrature q.nodes q.weights fun _ x => basis q.nodes.length q.do_fourier m x * basis q.nodes.length q.do_fourier K x := by
    rw [fcoef, ← quadrature_smul]
    apply quadrature_congr
    intro i p hp
    obtain ⟨hi, rfl⟩ := List.getElem?_eq_some_iff.1 hp
    have : (gridValues q v).getD i 0 = v (gridPoint q.position (gridPoints q.nodes)[i]) := by simp [gridValues, hi]
    rw [this, hv', coordBasis_gridPoint hq hv]
    ring
  rw [e, basis_pair hq ho hm hK hN, mul_ite, mul_one, mul_zero]

/-- The form of a multiple of a basis function is exact when the multiple is not too small. -/
theorem exact_coordBasis {q : HQuad F} (hq : QuadOk q) (hv : VarPos q.position) {s : IndexSet} {degree N : ℕ}
    (hc : s = .cross ∨ s = .cross_nc → 1 ≤ degree) (hcl : Closed s q.nodes.length degree q.do_fourier)
    (hL : ∀ L2, s.s_list q.nodes.length (2 * degree) = .ok L2 → Lists L2 (InSet s q.nodes.length (2 * degree)))
    (ho : ∀ k < q.nodes.length, ExactTo N (q.do_fourier.getD k 0) (q.nodes.getD k []) (q.weights.getD k [])) {K : List ℕ} {c : ℝ} {v : (ℕ → ℝ) → ℝ}
    (hK : K.length = q.position.dim) (hN : ∀ k < q.position.dim, 2 * degree + K.getD k 0 ≤ N)
    (hv' : ∀ x, v x = c * coordBasis q.position q.do_fourier K x) (hbig : 1 / 10 ^ 12 ≤ |c|) : Exact s degree q v := by
  refine ⟨hcl, fun L2 hL2 => ?_⟩
  have hl := hL L2 hL2
  have hco : ∀ m ∈ L2, fcoef q.nodes q.weights q.do_fourier (gridValues q v) m = if m = K then c else 0 := by
    intro m hm
    have hin := (hl.2 m).1 hm
    have hml : m.length = q.position.dim := (inSet_length hin).trans hq.dim
    refine fcoef_coordBasis hq hv ho hK hml (fun k hk => ?_) hv'
    have := inSet_le (fun h => by have := hc h; omega) hin (m.getD k 0) (by rw [List.getD_eq_getElem _ _ (by omega)]; exact List.getElem_mem _)
    have := hN k hk
    omega
  intro m hm
  rw [hco m hm]
  by_cases h : m = K
  · right
    subst h
    rw [if_pos rfl, dropTol]
    have hsum : ∑ i ∈ Finset.range L2.length, fcoef q.nodes q.weights q.do_fourier (gridValues q v) (L2.getD i []) ^ 2 = c ^ 2 := by
      obtain ⟨j, hj, rfl⟩ := List.mem_iff_getElem.1 hm
      rw [Finset.sum_eq_single j]
      · rw [List.getD_eq_getElem _ _ hj, hco _ hm, if_pos rfl]
      · intro i hi hne
        have hi := Finset.mem_range.1 hi
        rw [List.getD_eq_getElem _ _ hi, hco _ (List.getElem_mem hi), if_neg, zero_pow two_ne_zero]
        exact fun h => hne ((List.Nodup.getElem_inj_iff hl.1).1 h)
      · intro h
        exact absurd (Finset.mem_range.2 hj) h
    rw [hsum, Real.sqrt_sq_eq_abs]
    have : 0 ≤ |c| := abs_nonneg c
    rcases max_cases 1 |c| with ⟨e, -⟩ | ⟨e, -⟩ <;> rw [e] <;> linarith
  · left
    rw [if_neg h]

/-- The value of the first basis function. -/
noncomputable def phiZero (d : ℕ) (fourier : List ℕ) : ℝ := ∏ i ∈ Finset.range d, phi (fourier.getD i 0) 0 0

theorem phi_zero (f : ℕ) (y : ℝ) : phi f 0 y = phi f 0 0 := by
  unfold phi
  split
  · rw [trig_zero, trig_zero]
  · rw [herm_zero, herm_zero]

theorem phi_zero_pos (f : ℕ) : 0 < phi f 0 0 ∧ phi f 0 0 ≤ 1 := by
  unfold phi
  split
  · rw [trig_zero]
    have h1 : 1 ≤ √(2 * Real.pi) := Real.one_le_sqrt.2 (by have := Real.pi_gt_three; linarith)
    exact ⟨by positivity, by rw [div_le_one (by linarith)]; exact h1⟩
  · rw [herm_zero]
    exact ⟨one_pos, le_rfl⟩

theorem phiZero_pos (d : ℕ) (fourier : List ℕ) : 0 < phiZero d fourier ∧ phiZero d fourier ≤ 1 :=
  ⟨Finset.prod_pos fun i _ => (phi_zero_pos _).1, Finset.prod_le_one (fun i _ => (phi_zero_pos _).1.le) fun i _ => (phi_zero_pos _).2⟩

theorem coordBasis_zero (p : Position) (fourier : List ℕ) (x : ℕ → ℝ) : coordBasis p fourier (List.replicate p.dim 0) x = phiZero p.dim fourier := by
  rw [coordBasis, phiZero]
  refine Finset.prod_congr rfl fun i hi => ?_
  have : (List.replicate p.dim 0).getD i 0 = 0 := by simp
  rw [this, phi_zero]

theorem coordBasis_one {p : Position} {fourier : List ℕ} {i : ℕ} (hi : i < p.dim) (hf : fourier.getD i 0 ≠ 1) (x : ℕ → ℝ) :
    coordBasis p fourier (orderAt p.dim i 1) x = (x (p.dirs.getD i 0) - p.mean.getD i 0) / √(entryOf p.cov i i) * phiZero p.dim fourier := by
  obtain ⟨R, hR⟩ := coordBasis_set (p := p) fourier (J := List.replicate p.dim 0) (by simp) hi x
  have h0 := hR 0
  have h1 : (List.replicate p.dim 0).set i 0 = List.replicate p.dim 0 := by
    apply List.ext_getElem?
    intro j
    by_cases h : i = j
    · subst h
      simp [hi]
    · rw [List.getElem?_set_ne h]
  rw [h1, coordBasis_zero, phi, if_neg hf, herm_zero, one_mul] at h0
  rw [orderAt, hR 1, ← h0, phi, if_neg hf, herm_one]

/-- The rule for one direction. -/
theorem exactTo_fourier {N n : ℕ} (h : (N + 2) / 2 < n) : ExactTo N 1 (fourierNodes n) (fourierWeights n) := fun i j hij => fourier_pair (by omega)

end Hermipy
