import Verif.Lemmas.SolveGaussian
import Verif.Spec.Equations
import Mathlib.Tactic.FieldSimp

/-! # C90: Gaussian solutions of the equations -/

namespace Hermipy.Props
open Hermipy Hermipy.Spec Matrix Smooth

variable {n : ℕ}

/-- `exp(-x·Cx/2)` with its factor is a probability density. -/
theorem C90_normal {C : Matrix (Fin n) (Fin n) ℝ} (hC : PosDefinite C) :
    (∀ x, 0 < centredNormal C x) ∧ ∫ x, centredNormal C x = 1 := by
  obtain ⟨hd, hi⟩ := gaussian_integral hC
  have hp : 0 < (2 * Real.pi) ^ n := by positivity
  have hs : 0 < √(C.det / (2 * Real.pi) ^ n) := Real.sqrt_pos.2 (by positivity)
  refine ⟨fun x => mul_pos hs (Real.exp_pos _), ?_⟩
  simp only [centredNormal]
  rw [MeasureTheory.integral_const_mul, hi, ← Real.sqrt_mul (by positivity)]
  rw [div_mul_div_comm, mul_comm, div_self (by positivity), Real.sqrt_one]

/-- What is returned is in the kernel of the operator, and the message is not printed. -/
theorem C90_kernel {S : Solvers} (hS : Roots S) {T : List (OpTerm (Smooth n))} {r : GaussOut n} (h : solve_gaussian S n T = .ok r) :
    actOn n T r.re = 0 ∧ actOn n T r.im = 0 ∧ r.warned = false := by
  obtain ⟨C, hC, h0, _, rfl⟩ := solve_gaussian_form hS h
  match n, T, C, h0 with
  | 3, T, C, h0 =>
    have h0 : acts (D [0, 1, 2]) [0, 1, 2] T (gauss C) = 0 := h0
    exact ⟨(acts_const [0, 1, 2] T _ _).trans (by rw [h0, mul_zero]), (acts_const [0, 1, 2] T _ _).trans (by rw [h0, mul_zero]), rfl⟩
  | 2, T, C, h0 =>
    have h0 : acts (D [0, 1]) [0, 1] T (gauss C) = 0 := h0
    exact ⟨(acts_const [0, 1] T _ _).trans (by rw [h0, mul_zero]), (acts_const [0, 1] T _ _).trans (by rw [h0, mul_zero]), rfl⟩
  | 1, T, C, h0 =>
    have h0 : acts (D [0]) [0] T (gauss C) = 0 := h0
    exact ⟨(acts_const [0] T _ _).trans (by rw [h0, mul_zero]), (acts_const [0] T _ _).trans (by rw [h0, mul_zero]), rfl⟩
  | 0, _, _, _ => exact ⟨rfl, rfl, rfl⟩
  | _ + 4, _, _, _ => exact ⟨rfl, rfl, rfl⟩

/-- A stable process with linear drift: what is returned is the density of its normal distribution, and does not depend on the solver. -/
theorem C90_density {S : Solvers} (hS : Roots S) {T : List (OpTerm (Smooth n))} {B A : Matrix (Fin n) (Fin n) ℝ} {g : Fin n → ℝ}
    (hT : ∀ u, actOn n T u = linearForward B A g u) (hB : Stable B) (hs : A.IsSymm) (hA : ∀ x, 0 ≤ x ⬝ᵥ A *ᵥ x)
    {r : GaussOut n} (h : solve_gaussian S n T = .ok r) :
    ∃ C, PosDefinite C ∧ Stationary B A C ∧ (∀ x, (r.re : (Fin n → ℝ) → ℝ) x = centredNormal C x) ∧ r.im = 0 ∧
      (∀ x, 0 < (r.re : (Fin n → ℝ) → ℝ) x) ∧ integral r.re = 1 ∧ linearForward B A g r.re = 0 := by
  have hk := (C90_kernel hS h).1
  rw [hT] at hk
  obtain ⟨C, hC, h0, _, rfl⟩ := solve_gaussian_form hS h
  rw [hT] at h0
  have st := ((forward_iff hs hC).1 h0).1
  have pd := stationary_posDefinite hB hA hC st
  have hd := (gaussian_integral pd).1
  have hv : ∀ x, ((const (gaussFactor C).1 * gauss C : Smooth n) : (Fin n → ℝ) → ℝ) x = centredNormal C x := by
    intro x
    change (gaussFactor C).1 * (gauss C : (Fin n → ℝ) → ℝ) x = _
    rw [posDefinite_gaussFactor hd.le, gauss_val]
    rfl
  refine ⟨C, pd, st, hv, ?_, fun x => ?_, ?_, hk⟩
  · change const (gaussFactor C).2 * gauss C = 0
    rw [posDefinite_gaussFactor hd.le, const_zero, zero_mul]
  · exact (hv x).symm ▸ (C90_normal pd).1 x
  · unfold integral
    exact (MeasureTheory.integral_congr_ae (Filter.Eventually.of_forall hv)).trans (C90_normal pd).2

/-- Any two solvers lead to the same function. -/
theorem C90_unique {S S' : Solvers} (hS : Roots S) (hS' : Roots S') {T : List (OpTerm (Smooth n))} {B A : Matrix (Fin n) (Fin n) ℝ} {g : Fin n → ℝ}
    (hT : ∀ u, actOn n T u = linearForward B A g u) (hB : Stable B) (hs : A.IsSymm) (hA : ∀ x, 0 ≤ x ⬝ᵥ A *ᵥ x)
    {r r' : GaussOut n} (h : solve_gaussian S n T = .ok r) (h' : solve_gaussian S' n T = .ok r') : r = r' := by
  obtain ⟨C, hC, h0, _, rfl⟩ := solve_gaussian_form hS h
  obtain ⟨C', hC', h0', _, rfl⟩ := solve_gaussian_form hS' h'
  rw [hT] at h0 h0'
  rw [stationary_unique hB hA hC hC' ((forward_iff hs hC).1 h0).1 ((forward_iff hs hC').1 h0').1]

/-- If the noise reaches all directions and the drift vanishes at the origin, a solver which finds roots leads to a function. -/
theorem C90_found {S : Solvers} (hF : Finds S) (hn : n = 1 ∨ n = 2 ∨ n = 3) {T : List (OpTerm (Smooth n))} {B A : Matrix (Fin n) (Fin n) ℝ}
    (hT : ∀ u, actOn n T u = linearForward B A 0 u) (hB : Stable B) (hs : A.IsSymm) (hA : ∀ x, 0 ≤ x ⬝ᵥ A *ᵥ x) (hc : Reaches B A) :
    ∃ r, solve_gaussian S n T = .ok r := by
  obtain ⟨C, hC, st⟩ := stationary_exists hB hs hA hc
  refine solve_gaussian_found hF hn hC (fun _ => (gaussian_integral (stationary_posDefinite hB hA hC st)).1) ?_
  rw [hT]
  exact (forward_iff hs hC).2 ⟨st, mulVec_zero C⟩

/-- If the drift does not vanish at the origin, the call raises, although the process has a normal stationary distribution. -/
theorem C90_offset {S : Solvers} (hS : Roots S) {T : List (OpTerm (Smooth n))} {B A : Matrix (Fin n) (Fin n) ℝ} {g : Fin n → ℝ}
    (hT : ∀ u, actOn n T u = linearForward B A g u) (hB : Stable B) (hs : A.IsSymm) (hA : ∀ x, 0 ≤ x ⬝ᵥ A *ᵥ x) (hg : g ≠ 0) :
    solve_gaussian S n T = .throws := by
  rcases solve_gaussian_or S T with h | ⟨r, h⟩
  · exact h
  · exfalso
    obtain ⟨C, hC, h0, _, rfl⟩ := solve_gaussian_form hS h
    rw [hT] at h0
    obtain ⟨st, hz⟩ := (forward_iff hs hC).1 h0
    have := (stationary_posDefinite hB hA hC st).pos g hg
    rw [hz, dotProduct_zero] at this
    exact lt_irrefl _ this

/-- For a backward operator, the function returned is zero, without a message; in one dimension, the call raises. -/
theorem C90_backward {S : Solvers} (hS : Roots S) {T : List (OpTerm (Smooth n))} {B A : Matrix (Fin n) (Fin n) ℝ}
    (hT : ∀ u, actOn n T u = linearBackward B A u) (hB : Stable B) (hs : A.IsSymm) :
    (n = 1 → solve_gaussian S n T = .throws) ∧
      (0 < n → ∀ r, solve_gaussian S n T = .ok r → r.re = 0 ∧ r.im = 0 ∧ r.warned = false) := by
  constructor
  · intro hn
    rcases solve_gaussian_or S T with h | ⟨r, h⟩
    · exact h
    · exfalso
      obtain ⟨C, hC, h0, hd, rfl⟩ := solve_gaussian_form hS h
      rw [hT] at h0
      have := hd hn
      rw [backward_gauss_zero hB hs hC h0] at this
      subst hn
      simp at this
  · intro hn r h
    obtain ⟨C, hC, h0, hd, rfl⟩ := solve_gaussian_form hS h
    rw [hT] at h0
    have : Nonempty (Fin n) := ⟨⟨0, hn⟩⟩
    have e : gaussFactor (0 : Matrix (Fin n) (Fin n) ℝ) = (0, 0) := by
      rw [posDefinite_gaussFactor (by rw [det_zero]), det_zero, zero_div, Real.sqrt_zero]
    rw [backward_gauss_zero hB hs hC h0, e]
    simp only [const_zero, zero_mul, and_self]

/-! ## The equations of the library -/

theorem fokker_planck_linear {β v : ℝ} (hβ : β ≠ 0) {V : Smooth 1} (hV : D [0] 0 V = const v * X [0] 0) (u : Smooth 1) :
    actOn 1 (fokker_planck_1d (D [0]) inv (const β) V) u = linearForward !![v] !![β⁻¹] 0 u := by
  change acts (D [0]) [0] (fokker_planck_1d (D [0]) inv (const β) V) u = _
  rw [fokker_planck_acts (partials_ok [0]) (depends [0] u), hV, inv_const hβ, D1, X1, linearForward]
  simp only [Fin.sum_univ_one, diff_add, diff_mul, diff_sub, diff_const, diff_coord, Pi.zero_apply]
  simp [const_zero, const_one]
  ring

theorem mv_white_linear {β v θ m : ℝ} (hβ : β ≠ 0) {V : Smooth 1} (hV : D [0] 0 V = const v * X [0] 0) (u : Smooth 1) :
    actOn 1 (mv_white (D [0]) (X [0]) inv (const β) (const θ) (const m) V) u = linearForward !![v + θ] !![β⁻¹] ![θ * m] u := by
  change acts (D [0]) [0] (mv_white (D [0]) (X [0]) inv (const β) (const θ) (const m) V) u = _
  rw [mv_white_acts (partials_ok [0]) (depends [0] u), hV, inv_const hβ, D1, X1, linearForward]
  simp only [Fin.sum_univ_one, diff_add, diff_mul, diff_sub, diff_const, diff_coord]
  simp [const_zero, const_one, const_add, const_mul]
  ring

theorem mv_linear {β γ ε v θ m noise : ℝ} (hβ : β ≠ 0) (hε : ε ≠ 0) {V Vy : Smooth 2} (hV : D [0, 1] 0 V = const v * X [0, 1] 0)
    {w : ℝ} (hVy : D [0, 1] 1 Vy = const w * X [0, 1] 1) (u : Smooth 2) :
    actOn 2 (mv (D [0, 1]) (X [0, 1]) inv (const β) (const γ) (const ε) (const θ) (const m) V Vy (const noise)) u =
      linearForward !![v + θ, -((1 - γ) * noise * ε⁻¹); 0, w * ε⁻¹ ^ 2] !![γ ^ 2 * β⁻¹, 0; 0, ε⁻¹ ^ 2] ![θ * m, 0] u := by
  change acts (D [0, 1]) [0, 1] (mv (D [0, 1]) (X [0, 1]) inv (const β) (const γ) (const ε) (const θ) (const m) V Vy (const noise)) u = _
  rw [mv_acts (partials_ok [0, 1]) (depends [0, 1] u), hV, hVy, inv_const hβ, inv_const hε, D2_0, D2_1, X2_0, X2_1, linearForward]
  have p : ∀ (i : Fin 2) (c : ℝ) (k : ℕ), diff i (const c ^ k : Smooth 2) = 0 := fun i c k => by rw [← const_pow, diff_const]
  have o : ∀ (i : Fin 2), diff i (1 : Smooth 2) = 0 := fun i => by rw [← const_one, diff_const]
  simp only [Fin.sum_univ_two, diff_add, diff_mul, diff_sub, diff_const, diff_coord, p, o]
  simp [-inv_pow, const_zero, const_one, const_add, const_mul, const_neg, const_sub, const_pow, diff_add, diff_mul, diff_sub, diff_const, diff_coord, p, o]
  ring

theorem harmonic_linear {β γ ε v θ m root : ℝ} (hβ : β ≠ 0) (hε : ε ≠ 0) {V : Smooth 3} (hV : D [0, 1, 2] 0 V = const v * X [0, 1, 2] 0) (u : Smooth 3) :
    actOn 3 (harmonic (D [0, 1, 2]) (X [0, 1, 2]) inv (const β) (const γ) (const ε) (const θ) (const m) V (const root)) u =
      linearForward !![v + θ, 0, -((1 - γ) * root * ε⁻¹); 0, ε⁻¹ ^ 2, ε⁻¹ ^ 2; 0, -ε⁻¹ ^ 2, 0] !![γ ^ 2 * β⁻¹, 0, 0; 0, ε⁻¹ ^ 2, 0; 0, 0, 0]
        ![θ * m, 0, 0] u := by
  change acts (D [0, 1, 2]) [0, 1, 2] (harmonic (D [0, 1, 2]) (X [0, 1, 2]) inv (const β) (const γ) (const ε) (const θ) (const m) V (const root)) u = _
  rw [harmonic_acts (partials_ok [0, 1, 2]) (depends [0, 1, 2] u), hV, inv_const hβ, inv_const hε, D3_0, D3_1, D3_2, X3_0, X3_1, X3_2, linearForward]
  have p : ∀ (i : Fin 3) (c : ℝ) (k : ℕ), diff i (const c ^ k : Smooth 3) = 0 := fun i c k => by rw [← const_pow, diff_const]
  have o : ∀ (i : Fin 3), diff i (1 : Smooth 3) = 0 := fun i => by rw [← const_one, diff_const]
  simp only [Fin.sum_univ_three, diff_add, diff_mul, diff_sub, diff_const, diff_coord, p, o]
  simp [-inv_pow, const_zero, const_one, const_add, const_mul, const_neg, const_sub, const_pow, diff_add, diff_mul, diff_sub, diff_const, diff_coord, p, o]
  ring

theorem langevin_linear (lam : ℝ) (u : Smooth 2) :
    actOn 2 (langevin_forward (D [0, 1]) (X [0, 1]) (const lam)) u = linearForward !![lam, 1; -1, 0] !![lam, 0; 0, 0] 0 u := by
  change acts (D [0, 1]) [0, 1] (langevin_forward (D [0, 1]) (X [0, 1]) (const lam)) u = _
  rw [langevin_forward_acts (partials_ok [0, 1]) (depends [0, 1] u), D2_0, D2_1, X2_0, X2_1, linearForward]
  simp only [Fin.sum_univ_two, diff_add, diff_mul, diff_sub, diff_const, diff_coord, Pi.zero_apply]
  simp [const_zero, const_one, const_neg, diff_coord, diff_mul, diff_add, diff_const, diff_sub]
  ring

theorem langevin_backward_linear {γ β w : ℝ} (hβ : β ≠ 0) {Vy : Smooth 2} (hV : D [0, 1] 1 Vy = const w * X [0, 1] 1) (u : Smooth 2) :
    actOn 2 (langevin_backward (D [0, 1]) (X [0, 1]) inv (const γ) (const β) Vy) u =
      linearBackward !![γ, w; -1, 0] !![γ * β⁻¹, 0; 0, 0] u := by
  change acts (D [0, 1]) [0, 1] (langevin_backward (D [0, 1]) (X [0, 1]) inv (const γ) (const β) Vy) u = _
  rw [langevin_backward_acts (partials_ok [0, 1]) (depends [0, 1] u), hV, inv_const hβ, D2_0, D2_1, X2_0, X2_1, linearBackward]
  simp only [Fin.sum_univ_two]
  simp [const_zero, const_one, const_neg, const_mul]
  ring

theorem norm_1 {x : Fin 1 → ℝ} (hx : x ≠ 0) : 0 < x 0 ^ 2 := by
  have : x 0 ≠ 0 := fun h => hx (funext fun i => by rw [Subsingleton.elim i 0, h]; rfl)
  positivity

theorem norm_2 {x : Fin 2 → ℝ} (hx : x ≠ 0) : 0 < x 0 ^ 2 + x 1 ^ 2 := by
  by_contra h
  have h0 : x 0 = 0 := by nlinarith [sq_nonneg (x 0), sq_nonneg (x 1)]
  have h1 : x 1 = 0 := by nlinarith [sq_nonneg (x 0), sq_nonneg (x 1)]
  exact hx (funext fun i => by fin_cases i <;> assumption)

theorem norm_3 {x : Fin 3 → ℝ} (hx : x ≠ 0) : 0 < x 0 ^ 2 + x 1 ^ 2 + x 2 ^ 2 := by
  by_contra h
  have h0 : x 0 = 0 := by nlinarith [sq_nonneg (x 0), sq_nonneg (x 1), sq_nonneg (x 2)]
  have h1 : x 1 = 0 := by nlinarith [sq_nonneg (x 0), sq_nonneg (x 1), sq_nonneg (x 2)]
  have h2 : x 2 = 0 := by nlinarith [sq_nonneg (x 0), sq_nonneg (x 1), sq_nonneg (x 2)]
  exact hx (funext fun i => by fin_cases i <;> assumption)

theorem stable_1 {a : ℝ} (ha : 0 < a) : Stable !![a] := by
  refine ⟨1, ⟨transpose_one, fun x hx => ?_⟩, fun x hx => ?_⟩
  · have := norm_1 hx
    simp [dotProduct, sq] at this ⊢
    exact this
  · have := mul_pos ha (norm_1 hx)
    simp [dotProduct, mulVec] at this ⊢
    nlinarith

theorem stable_2 {a k e : ℝ} (ha : 0 < a) (he : 0 < e) : Stable !![a, -k; 0, e] := by
  have hK : 0 < (k ^ 2 / a + a) / e := by positivity
  refine ⟨!![1, 0; 0, (k ^ 2 / a + a) / e], ⟨?_, fun x hx => ?_⟩, fun x hx => ?_⟩
  · apply Matrix.IsSymm.ext
    intro i j
    fin_cases i <;> fin_cases j <;> rfl
  · have h := norm_2 hx
    have e1 : x ⬝ᵥ !![1, 0; 0, (k ^ 2 / a + a) / e] *ᵥ x = x 0 ^ 2 + (k ^ 2 / a + a) / e * x 1 ^ 2 := by
      simp [dotProduct, mulVec, Fin.sum_univ_two]
      ring
    rw [e1]
    by_cases h0 : x 0 = 0
    · have : 0 < x 1 ^ 2 := by rw [h0] at h; linarith
      positivity
    · positivity
  · have h := norm_2 hx
    have e1 : x ⬝ᵥ (!![1, 0; 0, (k ^ 2 / a + a) / e] * !![a, -k; 0, e]) *ᵥ x =
        a / 2 * (x 0 ^ 2 + x 1 ^ 2) + (a / 2 * (x 0 - k / a * x 1) ^ 2 + (k ^ 2 / (2 * a) + a / 2) * x 1 ^ 2) := by
      simp [dotProduct, mulVec, Fin.sum_univ_two]
      field_simp
      ring
    rw [e1]
    positivity

theorem stable_3 {a k e : ℝ} (ha : 0 < a) (he : 0 < e) : Stable !![a, 0, -k; 0, e, e; 0, -e, 0] := by
  have hK : 0 < (k ^ 2 / a + a) / e := by positivity
  generalize hKe : (k ^ 2 / a + a) / e = K at hK
  have hKe : K * e = k ^ 2 / a + a := by rw [← hKe]; field_simp
  refine ⟨!![1, 0, 0; 0, 2 * K, K; 0, K, 3 * K], ⟨?_, fun x hx => ?_⟩, fun x hx => ?_⟩
  · apply Matrix.IsSymm.ext
    intro i j
    fin_cases i <;> fin_cases j <;> rfl
  · have h := norm_3 hx
    have e1 : x ⬝ᵥ !![1, 0, 0; 0, 2 * K, K; 0, K, 3 * K] *ᵥ x = x 0 ^ 2 + K * (x 1 ^ 2 + (x 1 + x 2) ^ 2 + 2 * x 2 ^ 2) := by
      simp [dotProduct, mulVec, Fin.sum_univ_three]
      ring
    rw [e1]
    by_cases h0 : x 0 = 0
    · have : 0 < x 1 ^ 2 + (x 1 + x 2) ^ 2 + 2 * x 2 ^ 2 := by
        rw [h0] at h
        nlinarith [sq_nonneg (x 1 + x 2), sq_nonneg (x 1), sq_nonneg (x 2)]
      positivity
    · positivity
  · have h := norm_3 hx
    have e1 : x ⬝ᵥ (!![1, 0, 0; 0, 2 * K, K; 0, K, 3 * K] * !![a, 0, -k; 0, e, e; 0, -e, 0]) *ᵥ x =
        a * x 0 ^ 2 - k * x 0 * x 2 + K * e * (x 1 ^ 2 + x 2 ^ 2) := by
      simp [dotProduct, mulVec, Fin.sum_univ_three]
      ring
    have e2 : a * x 0 ^ 2 - k * x 0 * x 2 + (k ^ 2 / a + a) * (x 1 ^ 2 + x 2 ^ 2) = a / 2 * (x 0 ^ 2 + x 1 ^ 2 + x 2 ^ 2) +
        (a / 2 * (x 0 - k / a * x 2) ^ 2 + (k ^ 2 / (2 * a) + a / 2) * x 2 ^ 2 + (k ^ 2 / a + a / 2) * x 1 ^ 2) := by
      field_simp
      ring
    rw [e1, hKe, e2]
    positivity

theorem stable_langevin {γ w : ℝ} (hγ : 0 < γ) (hw : 0 < w) : Stable !![γ, w; -1, 0] := by
  refine ⟨!![2, γ; γ, 2 * w + γ ^ 2], ⟨?_, fun x hx => ?_⟩, fun x hx => ?_⟩
  · apply Matrix.IsSymm.ext
    intro i j
    fin_cases i <;> fin_cases j <;> rfl
  · have h := norm_2 hx
    have e1 : x ⬝ᵥ !![2, γ; γ, 2 * w + γ ^ 2] *ᵥ x = x 0 ^ 2 + (x 0 + γ * x 1) ^ 2 + 2 * w * x 1 ^ 2 := by
      simp [dotProduct, mulVec, Fin.sum_univ_two]
      ring
    rw [e1]
    by_cases h0 : x 0 = 0
    · have : 0 < x 1 ^ 2 := by rw [h0] at h; linarith
      positivity
    · positivity
  · have h := norm_2 hx
    have e1 : x ⬝ᵥ (!![2, γ; γ, 2 * w + γ ^ 2] * !![γ, w; -1, 0]) *ᵥ x = γ * x 0 ^ 2 + γ * w * x 1 ^ 2 := by
      simp [dotProduct, mulVec, Fin.sum_univ_two]
      ring
    rw [e1]
    by_cases h0 : x 0 = 0
    · have : 0 < x 1 ^ 2 := by rw [h0] at h; linarith
      positivity
    · positivity

/-- `Fokker_Planck_1d` with the potential `v x²/2`: the normal density with variance `1/(β v)`, for every solver; it is found if there is one. -/
theorem C90_fokker_planck {S : Solvers} (hS : Roots S) {β v : ℝ} (hβ : 0 < β) {V : Smooth 1} (hV : D [0] 0 V = const v * X [0] 0) :
    (∀ r, solve_gaussian S 1 (fokker_planck_1d (D [0]) inv (const β) V) = .ok r → 0 < v ∧ r.im = 0 ∧
      ∀ x, (r.re : (Fin 1 → ℝ) → ℝ) x = √(β * v / (2 * Real.pi)) * Real.exp (-(β * v * x 0 ^ 2 / 2))) ∧
    (Finds S → 0 < v → ∃ r, solve_gaussian S 1 (fokker_planck_1d (D [0]) inv (const β) V) = .ok r) := by
  have hs : (!![β⁻¹] : Matrix (Fin 1) (Fin 1) ℝ).IsSymm := Matrix.IsSymm.ext fun i j => by rw [Subsingleton.elim i j]
  constructor
  · intro r h
    obtain ⟨C, hC, h0, hd, rfl⟩ := solve_gaussian_form hS h
    rw [fokker_planck_linear hβ.ne' hV] at h0
    have ht := ((forward_iff hs hC).1 h0).1.trace
    have hd := hd rfl
    have hdet : C.det = C 0 0 := by rw [det_unique]; rfl
    have e : C 0 0 = β * v := by
      simp only [Matrix.trace, diag_apply, Fin.sum_univ_one, Matrix.mul_apply] at ht
      change β⁻¹ * C 0 0 = v at ht
      rw [← ht]
      field_simp
    have hv : 0 < v := by
      rw [hdet, e] at hd
      exact (mul_pos_iff_of_pos_left hβ).1 hd
    refine ⟨hv, ?_, fun x => ?_⟩
    · change const (gaussFactor C).2 * gauss C = 0
      rw [posDefinite_gaussFactor hd.le, const_zero, zero_mul]
    · change (gaussFactor C).1 * (gauss C : (Fin 1 → ℝ) → ℝ) x = _
      rw [posDefinite_gaussFactor hd.le, gauss_val, hdet, e, pow_one]
      congr 3
      simp [dotProduct, mulVec, e]
      ring
  · intro hF hv
    refine C90_found hF (Or.inl rfl) (fokker_planck_linear hβ.ne' hV) (stable_1 hv) hs (fun x => ?_) fun x hx => ?_
    · have : x ⬝ᵥ !![β⁻¹] *ᵥ x = β⁻¹ * x 0 ^ 2 := by
        simp [dotProduct, mulVec]
        ring
      rw [this]
      positivity
    · have h0 := congrFun (hx 0) 0
      simp [mulVec, dotProduct, hβ.ne'] at h0
      funext i
      rw [Subsingleton.elim i 0, h0]
      rfl

/-- `McKean_Vlasov_white` with the potential `v x²/2`: if `θ m` is not zero, the call raises. -/
theorem C90_mv_white {S : Solvers} (hS : Roots S) {β v θ m : ℝ} (hβ : 0 < β) (hv : 0 < v + θ) {V : Smooth 1} (hV : D [0] 0 V = const v * X [0] 0) :
    (θ * m ≠ 0 → solve_gaussian S 1 (mv_white (D [0]) (X [0]) inv (const β) (const θ) (const m) V) = .throws) ∧
    (∀ r, solve_gaussian S 1 (mv_white (D [0]) (X [0]) inv (const β) (const θ) (const m) V) = .ok r → r.im = 0 ∧
      ∀ x, (r.re : (Fin 1 → ℝ) → ℝ) x = √(β * (v + θ) / (2 * Real.pi)) * Real.exp (-(β * (v + θ) * x 0 ^ 2 / 2))) := by
  have hs : (!![β⁻¹] : Matrix (Fin 1) (Fin 1) ℝ).IsSymm := Matrix.IsSymm.ext fun i j => by rw [Subsingleton.elim i j]
  constructor
  · intro hm
    refine C90_offset hS (mv_white_linear hβ.ne' hV) (stable_1 hv) hs (fun x => ?_) fun h => hm (congrFun h 0)
    have : x ⬝ᵥ !![β⁻¹] *ᵥ x = β⁻¹ * x 0 ^ 2 := by
      simp [dotProduct, mulVec]
      ring
    rw [this]
    positivity
  · intro r h
    obtain ⟨C, hC, h0, hd, rfl⟩ := solve_gaussian_form hS h
    rw [mv_white_linear hβ.ne' hV] at h0
    have ht := ((forward_iff hs hC).1 h0).1.trace
    have hd := hd rfl
    have hdet : C.det = C 0 0 := by rw [det_unique]; rfl
    have e : C 0 0 = β * (v + θ) := by
      simp only [Matrix.trace, diag_apply, Fin.sum_univ_one, Matrix.mul_apply] at ht
      change β⁻¹ * C 0 0 = v + θ at ht
      rw [← ht]
      field_simp
    refine ⟨?_, fun x => ?_⟩
    · change const (gaussFactor C).2 * gauss C = 0
      rw [posDefinite_gaussFactor hd.le, const_zero, zero_mul]
    · change (gaussFactor C).1 * (gauss C : (Fin 1 → ℝ) → ℝ) x = _
      rw [posDefinite_gaussFactor hd.le, gauss_val, hdet, e, pow_one]
      congr 3
      simp [dotProduct, mulVec, e]
      ring

/-- `McKean_Vlasov` with quadratic potentials and `m = 0`: there is exactly one Gaussian, it is found, and what is returned is a probability
density in the kernel. -/
theorem C90_mv {S : Solvers} (hS : Roots S) {β γ ε v θ noise : ℝ} (hβ : 0 < β) (hε : 0 < ε) (hv : 0 < v + θ) {V Vy : Smooth 2}
    (hV : D [0, 1] 0 V = const v * X [0, 1] 0) {w : ℝ} (hw : 0 < w) (hVy : D [0, 1] 1 Vy = const w * X [0, 1] 1) :
    (∀ r, solve_gaussian S 2 (mv (D [0, 1]) (X [0, 1]) inv (const β) (const γ) (const ε) (const θ) (const 0) V Vy (const noise)) = .ok r →
      r.im = 0 ∧ (∀ x, 0 < (r.re : (Fin 2 → ℝ) → ℝ) x) ∧ integral r.re = 1 ∧
      actOn 2 (mv (D [0, 1]) (X [0, 1]) inv (const β) (const γ) (const ε) (const θ) (const 0) V Vy (const noise)) r.re = 0) ∧
    (Finds S → γ ≠ 0 ∨ noise ≠ 0 →
      ∃ r, solve_gaussian S 2 (mv (D [0, 1]) (X [0, 1]) inv (const β) (const γ) (const ε) (const θ) (const 0) V Vy (const noise)) = .ok r) := by
  have hs : (!![γ ^ 2 * β⁻¹, 0; 0, ε⁻¹ ^ 2] : Matrix (Fin 2) (Fin 2) ℝ).IsSymm :=
    Matrix.IsSymm.ext fun i j => by fin_cases i <;> fin_cases j <;> rfl
  have hA : ∀ x, 0 ≤ x ⬝ᵥ !![γ ^ 2 * β⁻¹, 0; 0, ε⁻¹ ^ 2] *ᵥ x := by
    intro x
    have : x ⬝ᵥ !![γ ^ 2 * β⁻¹, 0; 0, ε⁻¹ ^ 2] *ᵥ x = γ ^ 2 * β⁻¹ * x 0 ^ 2 + ε⁻¹ ^ 2 * x 1 ^ 2 := by
      simp [dotProduct, mulVec, Fin.sum_univ_two]
      ring
    rw [this]
    positivity
  have hB : Stable !![v + θ, -((1 - γ) * noise * ε⁻¹); 0, w * ε⁻¹ ^ 2] := stable_2 hv (by positivity)
  have hT := mv_linear (γ := γ) (θ := θ) (m := 0) (noise := noise) hβ.ne' hε.ne' hV hVy
  rw [mul_zero] at hT
  have z : (![0, 0] : Fin 2 → ℝ) = 0 := by
    funext i
    fin_cases i <;> rfl
  rw [z] at hT
  constructor
  · intro r h
    obtain ⟨_, _, _, _, a, b, c, _⟩ := C90_density hS hT hB hs hA h
    exact ⟨a, b, c, (C90_kernel hS h).1⟩
  · intro hF hn
    refine C90_found hF (Or.inr (Or.inl rfl)) hT hB hs hA fun x hx => ?_
    have h0 := hx 0
    have h1 := congrFun (hx 1) 1
    have a0 := congrFun h0 0
    have a1 := congrFun h0 1
    simp [mulVec, dotProduct, Fin.sum_univ_two, hε.ne', hβ.ne', vecHead, vecTail] at a0 a1 h1
    have x0 : x 0 = 0 := by
      by_cases hγ : γ = 0
      · have hn : noise ≠ 0 := hn.resolve_left (fun h => h hγ)
        rw [a1, hγ] at h1
        simpa [hn, hε.ne'] using h1
      · exact a0.resolve_left hγ
    funext i
    fin_cases i
    · exact x0
    · exact a1

/-- The same for `McKean_Vlasov_harmonic_noise`. -/
theorem C90_harmonic {S : Solvers} (hS : Roots S) {β γ ε v θ root : ℝ} (hβ : 0 < β) (hε : 0 < ε) (hv : 0 < v + θ) {V : Smooth 3}
    (hV : D [0, 1, 2] 0 V = const v * X [0, 1, 2] 0) :
    (∀ r, solve_gaussian S 3 (harmonic (D [0, 1, 2]) (X [0, 1, 2]) inv (const β) (const γ) (const ε) (const θ) (const 0) V (const root)) = .ok r →
      r.im = 0 ∧ (∀ x, 0 < (r.re : (Fin 3 → ℝ) → ℝ) x) ∧ integral r.re = 1 ∧
      actOn 3 (harmonic (D [0, 1, 2]) (X [0, 1, 2]) inv (const β) (const γ) (const ε) (const θ) (const 0) V (const root)) r.re = 0) ∧
    (Finds S → γ ≠ 0 ∨ root ≠ 0 →
      ∃ r, solve_gaussian S 3 (harmonic (D [0, 1, 2]) (X [0, 1, 2]) inv (const β) (const γ) (const ε) (const θ) (const 0) V (const root)) = .ok r) := by
  have hs : (!![γ ^ 2 * β⁻¹, 0, 0; 0, ε⁻¹ ^ 2, 0; 0, 0, 0] : Matrix (Fin 3) (Fin 3) ℝ).IsSymm :=
    Matrix.IsSymm.ext fun i j => by fin_cases i <;> fin_cases j <;> rfl
  have hA : ∀ x, 0 ≤ x ⬝ᵥ !![γ ^ 2 * β⁻¹, 0, 0; 0, ε⁻¹ ^ 2, 0; 0, 0, 0] *ᵥ x := by
    intro x
    have : x ⬝ᵥ !![γ ^ 2 * β⁻¹, 0, 0; 0, ε⁻¹ ^ 2, 0; 0, 0, 0] *ᵥ x = γ ^ 2 * β⁻¹ * x 0 ^ 2 + ε⁻¹ ^ 2 * x 1 ^ 2 := by
      simp [dotProduct, mulVec, Fin.sum_univ_three]
      ring
    rw [this]
    positivity
  have hB : Stable !![v + θ, 0, -((1 - γ) * root * ε⁻¹); 0, ε⁻¹ ^ 2, ε⁻¹ ^ 2; 0, -ε⁻¹ ^ 2, 0] := stable_3 hv (by positivity)
  have z : (![θ * 0, 0, 0] : Fin 3 → ℝ) = 0 := by
    funext i
    fin_cases i <;> simp
  have hT := fun u => (harmonic_linear (γ := γ) (θ := θ) (m := 0) (root := root) hβ.ne' hε.ne' hV u).trans (congrArg (fun g => linearForward _ _ g u) z)
  constructor
  · intro r h
    obtain ⟨_, _, _, _, a, b, c, _⟩ := C90_density hS hT hB hs hA h
    exact ⟨a, b, c, (C90_kernel hS h).1⟩
  · intro hF hn
    refine C90_found hF (Or.inr (Or.inr rfl)) hT hB hs hA fun x hx => ?_
    have h0 := hx 0
    have h1 := congrFun (hx 1) 1
    have h2 := congrFun (hx 2) 1
    have a0 := congrFun h0 0
    have a1 := congrFun h0 1
    rw [pow_two (Matrix.transpose _), ← mulVec_mulVec] at h2
    simp [mulVec, dotProduct, Fin.sum_univ_three, hε.ne', hβ.ne', vecHead, vecTail] at a0 a1 h1 h2
    have x2 : x 2 = 0 := by
      rw [a1] at h1
      simpa [hε.ne'] using h1
    have x0 : x 0 = 0 := by
      by_cases hγ : γ = 0
      · have hn : root ≠ 0 := hn.resolve_left (fun h => h hγ)
        rw [a1, x2, hγ] at h2
        simpa [hn, hε.ne'] using h2
      · exact a0.resolve_left hγ
    funext i
    fin_cases i
    · exact x0
    · exact a1
    · exact x2

/-- `Langevin.forward`: the standard normal density, for every friction and every solver. -/
theorem C90_langevin {S : Solvers} (hS : Roots S) {lam : ℝ} (hl : 0 < lam) :
    (∀ r, solve_gaussian S 2 (langevin_forward (D [0, 1]) (X [0, 1]) (const lam)) = .ok r →
      r.im = 0 ∧ ∀ x, (r.re : (Fin 2 → ℝ) → ℝ) x = 1 / (2 * Real.pi) * Real.exp (-((x 0 ^ 2 + x 1 ^ 2) / 2))) ∧
    (Finds S → ∃ r, solve_gaussian S 2 (langevin_forward (D [0, 1]) (X [0, 1]) (const lam)) = .ok r) := by
  have hs : (!![lam, 0; 0, 0] : Matrix (Fin 2) (Fin 2) ℝ).IsSymm := Matrix.IsSymm.ext fun i j => by fin_cases i <;> fin_cases j <;> rfl
  have hA : ∀ x, 0 ≤ x ⬝ᵥ !![lam, 0; 0, 0] *ᵥ x := by
    intro x
    have : x ⬝ᵥ !![lam, 0; 0, 0] *ᵥ x = lam * x 0 ^ 2 := by
      simp [dotProduct, mulVec, Fin.sum_univ_two]
      ring
    rw [this]
    positivity
  have st : Stationary !![lam, 1; -1, 0] !![lam, 0; 0, 0] (1 : Matrix (Fin 2) (Fin 2) ℝ) := by
    constructor
    · rw [Matrix.mul_one]
      simp [Matrix.trace, Fin.sum_univ_two]
    · simp only [Matrix.mul_one, Matrix.one_mul]
      ext i j
      fin_cases i <;> fin_cases j <;> simp
  constructor
  · intro r h
    obtain ⟨C, hC, st', hv, hi, _⟩ := C90_density hS (langevin_linear lam) (stable_langevin hl one_pos) hs hA h
    refine ⟨hi, fun x => ?_⟩
    rw [hv, stationary_unique (stable_langevin hl one_pos) hA hC.symm transpose_one st' st, centredNormal, det_one, one_mulVec]
    have p : 0 < 2 * Real.pi := by positivity
    rw [Real.sqrt_div zero_le_one, Real.sqrt_one, Real.sqrt_sq p.le]
    congr 3
    simp [dotProduct, Fin.sum_univ_two]
    ring
  · intro hF
    refine solve_gaussian_found hF (Or.inr (Or.inl rfl)) transpose_one (by simp) ?_
    rw [langevin_linear]
    exact (forward_iff hs transpose_one).2 ⟨st, mulVec_zero _⟩

/-- `Langevin.backward`, with the potential `w y²/2`: the function returned is zero, without a message. -/
theorem C90_langevin_backward {S : Solvers} (hS : Roots S) {γ β w : ℝ} (hγ : 0 < γ) (hβ : 0 < β) (hw : 0 < w) {Vy : Smooth 2}
    (hV : D [0, 1] 1 Vy = const w * X [0, 1] 1) (r : GaussOut 2)
    (h : solve_gaussian S 2 (langevin_backward (D [0, 1]) (X [0, 1]) inv (const γ) (const β) Vy) = .ok r) :
    r.re = 0 ∧ r.im = 0 ∧ r.warned = false :=
  (C90_backward hS (langevin_backward_linear hβ.ne' hV) (stable_langevin hγ hw)
    (Matrix.IsSymm.ext fun i j => by fin_cases i <;> fin_cases j <;> rfl)).2 two_pos r h

/-- A solver as assumed exists. -/
theorem C90_solver : ∃ S : Solvers, Roots S ∧ Finds S := by
  classical
  refine ⟨⟨fun r => if h : ∃ c, r c = 0 then [h.choose] else [], fun r => if h : ∃ c, r c = 0 then [h.choose] else [],
    fun r => if h : ∃ s, 0 < s ∧ r s = 0 then some h.choose else none⟩, ⟨?_, ?_, ?_⟩, ⟨?_, ?_, ?_⟩⟩
  · intro r c hc
    by_cases h : ∃ c, r c = 0
    · simp only [dif_pos h, List.mem_singleton] at hc
      exact hc ▸ h.choose_spec
    · simp only [dif_neg h, List.not_mem_nil] at hc
  · intro r c hc
    by_cases h : ∃ c, r c = 0
    · simp only [dif_pos h, List.mem_singleton] at hc
      exact hc ▸ h.choose_spec
    · simp only [dif_neg h, List.not_mem_nil] at hc
  · intro r s hs
    by_cases h : ∃ s, 0 < s ∧ r s = 0
    · simp only [dif_pos h, Option.some.injEq] at hs
      exact hs ▸ h.choose_spec
    · simp only [dif_neg h] at hs
      cases hs
  · intro r c hc
    simp only [dif_pos (⟨c, hc⟩ : ∃ c, r c = 0)]
    simp
  · intro r c hc
    simp only [dif_pos (⟨c, hc⟩ : ∃ c, r c = 0)]
    simp
  · intro r s hs hr
    simp only [dif_pos (⟨s, hs, hr⟩ : ∃ s, 0 < s ∧ r s = 0)]
    simp

theorem quadratic_potential (dirs : List ℕ) {d : ℕ} (hd : d ∈ dirs) (v : ℝ) :
    D dirs d (const (v / 2) * (X dirs d * X dirs d)) = const v * X dirs d := by
  rw [D_const_mul, (partials_ok dirs).mul, D_X hd, if_pos rfl, show v = v / 2 + v / 2 by ring, const_add]
  rw [show (v / 2 + v / 2) / 2 = v / 2 by ring]
  ring

/-- The stationary forms of a drift with an unstable and a stable direction. -/
theorem saddle_form {C : Matrix (Fin 2) (Fin 2) ℝ} {b : ℝ} (hb : b = -2 ∨ b = 1) (hC : C.IsSymm)
    (h : Stationary !![-2, 0; 0, b] 1 C) : C = !![-2, 0; 0, b] := by
  have t := h.trace
  have q := h.quadratic
  have s : C 1 0 = C 0 1 := hC.apply 0 1
  have q00 := congrFun (congrFun q 0) 0
  have q01 := congrFun (congrFun q 0) 1
  have q11 := congrFun (congrFun q 1) 1
  simp only [Matrix.one_mul, Matrix.mul_one, Matrix.add_apply, Matrix.mul_apply, Fin.sum_univ_two, transpose_apply, Matrix.trace, diag_apply, s] at q00 q01 q11 t
  simp only [of_apply, cons_val_zero, cons_val_one, cons_val', cons_val_fin_one, head_cons, head_fin_const] at q00 q01 q11 t
  have z : C 0 1 = 0 := by
    rcases hb with rfl | rfl
    · have : C 1 1 = -4 - C 0 0 := by linarith
      rw [this] at q01
      linarith
    · have : C 1 1 = -1 - C 0 0 := by linarith
      rw [this] at q01
      linarith
  rw [z] at q00 q11
  have e0 : C 0 0 * (C 0 0 + 2) = 0 := by linarith
  have e1 : C 1 1 * (C 1 1 - b) = 0 := by linarith
  have r0 : C 0 0 = -2 := by
    rcases mul_eq_zero.1 e0 with e0 | e0
    · rcases mul_eq_zero.1 e1 with e1 | e1 <;> rcases hb with rfl | rfl <;> linarith
    · linarith
  have r1 : C 1 1 = b := by linarith
  ext i j
  fin_cases i <;> fin_cases j
  · exact r0
  · exact z
  · exact s.trans z
  · exact r1

/-- The potentials are not confining: with one unstable direction, the function returned is imaginary, and with two, it grows without bound. In
both cases there is no message. -/
theorem C90_unstable {S : Solvers} (hS : Roots S) (hF : Finds S) :
    (∃ r, solve_gaussian S 2 (mv (D [0, 1]) (X [0, 1]) inv (const 1) (const 1) (const 1) (const 0) (const 0) (const (-2 / 2) * (X [0, 1] 0 * X [0, 1] 0))
        (const (1 / 2) * (X [0, 1] 1 * X [0, 1] 1)) (const 1)) = .ok r ∧ r.re = 0 ∧ (∀ x, 0 < (r.im : (Fin 2 → ℝ) → ℝ) x) ∧ r.warned = false) ∧
    (∃ r, solve_gaussian S 2 (mv (D [0, 1]) (X [0, 1]) inv (const 1) (const 1) (const 1) (const 0) (const 0) (const (-2 / 2) * (X [0, 1] 0 * X [0, 1] 0))
        (const (-2 / 2) * (X [0, 1] 1 * X [0, 1] 1)) (const 1)) = .ok r ∧ r.im = 0 ∧
        (∀ x, (r.re : (Fin 2 → ℝ) → ℝ) x = 1 / Real.pi * Real.exp (x 0 ^ 2 + x 1 ^ 2)) ∧ r.warned = false) := by
  have hV := quadratic_potential [0, 1] (d := 0) (by simp) (-2)
  have lin : ∀ b : ℝ, ∀ u, actOn 2 (mv (D [0, 1]) (X [0, 1]) inv (const 1) (const 1) (const 1) (const 0) (const 0)
      (const (-2 / 2) * (X [0, 1] 0 * X [0, 1] 0)) (const (b / 2) * (X [0, 1] 1 * X [0, 1] 1)) (const 1)) u = linearForward !![-2, 0; 0, b] 1 0 u := by
    intro b u
    rw [mv_linear one_ne_zero one_ne_zero hV (quadratic_potential [0, 1] (d := 1) (by simp) b)]
    congr 1
    · ext i j
      fin_cases i <;> fin_cases j <;> simp
    · ext i j
      fin_cases i <;> fin_cases j <;> simp
    · funext i
      fin_cases i <;> simp
  have hs : ∀ b : ℝ, (!![-2, 0; 0, b] : Matrix (Fin 2) (Fin 2) ℝ).IsSymm := fun b =>
    Matrix.IsSymm.ext fun i j => by fin_cases i <;> fin_cases j <;> rfl
  have st : ∀ b : ℝ, Stationary !![-2, 0; 0, b] 1 (!![-2, 0; 0, b] : Matrix (Fin 2) (Fin 2) ℝ) := by
    intro b
    constructor
    · rw [Matrix.one_mul]
    · rw [Matrix.mul_one, (hs b).eq]
  have found : ∀ b : ℝ, _ := fun b => solve_gaussian_found hF (Or.inr (Or.inl rfl)) (hs b) (by simp)
    ((lin b _).trans ((forward_iff transpose_one (hs b)).2 ⟨st b, mulVec_zero _⟩))
  constructor
  · obtain ⟨r, h⟩ := found 1
    obtain ⟨C, hC, h0, _, rfl⟩ := solve_gaussian_form hS h
    rw [lin] at h0
    have e := saddle_form (Or.inr rfl) hC ((forward_iff transpose_one hC).1 h0).1
    have d : C.det = -2 := by rw [e, det_fin_two]; simp
    have p : 0 < 2 * Real.pi := by positivity
    have n0 : ¬ 0 ≤ (-2 : ℝ) / (2 * Real.pi) ^ 2 := by
      rw [not_le]
      exact div_neg_of_neg_of_pos (by norm_num) (by positivity)
    have f : gaussFactor C = (0, √(-(-2 / (2 * Real.pi) ^ 2))) := by rw [gaussFactor, d, symSqrt, if_neg n0]
    refine ⟨_, h, ?_, fun x => ?_, rfl⟩
    · change const (gaussFactor C).1 * gauss C = 0
      rw [f, const_zero, zero_mul]
    · change 0 < (gaussFactor C).2 * (gauss C : (Fin 2 → ℝ) → ℝ) x
      rw [f, gauss_val]
      have : 0 < √(-(-2 / (2 * Real.pi) ^ 2)) := Real.sqrt_pos.2 (by linarith [not_le.1 n0])
      positivity
  · obtain ⟨r, h⟩ := found (-2)
    obtain ⟨C, hC, h0, _, rfl⟩ := solve_gaussian_form hS h
    rw [lin] at h0
    have e := saddle_form (Or.inl rfl) hC ((forward_iff transpose_one hC).1 h0).1
    have d : C.det = 4 := by rw [e, det_fin_two]; norm_num
    have p : 0 < 2 * Real.pi := by positivity
    have f : gaussFactor C = (1 / Real.pi, 0) := by
      rw [posDefinite_gaussFactor (by rw [d]; norm_num), d, show (4 : ℝ) / (2 * Real.pi) ^ 2 = (1 / Real.pi) ^ 2 by field_simp; norm_num,
        Real.sqrt_sq (by positivity)]
    refine ⟨_, h, ?_, fun x => ?_, rfl⟩
    · change const (gaussFactor C).2 * gauss C = 0
      rw [f, const_zero, zero_mul]
    · change (gaussFactor C).1 * (gauss C : (Fin 2 → ℝ) → ℝ) x = _
      rw [f, gauss_val, e]
      congr 2
      simp [dotProduct, mulVec, Fin.sum_univ_two]
      ring

/-! The hypotheses are met by a process with friction `1`, potential `x²/2` and noise in one direction only. -/

example : ∃ S : Solvers, ∃ r, solve_gaussian S 2 (langevin_forward (D [0, 1]) (X [0, 1]) (const 3)) = .ok r ∧ integral r.re = 1 := by
  obtain ⟨S, hS, hF⟩ := C90_solver
  obtain ⟨r, h⟩ := (C90_langevin hS (lam := 3) (by norm_num)).2 hF
  have hA : ∀ x, 0 ≤ x ⬝ᵥ (!![3, 0; 0, 0] : Matrix (Fin 2) (Fin 2) ℝ) *ᵥ x := by
    intro x
    have : x ⬝ᵥ (!![3, 0; 0, 0] : Matrix (Fin 2) (Fin 2) ℝ) *ᵥ x = 3 * x 0 ^ 2 := by
      simp [dotProduct, mulVec, Fin.sum_univ_two]
      ring
    rw [this]
    positivity
  obtain ⟨_, _, _, _, _, _, hi, _⟩ := C90_density hS (langevin_linear 3) (stable_langevin (by norm_num) one_pos)
    (Matrix.IsSymm.ext fun i j => by fin_cases i <;> fin_cases j <;> rfl) hA h
  exact ⟨S, r, h, hi⟩

example : ∃ S : Solvers, ∃ r, solve_gaussian S 2 (mv (D [0, 1]) (X [0, 1]) inv (const 2) (const 0) (const (1 / 2)) (const 1) (const 0)
    (const (3 / 2) * (X [0, 1] 0 * X [0, 1] 0)) (const (1 / 2) * (X [0, 1] 1 * X [0, 1] 1)) (const 1)) = .ok r ∧ integral r.re = 1 := by
  obtain ⟨S, hS, hF⟩ := C90_solver
  obtain ⟨a, b⟩ := C90_mv hS (β := 2) (γ := 0) (ε := 1 / 2) (v := 3) (θ := 1) (noise := 1) (by norm_num) (by norm_num) (by norm_num)
    (quadratic_potential [0, 1] (d := 0) (by simp) 3) one_pos (quadratic_potential [0, 1] (d := 1) (by simp) 1)
  obtain ⟨r, h⟩ := b hF (Or.inr one_ne_zero)
  exact ⟨S, r, h, (a r h).2.2.1⟩

example : ∃ S : Solvers, Roots S ∧ solve_gaussian S 1 (mv_white (D [0]) (X [0]) inv (const 2) (const 1) (const 5)
    (const (3 / 2) * (X [0] 0 * X [0] 0))) = .throws := by
  obtain ⟨S, hS, _⟩ := C90_solver
  exact ⟨S, hS, (C90_mv_white hS (v := 3) (θ := 1) (by norm_num) (by norm_num) (quadratic_potential [0] (d := 0) (by simp) 3)).1 (by norm_num)⟩

end Hermipy.Props
