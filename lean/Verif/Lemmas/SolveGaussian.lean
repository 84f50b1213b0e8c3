import Verif.Model.SolveGaussian
import Verif.Lemmas.LinearDrift
import Verif.Lemmas.Equations
import Verif.Lemmas.OperatorAlgebra
import Mathlib.LinearAlgebra.Matrix.Notation
import Mathlib.LinearAlgebra.Matrix.Determinant.Basic
import Mathlib.Tactic.FinCases

/-! # Lemmas about `solve_gaussian` -/

namespace Hermipy
open Hermipy.Spec Matrix Smooth

theorem D1 : D [0] 0 = diff (0 : Fin 1) := rfl
theorem D2_0 : D [0, 1] 0 = diff (0 : Fin 2) := rfl
theorem D2_1 : D [0, 1] 1 = diff (1 : Fin 2) := rfl
theorem D3_0 : D [0, 1, 2] 0 = diff (0 : Fin 3) := rfl
theorem D3_1 : D [0, 1, 2] 1 = diff (1 : Fin 3) := rfl
theorem D3_2 : D [0, 1, 2] 2 = diff (2 : Fin 3) := rfl
theorem X1 : X [0] 0 = coord (0 : Fin 1) := rfl
theorem X2_0 : X [0, 1] 0 = coord (0 : Fin 2) := rfl
theorem X2_1 : X [0, 1] 1 = coord (1 : Fin 2) := rfl
theorem X3_0 : X [0, 1, 2] 0 = coord (0 : Fin 3) := rfl
theorem X3_1 : X [0, 1, 2] 1 = coord (1 : Fin 3) := rfl
theorem X3_2 : X [0, 1, 2] 2 = coord (2 : Fin 3) := rfl

theorem D_const_mul (dirs : List ℕ) (d : ℕ) (c : ℝ) (u : Smooth dirs.length) : D dirs d (const c * u) = const c * D dirs d u := by
  rw [(partials_ok dirs).mul, D_const, zero_mul, zero_add]

theorem partials_const (dirs : List ℕ) (c : ℝ) (u : Smooth dirs.length) : ∀ ds a : List ℕ,
    partials (D dirs) ds a (const c * u) = const c * partials (D dirs) ds a u
  | [], _ => rfl
  | _ :: _, [] => rfl
  | d :: ds, a :: as => by
    rw [partials, partials, partials_const dirs c u ds as]
    induction a with
    | zero => rfl
    | succ a ih => rw [Function.iterate_succ_apply', Function.iterate_succ_apply', ih, D_const_mul]

theorem acts_const (dirs : List ℕ) (T : List (OpTerm (Smooth dirs.length))) (c : ℝ) (u : Smooth dirs.length) :
    acts (D dirs) dirs T (const c * u) = const c * acts (D dirs) dirs T u := by
  induction T with
  | nil => rw [acts_nil, acts_nil, mul_zero]
  | cons t T ih => rw [acts_cons, acts_cons, ih, partials_const]; ring

theorem insert_eq (dirs : List ℕ) (T : List (OpTerm (Smooth dirs.length))) (u : Smooth dirs.length) :
    insertIn dirs T u = acts (D dirs) dirs T u := by
  rw [insertIn, substExpr_eq]

theorem residual_zero {dirs : List ℕ} {T : List (OpTerm (Smooth dirs.length))} {u : Smooth dirs.length}
    (hu : ∀ x, (u : (Fin dirs.length → ℝ) → ℝ) x ≠ 0) : residual dirs T u = 0 ↔ acts (D dirs) dirs T u = 0 := by
  rw [residual, insert_eq]
  constructor
  · intro h
    have := mul_inv hu
    calc acts (D dirs) dirs T u = acts (D dirs) dirs T u * inv u * u := by rw [mul_assoc, mul_comm (inv u), this, mul_one]
      _ = 0 := by rw [h, zero_mul]
  · intro h
    rw [h, zero_mul]

theorem finish_ok (dirs : List ℕ) (T : List (OpTerm (Smooth dirs.length))) (f : ℝ × ℝ) (u : Smooth dirs.length)
    (h : acts (D dirs) dirs T u = 0) : finish dirs T f u = ⟨const f.1 * u, const f.2 * u, false⟩ := by
  rw [finish]
  simp only [insert_eq, acts_const, h, mul_zero, decide_true, Bool.and_self, Bool.not_true]

/-- The matrices of the quadratic forms. -/
def form_3 (c : ℝ × ℝ × ℝ × ℝ × ℝ × ℝ) : Matrix (Fin 3) (Fin 3) ℝ :=
  let (cx, cy, cz, cxy, cyz, cxz) := c
  !![cx, cxy, cxz; cxy, cy, cyz; cxz, cyz, cz]

def form_2 (c : ℝ × ℝ × ℝ) : Matrix (Fin 2) (Fin 2) ℝ :=
  let (cx, cxy, cy) := c
  !![cx, cxy; cxy, cy]

theorem form_3_symm (c : ℝ × ℝ × ℝ × ℝ × ℝ × ℝ) : (form_3 c).IsSymm := by
  obtain ⟨cx, cy, cz, cxy, cyz, cxz⟩ := c
  apply Matrix.IsSymm.ext
  intro i j
  fin_cases i <;> fin_cases j <;> rfl

theorem form_2_symm (c : ℝ × ℝ × ℝ) : (form_2 c).IsSymm := by
  obtain ⟨cx, cxy, cy⟩ := c
  apply Matrix.IsSymm.ext
  intro i j
  fin_cases i <;> fin_cases j <;> rfl

theorem form_3_all {C : Matrix (Fin 3) (Fin 3) ℝ} (h : C.IsSymm) : ∃ c, form_3 c = C := by
  refine ⟨(C 0 0, C 1 1, C 2 2, C 0 1, C 1 2, C 0 2), ?_⟩
  ext i j
  fin_cases i <;> fin_cases j <;> first | rfl | exact (h.apply _ _)

theorem form_2_all {C : Matrix (Fin 2) (Fin 2) ℝ} (h : C.IsSymm) : ∃ c, form_2 c = C := by
  refine ⟨(C 0 0, C 0 1, C 1 1), ?_⟩
  ext i j
  fin_cases i <;> fin_cases j <;> first | rfl | exact (h.apply _ _)

theorem det_3_eq (c : ℝ × ℝ × ℝ × ℝ × ℝ × ℝ) : det_3 c = (form_3 c).det := by
  obtain ⟨cx, cy, cz, cxy, cyz, cxz⟩ := c
  rw [det_fin_three]
  simp [form_3, det_3]
  ring

theorem det_2_eq (c : ℝ × ℝ × ℝ) : det_2 c = (form_2 c).det := by
  obtain ⟨cx, cxy, cy⟩ := c
  rw [det_fin_two]
  simp [form_2, det_2]

theorem ansatz_3_eq (c : ℝ × ℝ × ℝ × ℝ × ℝ × ℝ) : ansatz_3 c = gauss (form_3 c) := by
  obtain ⟨cx, cy, cz, cxy, cyz, cxz⟩ := c
  ext x
  rw [gauss_val]
  change Real.exp (-(1 / 2) * (cx * x 0 * x 0 + cz * x 2 * x 2 + cy * x 1 * x 1 + 2 * cxy * x 0 * x 1 + 2 * cyz * x 1 * x 2 + 2 * cxz * x 0 * x 2)) = _
  congr 1
  simp [form_3, dotProduct, mulVec, Fin.sum_univ_three]
  ring

theorem ansatz_2_eq (c : ℝ × ℝ × ℝ) : ansatz_2 c = gauss (form_2 c) := by
  obtain ⟨cx, cxy, cy⟩ := c
  ext x
  rw [gauss_val]
  change Real.exp (-(1 / 2) * (cx * x 0 * x 0 + 2 * cxy * x 0 * x 1 + cy * x 1 * x 1)) = _
  congr 1
  simp [form_2, dotProduct, mulVec, Fin.sum_univ_two]
  ring

theorem ansatz_1_eq (s : ℝ) : ansatz_1 s = const (1 / √(2 * Real.pi * s)) * gauss !![1 / s] := by
  ext x
  change 1 / √(2 * Real.pi * s) * Real.exp (-(1 / 2) * (x 0 * x 0 * (1 / s))) = 1 / √(2 * Real.pi * s) * (gauss !![1 / s] : (Fin 1 → ℝ) → ℝ) x
  rw [gauss_val]
  congr 2
  simp [dotProduct, mulVec]
  ring

/-- The factor before the Gaussian, as real and imaginary part. -/
noncomputable def gaussFactor {n : ℕ} (C : Matrix (Fin n) (Fin n) ℝ) : ℝ × ℝ := symSqrt (C.det / (2 * Real.pi) ^ n)

theorem factor_2 (d : ℝ) : ((symSqrt d).1 / (2 * Real.pi), (symSqrt d).2 / (2 * Real.pi)) = symSqrt (d / (2 * Real.pi) ^ 2) := by
  have p : 0 < 2 * Real.pi := by positivity
  have p2 : 0 < (2 * Real.pi) ^ 2 := by positivity
  unfold symSqrt
  by_cases h : 0 ≤ d
  · rw [if_pos h, if_pos (div_nonneg h p2.le), Real.sqrt_div h, Real.sqrt_sq p.le]
    simp
  · have hn : ¬ 0 ≤ d / (2 * Real.pi) ^ 2 := by
      intro h'
      apply h
      rw [div_nonneg_iff] at h'
      rcases h' with h' | h'
      · exact h'.1
      · linarith [h'.2]
    rw [if_neg h, if_neg hn, ← neg_div, Real.sqrt_div (by linarith), Real.sqrt_sq p.le]
    simp

theorem factor_1 {s : ℝ} (h : 0 < s) : symSqrt ((!![1 / s] : Matrix (Fin 1) (Fin 1) ℝ).det / (2 * Real.pi) ^ 1) = (1 / √(2 * Real.pi * s), 0) := by
  rw [det_unique]
  change symSqrt (1 / s / (2 * Real.pi) ^ 1) = _
  rw [symSqrt, if_pos (by positivity)]
  congr 1
  rw [pow_one, div_div, mul_comm s, Real.sqrt_div zero_le_one, Real.sqrt_one]

/-- What the solver has to promise: what it returns are roots. -/
structure Roots (S : Solvers) : Prop where
  three : ∀ r c, c ∈ S.three r → r c = 0
  two : ∀ r c, c ∈ S.two r → r c = 0
  one : ∀ r s, S.one r = some s → 0 < s ∧ r s = 0

/-- The solver finds a root if there is one. -/
structure Finds (S : Solvers) : Prop where
  three : ∀ r c, r c = 0 → S.three r ≠ []
  two : ∀ r c, r c = 0 → S.two r ≠ []
  one : ∀ r s, 0 < s → r s = 0 → S.one r ≠ none

/-- The function returned is a multiple of a Gaussian in the kernel of the operator. -/
theorem solve_gaussian_form {S : Solvers} (hS : Roots S) {n : ℕ} {T : List (OpTerm (Smooth n))} {r : GaussOut n} (h : solve_gaussian S n T = .ok r) :
    ∃ C : Matrix (Fin n) (Fin n) ℝ, C.IsSymm ∧ actOn n T (gauss C) = 0 ∧ (n = 1 → 0 < C.det) ∧
      r = ⟨const (gaussFactor C).1 * gauss C, const (gaussFactor C).2 * gauss C, false⟩ := by
  match n, T, r, h with
  | 3, T, r, h =>
    rw [solve_gaussian, gaussian_3] at h
    split at h
    · cases h
    · rename_i c cs e
      have h0 := hS.three (fun c => residual [0, 1, 2] T (ansatz_3 c)) c (by rw [e]; exact List.mem_cons_self)
      rw [ansatz_3_eq] at h0
      have h1 := (residual_zero (dirs := [0, 1, 2]) (gauss_ne (form_3 c))).1 h0
      refine ⟨form_3 c, form_3_symm c, h1, by simp, ?_⟩
      rw [← Out.ok.inj h, ansatz_3_eq, det_3_eq]
      exact finish_ok [0, 1, 2] T _ _ h1
  | 2, T, r, h =>
    rw [solve_gaussian, gaussian_2] at h
    split at h
    · cases h
    · rename_i c cs e
      have h0 := hS.two (fun c => residual [0, 1] T (ansatz_2 c)) c (by rw [e]; exact List.mem_cons_self)
      rw [ansatz_2_eq] at h0
      have h1 := (residual_zero (dirs := [0, 1]) (gauss_ne (form_2 c))).1 h0
      refine ⟨form_2 c, form_2_symm c, h1, by simp, ?_⟩
      rw [← Out.ok.inj h, ansatz_2_eq, det_2_eq, gaussFactor]
      simp only [factor_2]
      exact finish_ok [0, 1] T _ _ h1
  | 1, T, r, h =>
    rw [solve_gaussian, gaussian_1] at h
    split at h
    · cases h
    · rename_i s e
      obtain ⟨hs, h0⟩ := hS.one _ _ e
      have hc : 0 < 1 / √(2 * Real.pi * s) := by positivity
      have ha : ∀ x, ((const (1 / √(2 * Real.pi * s)) * gauss !![1 / s] : Smooth 1) : (Fin 1 → ℝ) → ℝ) x ≠ 0 := fun x =>
        mul_ne_zero hc.ne' (gauss_ne _ x)
      rw [ansatz_1_eq] at h0
      have h1 := (residual_zero (dirs := [0]) ha).1 h0
      have h2 : acts (D [0]) [0] T (gauss !![1 / s]) = 0 := by
        have e := acts_const [0] T (1 / √(2 * Real.pi * s)) (gauss !![1 / s])
        rw [h1] at e
        have e' : (const (√(2 * Real.pi * s)) : Smooth 1) * (const (1 / √(2 * Real.pi * s)) * acts (D [0]) [0] T (gauss !![1 / s])) = 0 := by
          rw [← e, mul_zero]
        rw [← mul_assoc, ← const_mul, mul_one_div_cancel (by positivity), const_one, one_mul] at e'
        exact e'
      refine ⟨!![1 / s], ?_, h2, ?_, ?_⟩
      · apply Matrix.IsSymm.ext
        intro i j
        rw [Subsingleton.elim i j]
      · intro _
        rw [det_unique]
        change 0 < 1 / s
        positivity
      · rw [← Out.ok.inj h, ansatz_1_eq, gaussFactor, factor_1 hs]
        refine (finish_ok [0] T _ _ h1).trans ?_
        simp only [const_one, const_zero, one_mul, zero_mul]
  | 0, T, r, h => cases h
  | n + 4, T, r, h => cases h

/-- If there is a Gaussian in the kernel, a function is returned. -/
theorem solve_gaussian_found {S : Solvers} (hF : Finds S) {n : ℕ} (hn : n = 1 ∨ n = 2 ∨ n = 3) {T : List (OpTerm (Smooth n))}
    {C : Matrix (Fin n) (Fin n) ℝ} (hC : C.IsSymm) (h1 : n = 1 → 0 < C.det) (h : actOn n T (gauss C) = 0) :
    ∃ r, solve_gaussian S n T = .ok r := by
  rcases hn with rfl | rfl | rfl
  · rw [solve_gaussian, gaussian_1]
    have hd : 0 < C 0 0 := by
      have := h1 rfl
      rwa [det_unique] at this
    have e : !![1 / (1 / C 0 0)] = C := by
      ext i j
      rw [Subsingleton.elim i 0, Subsingleton.elim j 0]
      simp
    have hr : residual [0] T (ansatz_1 (1 / C 0 0)) = 0 := by
      rw [ansatz_1_eq, e]
      have hc : 0 < 1 / √(2 * Real.pi * (1 / C 0 0)) := by positivity
      refine (residual_zero (dirs := [0]) fun x => mul_ne_zero hc.ne' (gauss_ne _ x)).2 ?_
      have := acts_const [0] T (1 / √(2 * Real.pi * (1 / C 0 0))) (gauss C)
      exact this.trans (by rw [show acts (D [0]) [0] T (gauss C) = 0 from h, mul_zero])
    have := hF.one (fun s2 => residual [0] T (ansatz_1 s2)) (1 / C 0 0) (by positivity) hr
    cases e' : S.one fun s2 => residual [0] T (ansatz_1 s2) with
    | none => exact absurd e' this
    | some s => exact ⟨_, rfl⟩
  · rw [solve_gaussian, gaussian_2]
    obtain ⟨c, rfl⟩ := form_2_all hC
    have := hF.two (fun c => residual [0, 1] T (ansatz_2 c)) c (by
      rw [ansatz_2_eq]
      exact (residual_zero (dirs := [0, 1]) (gauss_ne (form_2 c))).2 h)
    cases e' : S.two fun c => residual [0, 1] T (ansatz_2 c) with
    | nil => exact absurd e' this
    | cons c cs => exact ⟨_, rfl⟩
  · rw [solve_gaussian, gaussian_3]
    obtain ⟨c, rfl⟩ := form_3_all hC
    have := hF.three (fun c => residual [0, 1, 2] T (ansatz_3 c)) c (by
      rw [ansatz_3_eq]
      exact (residual_zero (dirs := [0, 1, 2]) (gauss_ne (form_3 c))).2 h)
    cases e' : S.three fun c => residual [0, 1, 2] T (ansatz_3 c) with
    | nil => exact absurd e' this
    | cons c cs => exact ⟨_, rfl⟩

theorem solve_gaussian_or (S : Solvers) {n : ℕ} (T : List (OpTerm (Smooth n))) : solve_gaussian S n T = .throws ∨ ∃ r, solve_gaussian S n T = .ok r := by
  match n, T with
  | 3, T =>
    rw [solve_gaussian, gaussian_3]
    split
    · exact Or.inl rfl
    · exact Or.inr ⟨_, rfl⟩
  | 2, T =>
    rw [solve_gaussian, gaussian_2]
    split
    · exact Or.inl rfl
    · exact Or.inr ⟨_, rfl⟩
  | 1, T =>
    rw [solve_gaussian, gaussian_1]
    split
    · exact Or.inl rfl
    · exact Or.inr ⟨_, rfl⟩
  | 0, T => exact Or.inl rfl
  | n + 4, T => exact Or.inl rfl

theorem posDefinite_gaussFactor {n : ℕ} {C : Matrix (Fin n) (Fin n) ℝ} (h : 0 ≤ C.det) : gaussFactor C = (√(C.det / (2 * Real.pi) ^ n), 0) := by
  rw [gaussFactor, symSqrt, if_pos (by positivity)]

end Hermipy
