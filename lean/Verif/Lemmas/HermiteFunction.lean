import Verif.Lemmas.Gauss
import Mathlib.Analysis.SpecialFunctions.PolynomialExp
import Mathlib.Analysis.Calculus.Deriv.MeanValue
import Mathlib.Algebra.Polynomial.Roots

/-! # Hermite functions beyond the turning points -/

namespace Hermipy
open Spec Polynomial Filter Topology

theorem He_ode (n : ℕ) : derivative (derivative (He n)) = X * derivative (He n) - C (n : ℝ) * He n := by
  have h := congrArg derivative (He_succ n)
  rw [derivative_He, derivative_sub, derivative_mul, derivative_X, one_mul] at h
  have e : (C ((n : ℝ) + 1) : ℝ[X]) = C (n : ℝ) + 1 := by simp
  rw [e] at h
  linear_combination h

theorem He_ne_zero (n : ℕ) : He n ≠ 0 := by
  have : (He n).Monic := (Polynomial.hermite_monic n).map _
  exact this.ne_zero

/-- The Hermite polynomial with the square root of the weight. -/
noncomputable def psi (n : ℕ) (x : ℝ) : ℝ := (He n).eval x * Real.exp (-x ^ 2 / 4)

noncomputable def psi' (n : ℕ) (x : ℝ) : ℝ := ((derivative (He n)).eval x - x / 2 * (He n).eval x) * Real.exp (-x ^ 2 / 4)

theorem exp_quarter (x : ℝ) : HasDerivAt (fun x => Real.exp (-x ^ 2 / 4)) (-(x / 2) * Real.exp (-x ^ 2 / 4)) x := by
  have h : HasDerivAt (fun x : ℝ => -x ^ 2 / 4) (-(x / 2)) x := by
    refine (((hasDerivAt_pow 2 x).neg).div_const 4).congr_deriv ?_
    push_cast
    ring
  exact h.exp.congr_deriv (by ring)

theorem psi_deriv (n : ℕ) (x : ℝ) : HasDerivAt (psi n) (psi' n x) x := by
  refine ((He n).hasDerivAt x |>.mul (exp_quarter x)).congr_deriv ?_
  rw [psi']
  ring

theorem psi'_deriv (n : ℕ) (x : ℝ) : HasDerivAt (psi' n) ((x ^ 2 / 4 - n - 1 / 2) * psi n x) x := by
  have h : HasDerivAt (fun x => (derivative (He n)).eval x - x / 2 * (He n).eval x)
      ((derivative (derivative (He n))).eval x - (1 / 2 * (He n).eval x + x / 2 * (derivative (He n)).eval x)) x :=
    ((derivative (He n)).hasDerivAt x).sub (((hasDerivAt_id x).div_const 2).mul ((He n).hasDerivAt x))
  refine (h.mul (exp_quarter x)).congr_deriv ?_
  rw [He_ode, psi]
  simp only [eval_sub, eval_mul, eval_X, eval_C]
  ring

theorem flux_deriv (n : ℕ) (x : ℝ) :
    HasDerivAt (fun x => psi n x * psi' n x) (psi' n x ^ 2 + (x ^ 2 / 4 - n - 1 / 2) * psi n x ^ 2) x :=
  ((psi_deriv n x).mul (psi'_deriv n x)).congr_deriv (by ring)

theorem flux_limit (n : ℕ) : Tendsto (fun x => psi n x * psi' n x) atTop (𝓝 0) := by
  set P : ℝ[X] := He n * (derivative (He n) - C (1 / 2) * X * He n) with hP
  have e : ∀ x, psi n x * psi' n x = P.eval x * Real.exp (-x ^ 2 / 2) := by
    intro x
    have h : Real.exp (-x ^ 2 / 2) = Real.exp (-x ^ 2 / 4) * Real.exp (-x ^ 2 / 4) := by
      rw [← Real.exp_add]; congr 1; ring
    rw [h, psi, psi', hP]
    simp only [eval_sub, eval_mul, eval_X, eval_C]
    ring
  refine squeeze_zero_norm' (a := fun x => ‖P.eval x / Real.exp x‖) ?_ (by simpa using (P.tendsto_div_exp_atTop).norm)
  filter_upwards [eventually_ge_atTop (2 : ℝ)] with x hx
  rw [e, div_eq_mul_inv (P.eval x), ← Real.exp_neg, norm_mul, norm_mul]
  refine mul_le_mul_of_nonneg_left ?_ (norm_nonneg _)
  rw [Real.norm_of_nonneg (Real.exp_nonneg _), Real.norm_of_nonneg (Real.exp_nonneg _)]
  exact Real.exp_le_exp.2 (by nlinarith)

theorem flux_strict (n : ℕ) {a : ℝ} (ha : 0 ≤ a) (ha2 : 4 * (n : ℝ) + 2 ≤ a ^ 2) :
    StrictMonoOn (fun x => psi n x * psi' n x) (Set.Ici a) := by
  have hd : ∀ x, a ≤ x → 0 ≤ psi' n x ^ 2 + (x ^ 2 / 4 - n - 1 / 2) * psi n x ^ 2 := by
    intro x hx
    have : 0 ≤ x ^ 2 / 4 - n - 1 / 2 := by nlinarith
    positivity
  have hm : MonotoneOn (fun x => psi n x * psi' n x) (Set.Ici a) := by
    refine monotoneOn_of_deriv_nonneg (convex_Ici a) (fun x _ => (flux_deriv n x).continuousAt.continuousWithinAt)
      (fun x _ => (flux_deriv n x).differentiableAt.differentiableWithinAt) fun x hx => ?_
    rw [(flux_deriv n x).deriv]
    exact hd x (interior_subset hx)
  intro x hx y hy hxy
  refine lt_of_le_of_ne (hm hx hy hxy.le) fun he => ?_
  have hz : ∀ t ∈ Set.Ioo x y, (He n).eval t = 0 := by
    intro t ht
    have hc : (fun x => psi n x * psi' n x) =ᶠ[𝓝 t] fun _ => psi n x * psi' n x := by
      filter_upwards [isOpen_Ioo.mem_nhds ht] with s hs
      have hs' : s ∈ Set.Ici a := le_trans hx hs.1.le
      exact le_antisymm ((hm hs' hy hs.2.le).trans he.ge) (hm hx hs' hs.1.le)
    have h0 := (flux_deriv n t).unique ((hasDerivAt_const t _).congr_of_eventuallyEq hc)
    have hat : a < t := lt_of_le_of_lt hx ht.1
    have h1 : 0 < t ^ 2 / 4 - n - 1 / 2 := by nlinarith
    have h2 : (t ^ 2 / 4 - n - 1 / 2) * psi n t ^ 2 = 0 := by
      have := sq_nonneg (psi' n t)
      have := mul_nonneg h1.le (sq_nonneg (psi n t))
      linarith
    have h3 : psi n t = 0 := by
      rcases mul_eq_zero.1 h2 with h | h
      · exact absurd h h1.ne'
      · exact pow_eq_zero_iff two_ne_zero |>.1 h
    rw [psi] at h3
    exact (mul_eq_zero.1 h3).resolve_right (Real.exp_pos _).ne'
  exact He_ne_zero n (Polynomial.eq_zero_of_infinite_isRoot _ ((Set.Ioo_infinite hxy).mono fun t ht => hz t ht))

theorem flux_neg (n : ℕ) {a : ℝ} (ha : 0 ≤ a) (ha2 : 4 * (n : ℝ) + 2 ≤ a ^ 2) {x : ℝ} (hx : a ≤ x) : psi n x * psi' n x < 0 := by
  have hs := flux_strict n ha ha2
  have h1 : psi n x * psi' n x < psi n (x + 1) * psi' n (x + 1) := hs hx (Set.mem_Ici.2 (by linarith)) (by linarith)
  refine h1.trans_le (ge_of_tendsto (flux_limit n) ?_)
  filter_upwards [eventually_ge_atTop (x + 1)] with y hy
  exact hs.monotoneOn (Set.mem_Ici.2 (by linarith)) (Set.mem_Ici.2 (by linarith)) hy

theorem psi_abs_strict (n : ℕ) {a : ℝ} (ha : 0 ≤ a) (ha2 : 4 * (n : ℝ) + 2 ≤ a ^ 2) :
    (∀ x, a ≤ x → psi n x ≠ 0) ∧ StrictAntiOn (fun x => |psi n x|) (Set.Ici a) := by
  refine ⟨fun x hx h => by simpa [h] using flux_neg n ha ha2 hx, fun x hx y hy hxy => ?_⟩
  have hd : ∀ x, HasDerivAt (fun x => psi n x ^ 2) (2 * (psi n x * psi' n x)) x := fun x =>
    ((psi_deriv n x).pow 2).congr_deriv (by push_cast; ring)
  have : StrictAntiOn (fun x => psi n x ^ 2) (Set.Ici a) := by
    refine strictAntiOn_of_deriv_neg (convex_Ici a) (fun x _ => (hd x).continuousAt.continuousWithinAt) fun x hx => ?_
    rw [(hd x).deriv]
    linarith [flux_neg n ha ha2 (interior_subset hx)]
  exact sq_lt_sq.1 (this hx hy hxy)

theorem psi_limit (n : ℕ) : Tendsto (psi n) atTop (𝓝 0) := by
  refine squeeze_zero_norm' (a := fun x => ‖(He n).eval x / Real.exp x‖) ?_ (by simpa using ((He n).tendsto_div_exp_atTop).norm)
  filter_upwards [eventually_ge_atTop (4 : ℝ)] with x hx
  rw [psi, div_eq_mul_inv ((He n).eval x), ← Real.exp_neg, norm_mul, norm_mul]
  refine mul_le_mul_of_nonneg_left ?_ (norm_nonneg _)
  rw [Real.norm_of_nonneg (Real.exp_nonneg _), Real.norm_of_nonneg (Real.exp_nonneg _)]
  exact Real.exp_le_exp.2 (by nlinarith)

theorem hermiteFunction_psi (n : ℕ) (x : ℝ) : herm n x * Real.exp (-x ^ 2 / 4) = psi n x / √(n.factorial : ℝ) := by
  rw [herm_eq, psi]
  ring

end Hermipy
