import Verif.Spec.Derivative
import Verif.Lemmas.HermitePoly
import Verif.Lemmas.FourierRule
import Mathlib.Analysis.Calculus.Deriv.Polynomial
import Mathlib.Analysis.Calculus.Deriv.Mul
import Mathlib.Analysis.SpecialFunctions.Trigonometric.Deriv

/-! # Derivatives of the basis functions -/

namespace Hermipy

open Spec Polynomial

theorem herm_deriv (n : Nat) (x : ℝ) : HasDerivAt (herm n) (√(n : ℝ) * herm (n - 1) x) x := by
  have h := (Polynomial.hasDerivAt_aeval (hermite n) x).div_const (√(n.factorial : ℝ))
  cases n with
  | zero =>
    have e : herm 0 = fun _ => 1 := by funext y; exact herm_zero y
    rw [e]
    simpa using hasDerivAt_const x (1 : ℝ)
  | succ n =>
    have e : √((n + 1 : Nat) : ℝ) * herm (n + 1 - 1) x = aeval x (derivative (hermite (n + 1))) / √((n + 1).factorial : ℝ) := by
      rw [derivative_hermite, Nat.add_sub_cancel, herm]
      simp only [map_mul, map_add, map_natCast, map_one]
      have hs1 : √(((n + 1).factorial : ℕ) : ℝ) = √((n : ℝ) + 1) * √((n.factorial : ℕ) : ℝ) := by
        rw [← Real.sqrt_mul (by positivity)]
        congr 1
        rw [Nat.factorial_succ]
        push_cast
        ring
      rw [hs1]
      have p0 : √((n.factorial : ℕ) : ℝ) ≠ 0 := by positivity
      have p1 : √((n : ℝ) + 1) ≠ 0 := by positivity
      have hq : √((n : ℝ) + 1) * √((n : ℝ) + 1) = (n : ℝ) + 1 := Real.mul_self_sqrt (by positivity)
      push_cast
      field_simp
      linear_combination (aeval x (hermite n)) * hq
    rw [e]
    exact h

theorem trig_deriv (n : Nat) (x : ℝ) : HasDerivAt (trig n)
    (((if n % 2 = 1 then ((n + 1) / 2 : Nat) else -((n / 2 : Nat) : ℤ) : ℤ) : ℝ) * trig (if n % 2 = 0 then n - 1 else n + 1) x) x := by
  rcases trig_cases n with rfl | ⟨k, hk, rfl⟩ | ⟨k, hk, rfl⟩
  · have e : trig 0 = fun _ => 1 / √(2 * Real.pi) := by funext y; exact trig_zero y
    rw [e]
    simpa using hasDerivAt_const x (1 / √(2 * Real.pi))
  · have e : trig (2 * k) = fun y => Real.cos (k * y) / √Real.pi := by funext y; exact trig_cos hk y
    rw [e, if_neg (by omega), if_pos (by omega), trig_sin hk, Nat.mul_div_cancel_left _ (by omega)]
    have h1 : HasDerivAt (fun y : ℝ => (k : ℝ) * y) k x := by simpa using (hasDerivAt_id x).const_mul (k : ℝ)
    have h := h1.cos.div_const (√Real.pi)
    refine h.congr_deriv ?_
    rw [Int.cast_neg, Int.cast_natCast]
    ring
  · have e : trig (2 * k - 1) = fun y => Real.sin (k * y) / √Real.pi := by funext y; exact trig_sin hk y
    rw [e, if_pos (by omega), if_neg (by omega), show 2 * k - 1 + 1 = 2 * k by omega, trig_cos hk, Nat.mul_div_cancel_left _ (by omega)]
    have h1 : HasDerivAt (fun y : ℝ => (k : ℝ) * y) k x := by simpa using (hasDerivAt_id x).const_mul (k : ℝ)
    have h := h1.sin.div_const (√Real.pi)
    refine h.congr_deriv ?_
    rw [Int.cast_natCast]
    ring

theorem dbasis_eq {dim d : Nat} (hd : d < dim) {fourier m : List Nat} (hm : d < m.length) {p : List ℝ} (hp : d < p.length) {c : ℝ}
    {n : Nat} (h : HasDerivAt (phi (fourier.getD d 0) (m.getD d 0)) (c * phi (fourier.getD d 0) n (p.getD d 0)) (p.getD d 0)) :
    dbasis dim fourier d m p = c * basis dim fourier (m.set d n) p := by
  have hmem : d ∈ Finset.range dim := Finset.mem_range.2 hd
  have e1 : ∀ t, basis dim fourier m (p.set d t) = phi (fourier.getD d 0) (m.getD d 0) t *
      ∏ k ∈ (Finset.range dim).erase d, phi (fourier.getD k 0) (m.getD k 0) (p.getD k 0) := by
    intro t
    rw [basis, ← Finset.mul_prod_erase _ _ hmem]
    congr 1
    · congr 1
      simp [hp]
    · apply Finset.prod_congr rfl
      intro k hk
      have : d ≠ k := fun e => (Finset.mem_erase.1 hk).1 e.symm
      simp [this]
  have e2 : basis dim fourier (m.set d n) p = phi (fourier.getD d 0) n (p.getD d 0) *
      ∏ k ∈ (Finset.range dim).erase d, phi (fourier.getD k 0) (m.getD k 0) (p.getD k 0) := by
    rw [basis, ← Finset.mul_prod_erase _ _ hmem]
    congr 1
    · congr 1
      simp [hm]
    · apply Finset.prod_congr rfl
      intro k hk
      have : d ≠ k := fun e => (Finset.mem_erase.1 hk).1 e.symm
      simp [this]
  rw [dbasis, e2, ← mul_assoc]
  simp only [e1]
  exact (h.mul_const _).deriv

theorem dbasis_hermite {dim d : Nat} (hd : d < dim) {fourier m : List Nat} (hf : fourier.getD d 0 ≠ 1) (hm : d < m.length)
    {p : List ℝ} (hp : d < p.length) :
    dbasis dim fourier d m p = √(m.getD d 0 : ℝ) * basis dim fourier (lower d m) p := by
  refine dbasis_eq hd hm hp ?_
  have e : ∀ k, phi (fourier.getD d 0) k = herm k := by
    intro k
    funext y
    rw [phi, if_neg hf]
  rw [e, e]
  exact herm_deriv _ _

theorem dbasis_fourier {dim d : Nat} (hd : d < dim) {fourier m : List Nat} (hf : fourier.getD d 0 = 1) (hm : d < m.length)
    {p : List ℝ} (hp : d < p.length) :
    dbasis dim fourier d m p = (signedWave d m : ℝ) * basis dim fourier (partner d m) p := by
  refine dbasis_eq hd hm hp ?_
  have e : ∀ k, phi (fourier.getD d 0) k = trig k := by
    intro k
    funext y
    rw [phi, if_pos hf]
  rw [e, e]
  exact trig_deriv _ _

end Hermipy
