import Verif.Lemmas.TripleRounded
import Verif.Lemmas.TripleAbs
import Verif.Lemmas.TransformRounded

/-! # Rounding errors of the table of Hermite triple products -/

namespace Hermipy

open Spec

theorem Approx.widen {u : ℝ} {k : ℕ} {c x M M' : ℝ} (hu : 0 ≤ u) (h : Approx u k c x M) (hM : M ≤ M') : Approx u k c x M' :=
  ⟨h.le.trans hM, h.err.trans (mul_le_mul_of_nonneg_left hM (err_nonneg hu k))⟩

variable {α : Type} [Doubles α] {val : α → ℝ} {u : ℝ}

theorem Spec.Accurate.if_add (A : Accurate α val u) {P : Prop} [Decidable P] {K : ℕ} {c g : α} {x t M M' : ℝ}
    (hc : Approx u K (val c) x M) (hg : P → Approx u K (val g) t M') (hn : ¬P → t = 0) (hM : 0 ≤ M') :
    Approx u (K + 1) (val (if P then c + g else c)) (x + t) (M + M') := by
  by_cases h : P
  · rw [if_pos h]
    exact hc.add A.nonneg (hg h) (A.add c g)
  · rw [if_neg h, hn h, add_zero]
    exact (hc.mono A.nonneg (by omega)).widen A.nonneg (by linarith)

theorem tF_succ (k i j : Nat) : tF (α := α) k (i + 1) j =
    if j + 1 ≤ k + i ∧ 1 ≤ k ∧ k ≤ j + (i + 1) then
      (if 1 ≤ i ∧ j + 1 ≤ k + i ∧ k + 1 ≤ j + i then
        (if j ≤ k + (i + 1) ∧ k + 1 ≤ j + i then 0 + recA i / recA k * tF (k + 1) i j else 0) + -recB i * tF k (i - 1) j
      else if j ≤ k + (i + 1) ∧ k + 1 ≤ j + i then 0 + recA i / recA k * tF (k + 1) i j else 0) +
        recA i / recA k * recB k * tF (k - 1) i j
    else if 1 ≤ i ∧ j + 1 ≤ k + i ∧ k + 1 ≤ j + i then
      (if j ≤ k + (i + 1) ∧ k + 1 ≤ j + i then 0 + recA i / recA k * tF (k + 1) i j else 0) + -recB i * tF k (i - 1) j
    else if j ≤ k + (i + 1) ∧ k + 1 ≤ j + i then 0 + recA i / recA k * tF (k + 1) i j else 0 := by
  match i with
  | 0 =>
    rw [if_neg (by omega : ¬(1 ≤ 0 ∧ _)), Nat.zero_add, tF_one]
    rfl
  | i + 1 =>
    rw [tF_two, Nat.add_sub_cancel]
    have e1 : (j + 1 ≤ k + (i + 1) ∧ 1 ≤ k ∧ k ≤ j + (i + 1 + 1)) = (j ≤ k + i ∧ 1 ≤ k ∧ k ≤ j + (i + 2)) :=
      propext ⟨fun h => by omega, fun h => by omega⟩
    have e2 : (1 ≤ i + 1 ∧ j + 1 ≤ k + (i + 1) ∧ k + 1 ≤ j + (i + 1)) = (j ≤ k + i ∧ k ≤ j + i) :=
      propext ⟨fun h => by omega, fun h => by omega⟩
    have e3 : (j ≤ k + (i + 1 + 1) ∧ k + 1 ≤ j + (i + 1)) = (j ≤ k + (i + 2) ∧ k ≤ j + i) :=
      propext ⟨fun h => by omega, fun h => by omega⟩
    simp only [e1, e2, e3]

theorem approx_zero (A : Accurate α val u) (K : ℕ) {M : ℝ} (hM : 0 ≤ M) : Approx u K (val (0 : α)) 0 M := by
  rw [A.zero]
  exact (Approx.exact A.nonneg K 0).widen A.nonneg (by simpa using hM)

theorem tF_approx (A : AccurateD α val u) : ∀ (i k j : ℕ), i ≤ j → i + j + 1 < 2 ^ 32 →
    Approx u (19 * i) (val (tF k i j : α)) (tau k i j) (gP k i j)
  | 0, k, j, _, _ => by
    rw [tau_first, gP_first, tF]
    by_cases h : k = j
    · rw [if_pos h, if_pos h, A.one]
      simpa using Approx.exact A.nonneg 0 (1 : ℝ)
    · rw [if_neg h, if_neg h]
      exact approx_zero A.toAccurate _ le_rfl
  | i + 1, k, j, hij, hn => by
    by_cases hk : i + 1 + j < k ∨ k + (i + 1) < j
    · rw [tF_zero hk, tau_zero (by omega)]
      exact approx_zero A.toAccurate _ (gP_nonneg _ _ _)
    · have p1 := gP_nonneg i (k + 1) j
      have p2 := gP_nonneg (i - 1) k j
      have p3 := gP_nonneg i (k - 1) j
      have ha := REC_A_pos i
      have hka := REC_A_pos k
      have hb := REC_B_nonneg i
      have hkb := REC_B_nonneg k
      have ih := fun k => tF_approx A i k j (by omega) (by omega)
      have rA : Rel u 10 (val (recA i / recA k : α)) (REC_A i / REC_A k) :=
        A.div_rel (A.recA_rel (i := i) (by omega)) (A.recA_rel (i := k) (by omega))
      have h1 := A.toAccurate.if_add (P := j ≤ k + (i + 1) ∧ k + 1 ≤ j + i) (K := 19 * i + 11) (approx_zero A.toAccurate _ le_rfl)
        (g := recA i / recA k * tF (k + 1) i j) (t := REC_A i / REC_A k * tau (k + 1) i j) (M' := REC_A i / REC_A k * gP (k + 1) i j)
        (fun _ => ((rA.approx A.nonneg).mul A.nonneg (ih (k + 1)) (A.mul _ _)).mono A.nonneg (by omega))
        (fun h => by rw [tau_zero (k := k + 1) (by omega), mul_zero]) (by positivity)
      have h2 := A.toAccurate.if_add (P := 1 ≤ i ∧ j + 1 ≤ k + i ∧ k + 1 ≤ j + i) h1
        (g := -recB i * tF k (i - 1) j) (t := -REC_B i * tau k (i - 1) j) (M' := REC_B i * gP k (i - 1) j)
        (fun h => by
          have ih' := tF_approx A (i - 1) k j (by omega) (by omega)
          have rB := ((A.recB_rel (i := i) (by omega) (by omega)).approx A.nonneg).neg
          rw [← A.neg] at rB
          exact (rB.mul A.nonneg ih' (A.mul _ _)).mono A.nonneg (by omega))
        (fun h => by
          rcases Nat.eq_zero_or_pos i with rfl | hi
          · simp [REC_B]
          · rw [tau_zero (by omega), mul_zero]) (by positivity)
      have h3 := A.toAccurate.if_add (P := j + 1 ≤ k + i ∧ 1 ≤ k ∧ k ≤ j + (i + 1)) (h2.mono A.nonneg (k' := 19 * i + 18) (by omega))
        (g := recA i / recA k * recB k * tF (k - 1) i j) (t := REC_A i / REC_A k * REC_B k * tau (k - 1) i j)
        (M' := REC_A i / REC_A k * REC_B k * gP (k - 1) i j)
        (fun h => by
          have rB := (A.recB_rel (i := k) (by omega) (by omega)).approx A.nonneg
          exact (((rA.approx A.nonneg).mul A.nonneg rB (A.mul _ _)).mul A.nonneg (ih (k - 1)) (A.mul _ _)).mono A.nonneg (by omega))
        (fun h => by
          rcases Nat.eq_zero_or_pos k with rfl | hk'
          · simp [REC_B]
          · rw [tau_zero (by omega), mul_zero]) (by positivity)
      rw [tF_succ, tau_rec, gP_rec]
      rw [zero_add, zero_add] at h3
      exact h3
  termination_by i => i

theorem tauF_approx (A : AccurateD α val u) {n k i j : ℕ} (hn : n < 2 ^ 31) (hi : i ≤ n) (hj : j ≤ n) {f : ℕ} (hf : f ≠ 1) :
    Approx u (tableOps f i j) (val (tauF k i j : α)) (triple f k i j) (tripleAbs f k i j) := by
  rw [tableOps, if_neg hf, tauF, tripleAbs_herm hf, triple_herm f k i j hf]
  have h := tF_approx A (min i j) k (max i j) (by omega) (by omega)
  have e : tau k (min i j) (max i j) = tau k i j := by
    rcases le_total i j with h | h
    · rw [min_eq_left h, max_eq_right h]
    · rw [min_eq_right h, max_eq_left h, tau_symm]
  rw [e] at h
  exact h

end Hermipy
