import Verif.Lemmas.TripleTable
import Verif.Lemmas.TripleFourierTable

/-! # Which triple products vanish -/

namespace Hermipy

open Spec

theorem triple_hermite {f : Nat} (hf : f ≠ 1) (k i j : Nat) : triple f k i j = triple 0 k i j := by
  rw [triple, triple, if_neg hf, if_neg (by omega)]

theorem triple_tau (k i j : Nat) : triple 0 k i j = tau k i j := by rw [triple_herm 0 k i j (by omega), tau]

theorem four_support {k i j : Nat} (h : four k i j ≠ 0) : k ≤ 2 * ((i + 1) / 2 + (j + 1) / 2) := by
  rcases trig_cases i with rfl | ⟨a, ha, rfl⟩ | ⟨a, ha, rfl⟩
  · rw [four_zero_left] at h
    by_cases hk : k = j
    · omega
    · rw [if_neg hk] at h; exact absurd rfl h
  all_goals
    rcases trig_cases j with rfl | ⟨b, hb, rfl⟩ | ⟨b, hb, rfl⟩
    · rw [four_zero_right] at h
      by_contra hk
      rw [if_neg (by omega)] at h
      exact h rfl
  · by_contra hk
    rw [four_cc ha hb, fcc, if_neg (by omega)] at h
    split_ifs at h <;> first | omega | simp at h
  · by_contra hk
    rw [four_cs ha hb, fcs, if_neg (by omega)] at h
    split_ifs at h <;> first | omega | simp at h
  · by_contra hk
    rw [four_sc ha hb, fcs, if_neg (by omega)] at h
    split_ifs at h <;> first | omega | simp at h
  · by_contra hk
    rw [four_ss ha hb, fss, if_neg (by omega)] at h
    split_ifs at h <;> first | omega | simp at h

/-- Hermite: the degree of a product is at most the sum of the degrees. -/
theorem triple_support_hermite {f k i j : Nat} (hf : f ≠ 1) (h : triple f k i j ≠ 0) : k ≤ i + j := by
  rw [triple_hermite hf, triple_tau] at h
  by_contra hk
  exact h (tau_zero (by omega))

/-- Fourier: the wave number of a product is at most the sum of the wave numbers. -/
theorem triple_support_fourier {k i j : Nat} (h : triple 1 k i j ≠ 0) : k ≤ 2 * ((i + 1) / 2 + (j + 1) / 2) := by
  rw [triple_four] at h
  exact four_support h

theorem triple_support {f k i j : Nat} (h : triple f k i j ≠ 0) : k ≤ i + j + 2 := by
  by_cases hf : f = 1
  · subst hf
    have := triple_support_fourier h
    omega
  · have := triple_support_hermite hf h
    omega

theorem triple_symm (f k i j : Nat) : triple f k i j = triple f k j i := by
  rw [triple, triple]
  by_cases hf : f = 1
  · rw [if_pos hf, if_pos hf]
    simp only [mul_comm (trig i _)]
  · rw [if_neg hf, if_neg hf]
    simp only [mul_comm (herm i _)]

theorem phi_mul {f i j N : Nat} (hN : i + j + 2 < N) (x : ℝ) :
    phi f i x * phi f j x = ∑ k ∈ Finset.range N, triple f k i j * phi f k x := by
  simp only [phi]
  by_cases hf : f = 1
  · subst hf
    simp only [if_true, triple_four]
    exact trig_mul hN x
  · simp only [if_neg hf]
    exact herm_mul (by omega) f hf x

end Hermipy
