import Verif.Model.Operator
import Verif.Spec.Operator
import Mathlib.Data.List.Lex
import Mathlib.Algebra.Order.BigOperators.Group.List
import Mathlib.Tactic.Ring

namespace Hermipy
open Polynomial Spec

variable {K : Type} [CommRing K] [Algebra ℚ K]

theorem testDeriv_lt (x : K) {m a : ℕ} (h : m < a) : testDeriv x m a = 0 := by
  rw [testDeriv, iterate_derivative_C_mul, iterate_derivative_X_pow_eq_natCast_mul, Nat.descFactorial_eq_zero_iff_lt.2 h]
  simp

theorem testDeriv_self (x : K) (m : ℕ) : testDeriv x m m = 1 := by
  rw [testDeriv, iterate_derivative_C_mul, iterate_derivative_X_pow_eq_natCast_mul, Nat.descFactorial_self]
  simp only [Nat.sub_self, pow_zero, mul_one, map_mul, aeval_C, map_natCast]
  rw [← map_natCast (algebraMap ℚ K), ← map_mul, one_div_mul_cancel (by exact_mod_cast m.factorial_ne_zero), map_one]

/-- A derivative of a monomial of componentwise smaller or incomparable degree vanishes; the one of the same degree is one. -/
theorem linearArg_self : ∀ (vars : List K) (c : K) (a : List ℕ), linearArg vars c a a = c := by
  intro vars c a
  rw [linearArg]
  suffices (List.zipWith (fun x (am : ℕ × ℕ) => testDeriv x am.2 am.1) vars (List.zip a a)).prod = 1 by rw [this, mul_one]
  induction vars generalizing a with
  | nil => simp
  | cons v vars ih =>
    cases a with
    | nil => simp
    | cons i a => simp [testDeriv_self, ih]

theorem linearArg_le {vars : List K} {c : K} {a m : List ℕ} (ha : a.length = vars.length) (hm : m.length = vars.length)
    (h : linearArg vars c a m ≠ 0) : List.Forall₂ (· ≤ ·) a m := by
  have : (List.zipWith (fun x (am : ℕ × ℕ) => testDeriv x am.2 am.1) vars (List.zip a m)).prod ≠ 0 := by
    intro e
    rw [linearArg, e, mul_zero] at h
    exact h rfl
  clear h
  induction vars generalizing a m with
  | nil =>
    simp at ha hm
    subst ha hm
    exact .nil
  | cons v vars ih =>
    cases a with
    | nil => simp at ha
    | cons i a =>
      cases m with
      | nil => simp at hm
      | cons j m =>
        simp only [List.zip_cons_cons, List.zipWith_cons_cons, List.prod_cons] at this
        refine .cons ?_ (ih (by simpa using ha) (by simpa using hm) (right_ne_zero_of_mul this))
        by_contra hc
        exact left_ne_zero_of_mul this (testDeriv_lt v (by omega))

theorem lex_of_le : ∀ {a m : List ℕ}, List.Forall₂ (· ≤ ·) a m → a = m ∨ a < m
  | _, _, .nil => .inl rfl
  | _, _, .cons (a := i) (b := j) h hs => by
    rcases lex_of_le hs with e | h'
    · rcases Nat.lt_or_eq_of_le h with h | h
      · right; exact List.Lex.rel h
      · left; rw [e, h]
    · right
      rcases Nat.lt_or_eq_of_le h with h | h
      · exact List.Lex.rel h
      · subst h; exact List.Lex.cons h'

theorem product6_sorted : ∀ n, (product6 n).Pairwise (· < ·)
  | 0 => by simp [product6]
  | n + 1 => by
    rw [product6, List.pairwise_flatMap]
    constructor
    · intro i _
      rw [List.pairwise_map]
      exact (product6_sorted n).imp fun h => List.Lex.cons h
    · refine List.pairwise_lt_range.imp fun {i j} hij => ?_
      intro x hx y hy
      obtain ⟨a, -, rfl⟩ := List.mem_map.1 hx
      obtain ⟨b, -, rfl⟩ := List.mem_map.1 hy
      exact List.Lex.rel hij

theorem mem_product6 : ∀ {n : ℕ} {m : List ℕ}, m ∈ product6 n ↔ m.length = n ∧ ∀ x ∈ m, x < 6
  | 0, m => by
    simp only [product6, List.mem_singleton]
    constructor
    · rintro rfl; simp
    · rintro ⟨h, -⟩; exact List.length_eq_zero_iff.1 h
  | n + 1, m => by
    simp only [product6, List.mem_flatMap, List.mem_range, List.mem_map, mem_product6 (n := n)]
    constructor
    · rintro ⟨i, hi, a, ⟨h1, h2⟩, rfl⟩
      refine ⟨by simp [h1], ?_⟩
      intro x hx
      rcases List.mem_cons.1 hx with rfl | hx
      · exact hi
      · exact h2 x hx
    · rintro ⟨h1, h2⟩
      cases m with
      | nil => simp at h1
      | cons i a => exact ⟨i, h2 i (by simp), a, ⟨by simpa using h1, fun x hx => h2 x (by simp [hx])⟩, rfl⟩

theorem mem_mult {dim : ℕ} {m : List ℕ} : m ∈ mult dim ↔ m.length = dim ∧ m.sum ≤ 5 := by
  simp only [mult, List.mem_filter, mem_product6, decide_eq_true_eq]
  constructor
  · rintro ⟨⟨h, -⟩, h'⟩; exact ⟨h, h'⟩
  · rintro ⟨h, h'⟩
    refine ⟨⟨h, fun x hx => ?_⟩, h'⟩
    have := List.single_le_sum (by simp) x hx
    omega

theorem mult_sorted (dim : ℕ) : (mult dim).Pairwise (· < ·) := (product6_sorted dim).filter _

end Hermipy
