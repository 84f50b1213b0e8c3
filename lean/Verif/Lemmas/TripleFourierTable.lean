import Verif.Lemmas.Cube
import Verif.Lemmas.TripleFourier

/-! # The table of Fourier triple products -/

namespace Hermipy

open Spec

theorem norm_two : Real.pi / (√(2 * Real.pi) * Real.pi) = 1 / √(2 * Real.pi) := by
  have := Real.pi_ne_zero
  field_simp

theorem norm_one : Real.pi / 2 / (√Real.pi * Real.pi) = 1 / (2 * √Real.pi) := by
  have := Real.pi_ne_zero
  field_simp

theorem norm_one_neg : -Real.pi / 2 / (√Real.pi * Real.pi) = -(1 / (2 * √Real.pi)) := by
  have := Real.pi_ne_zero
  field_simp

theorem cmp_pos {p q : Nat} (h : q < p) : Real.pi / 2 * cmpSign p q / (√Real.pi * Real.pi) = 1 / (2 * √Real.pi) := by
  rw [cmpSign, if_pos h, if_neg (by omega), sub_zero, mul_one, norm_one]

theorem cmp_neg {p q : Nat} (h : p < q) : Real.pi / 2 * cmpSign p q / (√Real.pi * Real.pi) = -(1 / (2 * √Real.pi)) := by
  rw [cmpSign, if_neg (by omega), if_pos h, zero_sub, mul_neg, mul_one, neg_div, norm_one]

/-- Entries `(i, j)` written after the outer loop has passed the wave numbers up to `K`. -/
def Done (K i j : Nat) : Prop := i ≤ 2 * K ∧ (1 ≤ i ∨ j ≤ 2 * K)

/-- Entries written within the pass for wave number `a` before the inner loop reaches `b`. -/
def DoneIn (a b i j : Nat) : Prop :=
  (i + 2 ≤ 2 * a ∧ 1 ≤ i) ∨ (i = 0 ∧ j ≤ 2 * a) ∨ ((i = 2 * a ∨ i + 1 = 2 * a) ∧ (j + 2 ≤ 2 * b ∨ j = 2 * a ∨ j + 1 = 2 * a))

instance (K i j : Nat) : Decidable (Done K i j) := by unfold Done; infer_instance
instance (a b i j : Nat) : Decidable (DoneIn a b i j) := by unfold DoneIn; infer_instance

theorem fourier_inner {n a b : Nat} (hn : n % 2 = 0) (ha : 1 ≤ a) (ha' : a ≤ n / 2) (hb : 1 ≤ b) (hb' : b ≤ n / 2)
    (hab : a ≠ b) :
    (do
      let products ← wr3 (cubeOf (2 * n + 1) (n + 1) fun k i j => if DoneIn a b i j then four k i j else 0)
        (COS (a + b)) (COS a) (COS b) (Real.pi / 2 / (√Real.pi * Real.pi))
      let products ← wr3 products (COS (max a b - min a b)) (COS a) (COS b) (Real.pi / 2 / (√Real.pi * Real.pi))
      let products ← wr3 products (COS (a + b)) (SIN a) (SIN b) (-Real.pi / 2 / (√Real.pi * Real.pi))
      let products ← wr3 products (COS (max a b - min a b)) (SIN a) (SIN b) (Real.pi / 2 / (√Real.pi * Real.pi))
      let products ← wr3 products (SIN (a + b)) (COS a) (SIN b) (Real.pi / 2 / (√Real.pi * Real.pi))
      let products ← wr3 products (SIN (a + b)) (SIN a) (COS b) (Real.pi / 2 / (√Real.pi * Real.pi))
      let products ← wr3 products (SIN (max a b - min a b)) (COS a) (SIN b)
        (Real.pi / 2 * cmpSign b a / (√Real.pi * Real.pi))
      wr3 products (SIN (max a b - min a b)) (SIN a) (COS b) (Real.pi / 2 * cmpSign a b / (√Real.pi * Real.pi))) =
    .ok (cubeOf (2 * n + 1) (n + 1) fun k i j => if DoneIn a (b + 1) i j then four k i j else 0) := by
  simp only [COS, SIN]
  rw [wr3_cubeOf (by omega) (by omega) (by omega), Out.ok_bind, wr3_cubeOf (by omega) (by omega) (by omega), Out.ok_bind,
    wr3_cubeOf (by omega) (by omega) (by omega), Out.ok_bind, wr3_cubeOf (by omega) (by omega) (by omega), Out.ok_bind,
    wr3_cubeOf (by omega) (by omega) (by omega), Out.ok_bind, wr3_cubeOf (by omega) (by omega) (by omega), Out.ok_bind,
    wr3_cubeOf (by omega) (by omega) (by omega), Out.ok_bind, wr3_cubeOf (by omega) (by omega) (by omega)]
  congr 1
  refine cubeOf_congr fun k i j _ _ _ => ?_
  simp only [upd, norm_one, norm_one_neg]
  by_cases h1 : i = 2 * a ∧ j = 2 * b
  · obtain ⟨rfl, rfl⟩ := h1
    rw [if_pos (by unfold DoneIn; omega : DoneIn a (b + 1) (2 * a) (2 * b)), four_cc ha hb, fcc, if_neg hab]
    rw [if_neg (by omega), if_neg (by omega), if_neg (by omega), if_neg (by omega), if_neg (by omega), if_neg (by omega),
      if_neg (by unfold DoneIn; omega : ¬DoneIn a b (2 * a) (2 * b))]
    by_cases hs : k = 2 * (a + b)
    · rw [if_neg (by omega), if_pos (by omega), if_pos (by omega), if_neg (by omega), add_zero]
    · rw [if_neg hs, zero_add]
      by_cases hd : k = 2 * (a - b + (b - a))
      · rw [if_pos hd, if_pos (by omega)]
      · rw [if_neg hd, if_neg (by omega), if_neg (by omega)]
  · by_cases h2 : i = 2 * a - 1 ∧ j = 2 * b - 1
    · obtain ⟨rfl, rfl⟩ := h2
      rw [if_pos (by unfold DoneIn; omega : DoneIn a (b + 1) (2 * a - 1) (2 * b - 1)), four_ss ha hb, fss, if_neg hab]
      rw [if_neg (by omega), if_neg (by omega), if_neg (by omega), if_neg (by omega)]
      by_cases hs : k = 2 * (a + b)
      · rw [if_neg (by omega), if_pos (by omega), if_pos (by omega), if_neg (by omega), add_zero]
      · rw [if_neg hs, zero_add]
        by_cases hd : k = 2 * (a - b + (b - a))
        · rw [if_pos hd, if_pos (by omega)]
        · rw [if_neg hd, if_neg (by omega), if_neg (by omega), if_neg (by omega), if_neg (by omega),
            if_neg (by unfold DoneIn; omega)]
    · by_cases h3 : i = 2 * a ∧ j = 2 * b - 1
      · obtain ⟨rfl, rfl⟩ := h3
        rw [if_pos (by unfold DoneIn; omega : DoneIn a (b + 1) (2 * a) (2 * b - 1)), four_cs ha hb, fcs]
        rw [if_neg (by omega)]
        by_cases hs : k = 2 * (a + b) - 1
        · rw [if_neg (by omega), if_neg (by omega), if_pos (by omega), if_pos hs]
          rcases Nat.lt_or_ge a b with hl | hl
          · rw [if_pos hl, if_neg (by omega), add_zero]
          · rw [if_neg (by omega), if_pos (by omega), if_neg (by omega), add_zero]
        · rw [if_neg hs, zero_add]
          rcases Nat.lt_or_ge a b with hl | hl
          · rw [if_pos hl, cmp_pos hl]
            by_cases hd : k = 2 * (b - a) - 1
            · rw [if_pos hd, if_pos (by omega)]
            · rw [if_neg hd, if_neg (by omega), if_neg (by omega), if_neg (by omega), if_neg (by omega), if_neg (by omega),
                if_neg (by omega), if_neg (by omega), if_neg (by unfold DoneIn; omega)]
          · rw [if_neg (by omega : ¬ a < b), if_pos (by omega : b < a), cmp_neg (by omega)]
            by_cases hd : k = 2 * (a - b) - 1
            · rw [if_pos hd, if_pos (by omega)]
            · rw [if_neg hd, if_neg (by omega), if_neg (by omega), if_neg (by omega), if_neg (by omega), if_neg (by omega),
                if_neg (by omega), if_neg (by omega), if_neg (by unfold DoneIn; omega)]
      · by_cases h4 : i = 2 * a - 1 ∧ j = 2 * b
        · obtain ⟨rfl, rfl⟩ := h4
          rw [if_pos (by unfold DoneIn; omega : DoneIn a (b + 1) (2 * a - 1) (2 * b)), four_sc ha hb, fcs]
          by_cases hs : k = 2 * (a + b) - 1
          · rw [if_neg (by omega), if_neg (by omega), if_pos (by omega), if_pos (by omega)]
            rcases Nat.lt_or_ge b a with hl | hl
            · rw [if_pos hl, if_neg (by omega), add_zero]
            · rw [if_neg (by omega), if_pos (by omega), if_neg (by omega), add_zero]
          · rw [if_neg (by omega : ¬ k = 2 * (b + a) - 1), zero_add]
            rcases Nat.lt_or_ge b a with hl | hl
            · rw [if_pos hl, cmp_pos hl]
              by_cases hd : k = 2 * (a - b) - 1
              · rw [if_pos hd, if_pos (by omega)]
              · rw [if_neg hd, if_neg (by omega), if_neg (by omega), if_neg (by omega), if_neg (by omega), if_neg (by omega),
                  if_neg (by omega), if_neg (by omega), if_neg (by omega), if_neg (by unfold DoneIn; omega)]
            · rw [if_neg (by omega : ¬ b < a), if_pos (by omega : a < b), cmp_neg (by omega)]
              by_cases hd : k = 2 * (b - a) - 1
              · rw [if_pos hd, if_pos (by omega)]
              · rw [if_neg hd, if_neg (by omega), if_neg (by omega), if_neg (by omega), if_neg (by omega), if_neg (by omega),
                  if_neg (by omega), if_neg (by omega), if_neg (by omega), if_neg (by unfold DoneIn; omega)]
        · rw [if_neg (by omega), if_neg (by omega), if_neg (by omega), if_neg (by omega), if_neg (by omega), if_neg (by omega),
            if_neg (by omega), if_neg (by omega)]
          by_cases h5 : DoneIn a b i j
          · rw [if_pos h5, if_pos (by unfold DoneIn at *; omega)]
          · rw [if_neg h5, if_neg (by unfold DoneIn at *; omega)]

theorem fourier_outer {n a : Nat} (hn : n % 2 = 0) (ha : 1 ≤ a) (ha' : a ≤ n / 2)
    (rest : List (List (List ℝ)) → Out (List (List (List ℝ)))) :
    (do
      let products ← wr3 (cubeOf (2 * n + 1) (n + 1) fun k i j => if Done (a - 1) i j then four k i j else 0)
        (COS a) (COS 0) (COS a) (Real.pi / (√(2 * Real.pi) * Real.pi))
      let products ← wr3 products (SIN a) (COS 0) (SIN a) (Real.pi / (√(2 * Real.pi) * Real.pi))
      let products ← wr3 products (COS a) (COS a) (COS 0) (Real.pi / (√(2 * Real.pi) * Real.pi))
      let products ← wr3 products (SIN a) (SIN a) (COS 0) (Real.pi / (√(2 * Real.pi) * Real.pi))
      let products ← wr3 products (COS 0) (COS a) (COS a) (Real.pi / (√(2 * Real.pi) * Real.pi))
      let products ← wr3 products (COS 0) (SIN a) (SIN a) (Real.pi / (√(2 * Real.pi) * Real.pi))
      let products ← wr3 products (COS (2 * a)) (COS a) (COS a) (Real.pi / 2 / (√Real.pi * Real.pi))
      let products ← wr3 products (COS (2 * a)) (SIN a) (SIN a) (-Real.pi / 2 / (√Real.pi * Real.pi))
      let products ← wr3 products (SIN (2 * a)) (COS a) (SIN a) (Real.pi / 2 / (√Real.pi * Real.pi))
      let products ← wr3 products (SIN (2 * a)) (SIN a) (COS a) (Real.pi / 2 / (√Real.pi * Real.pi))
      rest products) =
    rest (cubeOf (2 * n + 1) (n + 1) fun k i j => if DoneIn a 1 i j then four k i j else 0) := by
  simp only [COS, SIN]
  rw [wr3_cubeOf (by omega) (by omega) (by omega), Out.ok_bind, wr3_cubeOf (by omega) (by omega) (by omega), Out.ok_bind,
    wr3_cubeOf (by omega) (by omega) (by omega), Out.ok_bind, wr3_cubeOf (by omega) (by omega) (by omega), Out.ok_bind,
    wr3_cubeOf (by omega) (by omega) (by omega), Out.ok_bind, wr3_cubeOf (by omega) (by omega) (by omega), Out.ok_bind,
    wr3_cubeOf (by omega) (by omega) (by omega), Out.ok_bind, wr3_cubeOf (by omega) (by omega) (by omega), Out.ok_bind,
    wr3_cubeOf (by omega) (by omega) (by omega), Out.ok_bind, wr3_cubeOf (by omega) (by omega) (by omega), Out.ok_bind]
  congr 1
  refine cubeOf_congr fun k i j _ _ _ => ?_
  simp only [upd, norm_two, norm_one, norm_one_neg]
  by_cases h0 : i = 0
  · subst h0
    rw [four_zero_left, if_neg (by omega), if_neg (by omega), if_neg (by omega), if_neg (by omega), if_neg (by omega),
      if_neg (by omega), if_neg (by omega), if_neg (by omega)]
    by_cases hj : j = 2 * a
    · subst hj
      rw [if_neg (by omega), if_pos (by unfold DoneIn; omega : DoneIn a 1 0 (2 * a)),
        if_neg (by unfold Done; omega : ¬ Done (a - 1) 0 (2 * a))]
      by_cases hk : k = 2 * a
      · rw [if_pos (by omega), if_pos hk]
      · rw [if_neg (by omega), if_neg hk]
    · by_cases hj' : j = 2 * a - 1
      · subst hj'
        rw [if_pos (by unfold DoneIn; omega : DoneIn a 1 0 (2 * a - 1)),
          if_neg (by unfold Done; omega : ¬ Done (a - 1) 0 (2 * a - 1))]
        by_cases hk : k = 2 * a - 1
        · rw [if_pos (by omega), if_pos hk]
        · rw [if_neg (by omega), if_neg (by omega), if_neg hk]
      · rw [if_neg (by omega), if_neg (by omega)]
        by_cases hD : Done (a - 1) 0 j
        · rw [if_pos hD, if_pos (by unfold DoneIn; unfold Done at hD; omega : DoneIn a 1 0 j)]
        · rw [if_neg hD, if_neg (by unfold DoneIn; unfold Done at hD; omega)]
  · by_cases hc : i = 2 * a
    · subst hc
      by_cases j0 : j = 0
      · subst j0
        rw [four_zero_right, if_pos (by unfold DoneIn; omega : DoneIn a 1 (2 * a) 0), if_neg (by omega), if_neg (by omega),
          if_neg (by omega), if_neg (by omega), if_neg (by omega), if_neg (by omega), if_neg (by omega)]
        by_cases hk : k = 2 * a
        · rw [if_pos (by omega), if_pos hk]
        · rw [if_neg (by omega), if_neg (by omega), if_neg (by omega), if_neg (by unfold Done; omega), if_neg hk]
      · by_cases jc : j = 2 * a
        · subst jc
          rw [four_cc ha ha, fcc, if_pos rfl, if_pos (by unfold DoneIn; omega : DoneIn a 1 (2 * a) (2 * a)),
            if_neg (by omega), if_neg (by omega), if_neg (by omega)]
          by_cases hk : k = 2 * (a + a)
          · rw [if_pos (by omega), if_pos hk, if_neg (by omega), add_zero]
          · rw [if_neg (by omega), if_neg (by omega), if_neg hk, zero_add]
            by_cases hk' : k = 0
            · rw [if_pos (by omega), if_pos hk']
            · rw [if_neg (by omega), if_neg (by omega), if_neg (by omega), if_neg (by omega), if_neg (by omega),
                if_neg (by unfold Done; omega), if_neg hk']
        · by_cases js : j = 2 * a - 1
          · subst js
            rw [four_cs ha ha, fcs, if_neg (by omega : ¬ a < a), if_neg (by omega : ¬ a < a), add_zero,
              if_pos (by unfold DoneIn; omega : DoneIn a 1 (2 * a) (2 * a - 1)), if_neg (by omega)]
            by_cases hk : k = 2 * (a + a) - 1
            · rw [if_pos (by omega), if_pos hk]
            · rw [if_neg (by omega), if_neg (by omega), if_neg (by omega), if_neg (by omega), if_neg (by omega),
                if_neg (by omega), if_neg (by omega), if_neg (by omega), if_neg (by omega), if_neg (by unfold Done; omega),
                if_neg hk]
          · rw [if_neg (by omega), if_neg (by omega), if_neg (by omega), if_neg (by omega), if_neg (by omega),
              if_neg (by omega), if_neg (by omega), if_neg (by omega), if_neg (by omega), if_neg (by omega),
              if_neg (by unfold Done; omega), if_neg (by unfold DoneIn; omega)]
    · by_cases hs : i = 2 * a - 1
      · subst hs
        by_cases j0 : j = 0
        · subst j0
          rw [four_zero_right, if_pos (by unfold DoneIn; omega : DoneIn a 1 (2 * a - 1) 0), if_neg (by omega), if_neg (by omega),
            if_neg (by omega), if_neg (by omega), if_neg (by omega), if_neg (by omega)]
          by_cases hk : k = 2 * a - 1
          · rw [if_pos (by omega), if_pos hk]
          · rw [if_neg (by omega), if_neg (by omega), if_neg (by omega), if_neg (by omega), if_neg (by unfold Done; omega),
              if_neg hk]
        · by_cases jc : j = 2 * a
          · subst jc
            rw [four_sc ha ha, fcs, if_neg (by omega : ¬ a < a), if_neg (by omega : ¬ a < a), add_zero,
              if_pos (by unfold DoneIn; omega : DoneIn a 1 (2 * a - 1) (2 * a))]
            by_cases hk : k = 2 * (a + a) - 1
            · rw [if_pos (by omega), if_pos hk]
            · rw [if_neg (by omega), if_neg (by omega), if_neg (by omega), if_neg (by omega), if_neg (by omega),
                if_neg (by omega), if_neg (by omega), if_neg (by omega), if_neg (by omega), if_neg (by omega),
                if_neg (by unfold Done; omega), if_neg hk]
          · by_cases js : j = 2 * a - 1
            · subst js
              rw [four_ss ha ha, fss, if_pos rfl, if_pos (by unfold DoneIn; omega : DoneIn a 1 (2 * a - 1) (2 * a - 1)),
                if_neg (by omega), if_neg (by omega)]
              by_cases hk : k = 2 * (a + a)
              · rw [if_pos (by omega), if_pos hk, if_neg (by omega), add_zero]
              · rw [if_neg (by omega), if_neg (by omega), if_neg hk, zero_add]
                by_cases hk' : k = 0
                · rw [if_pos (by omega), if_pos hk']
                · rw [if_neg (by omega), if_neg (by omega), if_neg (by omega), if_neg (by omega), if_neg (by omega),
                    if_neg (by omega), if_neg (by unfold Done; omega), if_neg hk']
            · rw [if_neg (by omega), if_neg (by omega), if_neg (by omega), if_neg (by omega), if_neg (by omega),
                if_neg (by omega), if_neg (by omega), if_neg (by omega), if_neg (by omega), if_neg (by omega),
                if_neg (by unfold Done; omega), if_neg (by unfold DoneIn; omega)]
      · rw [if_neg (by omega), if_neg (by omega), if_neg (by omega), if_neg (by omega), if_neg (by omega),
          if_neg (by omega), if_neg (by omega), if_neg (by omega), if_neg (by omega), if_neg (by omega)]
        by_cases hD : Done (a - 1) i j
        · rw [if_pos hD, if_pos (by unfold DoneIn; unfold Done at hD; omega)]
        · rw [if_neg hD, if_neg (by unfold DoneIn; unfold Done at hD; omega)]

theorem triple_products_fourier_four {n : Nat} (hn : n % 2 = 0) :
    triple_products_fourier n = .ok (cubeOf (2 * n + 1) (n + 1) four) := by
  rw [triple_products_fourier, zeroCube_eq]
  dsimp only
  rw [if_neg (by omega), wr3_cubeOf (by simp [COS]) (by simp [COS]) (by simp [COS]), Out.ok_bind]
  have e0 : cubeOf (2 * n + 1) (n + 1) (upd (fun _ _ _ => 0) (COS 0) (COS 0) (COS 0)
      (2 * Real.pi / (√(2 * Real.pi) * (2 * Real.pi)))) =
      cubeOf (2 * n + 1) (n + 1) fun k i j => if Done 0 i j then four k i j else 0 := by
    rw [show COS 0 = 0 from rfl]
    refine cubeOf_congr fun k i j _ _ _ => ?_
    have hp := Real.pi_ne_zero
    rw [show 2 * Real.pi / (√(2 * Real.pi) * (2 * Real.pi)) = 1 / √(2 * Real.pi) by field_simp]
    simp only [upd]
    by_cases hD : Done 0 i j
    · obtain ⟨rfl, rfl⟩ : i = 0 ∧ j = 0 := by unfold Done at hD; omega
      rw [if_pos hD, four_zero_left]
      by_cases hk : k = 0
      · rw [if_pos (by omega), if_pos hk]
      · rw [if_neg (by omega), if_neg hk]
    · rw [if_neg hD, if_neg]
      unfold Done at hD
      omega
  rw [e0]
  obtain ⟨s, e, rfl⟩ := forFrom_inv (a := 1) (b := n / 2 + 1)
    (acc := cubeOf (2 * n + 1) (n + 1) fun k i j => if Done 0 i j then four k i j else 0)
    (body := fun k2 products => do
      let products ← wr3 products (COS k2) (COS 0) (COS k2) (Real.pi / (√(2 * Real.pi) * Real.pi))
      let products ← wr3 products (SIN k2) (COS 0) (SIN k2) (Real.pi / (√(2 * Real.pi) * Real.pi))
      let products ← wr3 products (COS k2) (COS k2) (COS 0) (Real.pi / (√(2 * Real.pi) * Real.pi))
      let products ← wr3 products (SIN k2) (SIN k2) (COS 0) (Real.pi / (√(2 * Real.pi) * Real.pi))
      let products ← wr3 products (COS 0) (COS k2) (COS k2) (Real.pi / (√(2 * Real.pi) * Real.pi))
      let products ← wr3 products (COS 0) (SIN k2) (SIN k2) (Real.pi / (√(2 * Real.pi) * Real.pi))
      let products ← wr3 products (COS (2 * k2)) (COS k2) (COS k2) (Real.pi / 2 / (√Real.pi * Real.pi))
      let products ← wr3 products (COS (2 * k2)) (SIN k2) (SIN k2) (-Real.pi / 2 / (√Real.pi * Real.pi))
      let products ← wr3 products (SIN (2 * k2)) (COS k2) (SIN k2) (Real.pi / 2 / (√Real.pi * Real.pi))
      let products ← wr3 products (SIN (2 * k2)) (SIN k2) (COS k2) (Real.pi / 2 / (√Real.pi * Real.pi))
      forFrom 1 (n / 2 + 1) products fun k3 products =>
        if k2 = k3 then .ok products
        else do
          let products ← wr3 products (COS (k2 + k3)) (COS k2) (COS k3) (Real.pi / 2 / (√Real.pi * Real.pi))
          let products ← wr3 products (COS (max k2 k3 - min k2 k3)) (COS k2) (COS k3) (Real.pi / 2 / (√Real.pi * Real.pi))
          let products ← wr3 products (COS (k2 + k3)) (SIN k2) (SIN k3) (-Real.pi / 2 / (√Real.pi * Real.pi))
          let products ← wr3 products (COS (max k2 k3 - min k2 k3)) (SIN k2) (SIN k3) (Real.pi / 2 / (√Real.pi * Real.pi))
          let products ← wr3 products (SIN (k2 + k3)) (COS k2) (SIN k3) (Real.pi / 2 / (√Real.pi * Real.pi))
          let products ← wr3 products (SIN (k2 + k3)) (SIN k2) (COS k3) (Real.pi / 2 / (√Real.pi * Real.pi))
          let products ← wr3 products (SIN (max k2 k3 - min k2 k3)) (COS k2) (SIN k3)
            (Real.pi / 2 * cmpSign k3 k2 / (√Real.pi * Real.pi))
          wr3 products (SIN (max k2 k3 - min k2 k3)) (SIN k2) (COS k3)
            (Real.pi / 2 * cmpSign k2 k3 / (√Real.pi * Real.pi)))
    (fun a s => s = cubeOf (2 * n + 1) (n + 1) fun k i j => if Done (a - 1) i j then four k i j else 0) (by omega) rfl (by
      rintro a s h1 h2 rfl
      rw [fourier_outer hn h1 (by omega)]
      obtain ⟨s, e, rfl⟩ := forFrom_inv (a := 1) (b := n / 2 + 1)
        (acc := cubeOf (2 * n + 1) (n + 1) fun k i j => if DoneIn a 1 i j then four k i j else 0)
        (body := fun k3 products =>
          if a = k3 then .ok products
          else do
            let products ← wr3 products (COS (a + k3)) (COS a) (COS k3) (Real.pi / 2 / (√Real.pi * Real.pi))
            let products ← wr3 products (COS (max a k3 - min a k3)) (COS a) (COS k3) (Real.pi / 2 / (√Real.pi * Real.pi))
            let products ← wr3 products (COS (a + k3)) (SIN a) (SIN k3) (-Real.pi / 2 / (√Real.pi * Real.pi))
            let products ← wr3 products (COS (max a k3 - min a k3)) (SIN a) (SIN k3) (Real.pi / 2 / (√Real.pi * Real.pi))
            let products ← wr3 products (SIN (a + k3)) (COS a) (SIN k3) (Real.pi / 2 / (√Real.pi * Real.pi))
            let products ← wr3 products (SIN (a + k3)) (SIN a) (COS k3) (Real.pi / 2 / (√Real.pi * Real.pi))
            let products ← wr3 products (SIN (max a k3 - min a k3)) (COS a) (SIN k3)
              (Real.pi / 2 * cmpSign k3 a / (√Real.pi * Real.pi))
            wr3 products (SIN (max a k3 - min a k3)) (SIN a) (COS k3)
              (Real.pi / 2 * cmpSign a k3 / (√Real.pi * Real.pi)))
        (fun b s => s = cubeOf (2 * n + 1) (n + 1) fun k i j => if DoneIn a b i j then four k i j else 0) (by omega) rfl (by
          rintro b s h3 h4 rfl
          by_cases hab : a = b
          · rw [if_pos hab]
            refine ⟨_, rfl, cubeOf_congr fun k i j _ _ _ => ?_⟩
            by_cases h5 : DoneIn a b i j
            · rw [if_pos h5, if_pos (by unfold DoneIn at *; omega)]
            · rw [if_neg h5, if_neg (by unfold DoneIn at *; omega)]
          · rw [if_neg hab]
            exact ⟨_, fourier_inner hn h1 (by omega) h3 (by omega) hab, rfl⟩)
      refine ⟨_, e, cubeOf_congr fun k i j _ _ _ => ?_⟩
      by_cases h5 : DoneIn a (n / 2 + 1) i j
      · rw [if_pos h5, if_pos (by unfold DoneIn at h5; unfold Done; omega)]
      · rw [if_neg h5, if_neg (by unfold DoneIn at h5; unfold Done; omega)])
  rw [e]
  congr 1
  refine cubeOf_congr fun k i j _ _ _ => ?_
  rw [if_pos (by unfold Done; omega)]

theorem triple_products_fourier_ok {n : Nat} (hn : n % 2 = 0) :
    triple_products_fourier n = .ok (cubeOf (2 * n + 1) (n + 1) (triple 1)) := by
  rw [triple_products_fourier_four hn]
  congr 2
  funext k i j
  rw [triple_four]

theorem triple_products_fourier_odd {n : Nat} (hn : n % 2 = 1) : triple_products_fourier n = .exit 1 := by
  rw [triple_products_fourier]
  dsimp only
  rw [if_pos hn]

end Hermipy
