import Verif.Lemmas.Cube
import Verif.Lemmas.TripleHermite

/-! # The table of Hermite triple products -/

namespace Hermipy

open Spec

/-- Mean of a product of three normalised Hermite polynomials. -/
noncomputable def tau (k i j : Nat) : ℝ := gE (hp k * (hp i * hp j))

theorem tau_zero {k i j : Nat} (h : i + j < k ∨ k + i < j ∨ k + j < i) : tau k i j = 0 := gE3_zero h

theorem tau_symm (k i j : Nat) : tau k i j = tau k j i := by
  rw [tau, tau, mul_comm (hp i)]

theorem tau_first (k j : Nat) : tau k 0 j = if k = j then 1 else 0 := by
  rw [tau, hp_zero, one_mul, gE_hp]

theorem REC_A_pos (i : Nat) : 0 < REC_A i := by rw [REC_A]; positivity

theorem REC_A_div (i k : Nat) : REC_A i / REC_A k = √((k : ℝ) + 1) / √((i : ℝ) + 1) := by
  rw [REC_A, REC_A]
  have : √((k : ℝ) + 1) ≠ 0 := by positivity
  field_simp

theorem tau_rec (k i j : Nat) : tau k (i + 1) j =
    REC_A i / REC_A k * tau (k + 1) i j + -REC_B i * tau k (i - 1) j + REC_A i / REC_A k * REC_B k * tau (k - 1) i j := by
  have h := gE3_rec k i j
  have p : √((i : ℝ) + 1) ≠ 0 := by positivity
  have p' : √((k : ℝ) + 1) ≠ 0 := by positivity
  rw [REC_A_div, REC_B, REC_B]
  rw [show √((k : ℝ) + 1) / √((i : ℝ) + 1) * (√(k : ℝ) / √((k : ℝ) + 1)) = √(k : ℝ) / √((i : ℝ) + 1) by field_simp]
  simp only [tau]
  field_simp
  linarith

theorem triple_products_1d_tau (n : Nat) : triple_products_1d n = .ok (cubeOf (2 * n + 1) (n + 1) tau) := by
  rw [triple_products_1d, zeroCube_eq]
  obtain ⟨s, e, rfl⟩ := forFrom_inv (a := 0) (b := n + 1) (acc := cubeOf (2 * n + 1) (n + 1) fun _ _ _ => (0 : ℝ))
    (body := fun i products => wr3 products i 0 i 1)
    (fun m s => s = cubeOf (2 * n + 1) (n + 1) fun k i j => if i = 0 ∧ k = j ∧ k < m then 1 else 0) (by omega)
    (by congr 1; funext k i j; rw [if_neg (by omega)]) (by
      rintro i s - hi rfl
      rw [wr3_cubeOf (by omega) (by omega) (by omega)]
      refine ⟨_, rfl, ?_⟩
      congr 1
      funext k b c
      rw [upd]
      by_cases h : k = i ∧ b = 0 ∧ c = i
      · rw [if_pos h, if_pos (by omega)]
      · rw [if_neg h]
        by_cases h' : b = 0 ∧ k = c ∧ k < i
        · rw [if_pos h', if_pos (by omega)]
        · rw [if_neg h', if_neg (by omega)])
  rw [e, Out.ok_bind]
  clear e
  dsimp only
  rw [show (cubeOf (2 * n + 1) (n + 1) fun k i j => if i = 0 ∧ k = j ∧ k < n + 1 then (1 : ℝ) else 0) =
      cubeOf (2 * n + 1) (n + 1) fun k b c => if b < 1 ∧ b ≤ c then tau k b c else 0 from cubeOf_congr (by
        intro k i j hk hi hj
        by_cases h : i = 0
        · subst h
          rw [tau_first, if_pos (by omega : 0 < 1 ∧ 0 ≤ j)]
          by_cases h' : k = j
          · rw [if_pos (by omega), if_pos h']
          · rw [if_neg (by omega), if_neg h']
        · rw [if_neg (by omega), if_neg (by omega)])]
  obtain ⟨s, e, rfl⟩ := forFrom_inv (a := 1) (b := n + 1)
    (acc := cubeOf (2 * n + 1) (n + 1) fun k b c => if b < 1 ∧ b ≤ c then tau k b c else 0)
    (body := fun i products => do
      let ai ← rd ((List.range (2 * n + 1)).map REC_A) (i - 1)
      let bi ← rd ((List.range (2 * n + 1)).map REC_B) (i - 1)
      forFrom i (n + 1) products fun j products => do
        let products ← forFrom (max (j - i) 0) (j + i - 2 + 1) products fun k products => do
          let ak ← rd ((List.range (2 * n + 1)).map REC_A) k
          let x ← rd3 products (k + 1) (i - 1) j
          add3 products k i j (ai / ak * x)
        let products ← forFrom (max (j + 2 - i) 0) (j + i - 2 + 1) products fun k products => do
          let x ← if 2 ≤ i then rd3 products k (i - 2) j else .ub
          add3 products k i j (-bi * x)
        forFrom (max (j + 2 - i) 1) (i + j + 1) products fun k products => do
          let ak ← rd ((List.range (2 * n + 1)).map REC_A) k
          let bk ← rd ((List.range (2 * n + 1)).map REC_B) k
          let x ← rd3 products (k - 1) (i - 1) j
          add3 products k i j (ai / ak * bk * x))
    (fun i s => s = cubeOf (2 * n + 1) (n + 1) fun k b c => if b < i ∧ b ≤ c then tau k b c else 0) (by omega) rfl (by
      rintro i s h1 h2 rfl
      obtain ⟨i, rfl⟩ : ∃ i', i = i' + 1 := ⟨i - 1, by omega⟩
      simp only [Nat.add_sub_cancel]
      rw [rd_map_range _ (by omega), Out.ok_bind, rd_map_range _ (by omega), Out.ok_bind]
      obtain ⟨s, e, rfl⟩ := forFrom_inv (a := i + 1) (b := n + 1)
        (acc := cubeOf (2 * n + 1) (n + 1) fun k b c => if b < i + 1 ∧ b ≤ c then tau k b c else 0)
        (body := fun j products => do
          let products ← forFrom (max (j - (i + 1)) 0) (j + (i + 1) - 2 + 1) products fun k products => do
            let ak ← rd ((List.range (2 * n + 1)).map REC_A) k
            let x ← rd3 products (k + 1) i j
            add3 products k (i + 1) j (REC_A i / ak * x)
          let products ← forFrom (max (j + 2 - (i + 1)) 0) (j + (i + 1) - 2 + 1) products fun k products => do
            let x ← if 2 ≤ i + 1 then rd3 products k (i + 1 - 2) j else .ub
            add3 products k (i + 1) j (-REC_B i * x)
          forFrom (max (j + 2 - (i + 1)) 1) (i + 1 + j + 1) products fun k products => do
            let ak ← rd ((List.range (2 * n + 1)).map REC_A) k
            let bk ← rd ((List.range (2 * n + 1)).map REC_B) k
            let x ← rd3 products (k - 1) i j
            add3 products k (i + 1) j (REC_A i / ak * bk * x))
        (fun j s => s = cubeOf (2 * n + 1) (n + 1) fun k b c =>
          if (b < i + 1 ∧ b ≤ c) ∨ (b = i + 1 ∧ i + 1 ≤ c ∧ c < j) then tau k b c else 0) (by omega) (by
          congr 1; funext k b c
          by_cases h : b < i + 1 ∧ b ≤ c
          · rw [if_pos h, if_pos (Or.inl h)]
          · rw [if_neg h, if_neg (by omega)]) (by
          rintro j s h3 h4 rfl
          rw [kloop (i := i + 1) (j := j) (g := fun k => REC_A i / REC_A k * tau (k + 1) i j) (by omega) (by omega) (by omega) (by
            intro k f' h5 h6 hf
            rw [rd_map_range _ (by omega), Out.ok_bind, rd3_cubeOf (by omega) (by omega) (by omega), Out.ok_bind,
              hf _ _ _ (by omega), if_pos (by omega)]), Out.ok_bind]
          rw [kloop (i := i + 1) (j := j) (g := fun k => -REC_B i * tau k (i - 1) j) (by omega) (by omega) (by omega) (by
            intro k f' h5 h6 hf
            rw [if_pos (by omega), rd3_cubeOf (by omega) (by omega) (by omega), Out.ok_bind,
              hf _ _ _ (by omega), if_pos (by omega), if_neg (by omega), add_zero,
              show i + 1 - 2 = i - 1 by omega]), Out.ok_bind]
          rw [kloop (i := i + 1) (j := j) (g := fun k => REC_A i / REC_A k * REC_B k * tau (k - 1) i j) (by omega) (by omega) (by omega) (by
            intro k f' h5 h6 hf
            rw [rd_map_range _ (by omega), Out.ok_bind, rd_map_range _ (by omega), Out.ok_bind,
              rd3_cubeOf (by omega) (by omega) (by omega), Out.ok_bind,
              hf _ _ _ (by omega), if_pos (by omega), if_neg (by omega), if_neg (by omega), add_zero, add_zero])]
          refine ⟨_, rfl, cubeOf_congr ?_⟩
          intro k b c hk hb hc
          by_cases h : b = i + 1 ∧ c = j
          · obtain ⟨rfl, rfl⟩ := h
            rw [if_neg (by omega : ¬((i + 1 < i + 1 ∧ i + 1 ≤ c) ∨ (i + 1 = i + 1 ∧ i + 1 ≤ c ∧ c < c))),
              if_pos (by omega : (i + 1 < i + 1 ∧ i + 1 ≤ c) ∨ (i + 1 = i + 1 ∧ i + 1 ≤ c ∧ c < c + 1))]
            by_cases hr : c ≤ k + (i + 1) ∧ k ≤ c + (i + 1)
            · rw [tau_rec, zero_add]
              congr 1
              · congr 1
                · by_cases h5 : k < c + (i + 1) - 2 + 1
                  · rw [if_pos (by omega)]
                  · rw [if_neg (by omega), tau_zero (k := k + 1) (by omega), mul_zero]
                · by_cases h5 : c + 2 - (i + 1) ≤ k ∧ k < c + (i + 1) - 2 + 1
                  · rw [if_pos (by omega)]
                  · rw [if_neg (by omega)]
                    rcases Nat.eq_zero_or_pos i with rfl | hi
                    · simp [REC_B]
                    · rw [tau_zero (by omega), mul_zero]
              · by_cases h5 : c + 2 - (i + 1) ≤ k
                · rw [if_pos (by omega)]
                · rw [if_neg (by omega)]
                  rcases Nat.eq_zero_or_pos k with rfl | hk
                  · simp [REC_B]
                  · rw [tau_zero (by omega), mul_zero]
            · rw [if_neg (by omega), if_neg (by omega), if_neg (by omega), tau_zero (by omega)]
              simp
          · rw [if_neg (by omega : ¬(b = i + 1 ∧ c = j ∧ _)), if_neg (by omega : ¬(b = i + 1 ∧ c = j ∧ _)),
              if_neg (by omega : ¬(b = i + 1 ∧ c = j ∧ _)), add_zero, add_zero, add_zero]
            by_cases h6 : (b < i + 1 ∧ b ≤ c) ∨ (b = i + 1 ∧ i + 1 ≤ c ∧ c < j)
            · rw [if_pos h6, if_pos (by omega)]
            · rw [if_neg h6, if_neg (by omega)])
      refine ⟨_, e, cubeOf_congr ?_⟩
      intro k b c hk hb hc
      by_cases h : b < i + 1 + 1 ∧ b ≤ c
      · rw [if_pos h, if_pos (by omega)]
      · rw [if_neg h, if_neg (by omega)])
  rw [e, Out.ok_bind]
  clear e
  obtain ⟨s, e, rfl⟩ := forFrom_inv (a := 0) (b := n + 1)
    (acc := cubeOf (2 * n + 1) (n + 1) fun k b c => if b < n + 1 ∧ b ≤ c then tau k b c else 0)
    (body := fun i products => forFrom i (n + 1) products fun j products =>
      forFrom (j - i) (j + i + 1) products fun k products => do
        let x ← rd3 products k i j
        wr3 products k j i x)
    (fun i s => s = cubeOf (2 * n + 1) (n + 1) fun k b c => if b ≤ c ∨ c < i then tau k b c else 0) (by omega)
    (cubeOf_congr (by
      intro k b c hk hb hc
      by_cases h : b ≤ c
      · rw [if_pos (by omega), if_pos (by omega)]
      · rw [if_neg (by omega), if_neg (by omega)])) (by
      rintro i s - h2 rfl
      obtain ⟨s, e, rfl⟩ := forFrom_inv (a := i) (b := n + 1)
        (acc := cubeOf (2 * n + 1) (n + 1) fun k b c => if b ≤ c ∨ c < i then tau k b c else 0)
        (body := fun j products => forFrom (j - i) (j + i + 1) products fun k products => do
          let x ← rd3 products k i j
          wr3 products k j i x)
        (fun j s => s = cubeOf (2 * n + 1) (n + 1) fun k b c => if b ≤ c ∨ c < i ∨ (c = i ∧ b < j) then tau k b c else 0)
        (by omega) (by
          congr 1; funext k b c
          by_cases h : b ≤ c ∨ c < i
          · rw [if_pos h, if_pos (by omega)]
          · rw [if_neg h, if_neg (by omega)]) (by
          rintro j s h3 h4 rfl
          obtain ⟨s, e, rfl⟩ := forFrom_inv (a := j - i) (b := j + i + 1)
            (acc := cubeOf (2 * n + 1) (n + 1) fun k b c => if b ≤ c ∨ c < i ∨ (c = i ∧ b < j) then tau k b c else 0)
            (body := fun k products => do
              let x ← rd3 products k i j
              wr3 products k j i x)
            (fun k' s => s = cubeOf (2 * n + 1) (n + 1) fun k b c =>
              if b ≤ c ∨ c < i ∨ (c = i ∧ b < j) ∨ (c = i ∧ b = j ∧ j - i ≤ k ∧ k < k') then tau k b c else 0)
            (by omega) (by
              congr 1; funext k b c
              by_cases h : b ≤ c ∨ c < i ∨ (c = i ∧ b < j)
              · rw [if_pos h, if_pos (by omega)]
              · rw [if_neg h, if_neg (by omega)]) (by
              rintro k s h5 h6 rfl
              rw [rd3_cubeOf (by omega) (by omega) (by omega), Out.ok_bind, if_pos (by omega),
                wr3_cubeOf (by omega) (by omega) (by omega)]
              refine ⟨_, rfl, ?_⟩
              congr 1
              funext a b c
              rw [upd]
              by_cases h : a = k ∧ b = j ∧ c = i
              · obtain ⟨rfl, rfl, rfl⟩ := h
                rw [if_pos ⟨rfl, rfl, rfl⟩, if_pos (by omega), tau_symm]
              · rw [if_neg h]
                by_cases h7 : b ≤ c ∨ c < i ∨ (c = i ∧ b < j) ∨ (c = i ∧ b = j ∧ j - i ≤ a ∧ a < k)
                · rw [if_pos h7, if_pos (by omega)]
                · rw [if_neg h7, if_neg (by omega)])
          refine ⟨_, e, cubeOf_congr ?_⟩
          intro k b c hk hb hc
          by_cases h : b ≤ c ∨ c < i ∨ (c = i ∧ b < j) ∨ (c = i ∧ b = j ∧ j - i ≤ k ∧ k < j + i + 1)
          · rw [if_pos h, if_pos (by omega)]
          · rw [if_neg h]
            by_cases h8 : b ≤ c ∨ c < i ∨ (c = i ∧ b < j + 1)
            · rw [if_pos h8, tau_zero (by omega)]
            · rw [if_neg h8])
      refine ⟨_, e, cubeOf_congr ?_⟩
      intro k b c hk hb hc
      by_cases h : b ≤ c ∨ c < i ∨ (c = i ∧ b < n + 1)
      · rw [if_pos h, if_pos (by omega)]
      · rw [if_neg h, if_neg (by omega)])
  rw [e]
  congr 1
  exact cubeOf_congr (by intro k b c hk hb hc; rw [if_pos (by omega)])

theorem triple_products_1d_ok (n : Nat) : triple_products_1d n = .ok (cubeOf (2 * n + 1) (n + 1) (triple 0)) := by
  rw [triple_products_1d_tau]
  congr 2
  funext k i j
  rw [triple_herm 0 k i j (by omega), tau]

end Hermipy
