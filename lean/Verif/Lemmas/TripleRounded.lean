import Verif.Model.RoundedVarf
import Verif.Lemmas.Cube

/-! # The table of Hermite triple products over floating-point numbers -/

namespace Hermipy

variable {α : Type} [Doubles α]

/-- The entries `(k, i, j)`, `i ≤ j`, of the table. -/
def tF : Nat → Nat → Nat → α
  | k, 0, j => if k = j then 1 else 0
  | k, 1, j =>
    let x : α := if j ≤ k + 1 ∧ k < j then 0 + recA 0 / recA k * tF (k + 1) 0 j else 0
    if j + 1 ≤ k ∧ 1 ≤ k ∧ k ≤ j + 1 then x + recA 0 / recA k * recB k * tF (k - 1) 0 j else x
  | k, i + 2, j =>
    let x : α := if j ≤ k + (i + 2) ∧ k ≤ j + i then 0 + recA (i + 1) / recA k * tF (k + 1) (i + 1) j else 0
    let y : α := if j ≤ k + i ∧ k ≤ j + i then x + -recB (i + 1) * tF k i j else x
    if j ≤ k + i ∧ 1 ≤ k ∧ k ≤ j + (i + 2) then y + recA (i + 1) / recA k * recB k * tF (k - 1) (i + 1) j else y

theorem tF_one (k j : Nat) : tF (α := α) k 1 j =
    if j + 1 ≤ k ∧ 1 ≤ k ∧ k ≤ j + 1 then
      (if j ≤ k + 1 ∧ k < j then 0 + recA 0 / recA k * tF (k + 1) 0 j else 0) + recA 0 / recA k * recB k * tF (k - 1) 0 j
    else if j ≤ k + 1 ∧ k < j then 0 + recA 0 / recA k * tF (k + 1) 0 j else 0 := by
  conv_lhs => rw [tF]

theorem tF_two (k i j : Nat) : tF (α := α) k (i + 2) j =
    if j ≤ k + i ∧ 1 ≤ k ∧ k ≤ j + (i + 2) then
      (if j ≤ k + i ∧ k ≤ j + i then
        (if j ≤ k + (i + 2) ∧ k ≤ j + i then 0 + recA (i + 1) / recA k * tF (k + 1) (i + 1) j else 0) + -recB (i + 1) * tF k i j
      else if j ≤ k + (i + 2) ∧ k ≤ j + i then 0 + recA (i + 1) / recA k * tF (k + 1) (i + 1) j else 0) +
        recA (i + 1) / recA k * recB k * tF (k - 1) (i + 1) j
    else if j ≤ k + i ∧ k ≤ j + i then
      (if j ≤ k + (i + 2) ∧ k ≤ j + i then 0 + recA (i + 1) / recA k * tF (k + 1) (i + 1) j else 0) + -recB (i + 1) * tF k i j
    else if j ≤ k + (i + 2) ∧ k ≤ j + i then 0 + recA (i + 1) / recA k * tF (k + 1) (i + 1) j else 0 := by
  conv_lhs => rw [tF]

/-- The table. -/
def tauF (k i j : Nat) : α := tF k (min i j) (max i j)

theorem tauF_first (k j : Nat) : tauF (α := α) k 0 j = if k = j then 1 else 0 := by
  rw [tauF, Nat.zero_min, Nat.zero_max, tF]

theorem tauF_symm (k i j : Nat) : tauF (α := α) k i j = tauF k j i := by
  rw [tauF, tauF, min_comm, max_comm]

theorem tF_zero {k i j : Nat} (h : i + j < k ∨ k + i < j) : tF (α := α) k i j = 0 := by
  match i with
  | 0 => rw [tF, if_neg (by omega)]
  | 1 => rw [tF, if_neg (by omega), if_neg (by omega)]
  | i + 2 => rw [tF, if_neg (by omega), if_neg (by omega), if_neg (by omega)]

theorem tF_odd : ∀ i k j : Nat, (k + i + j) % 2 = 1 → tF (α := α) k i j = 0
  | 0, k, j, h => by rw [tF, if_neg (by omega)]
  | 1, k, j, h => by
    have z : (0 : α) + 0 = 0 := Doubles.add_zero 0
    rw [tF_one, tF_odd 0 (k + 1) j (by omega), Doubles.mul_zero, z, ite_self]
    by_cases hk : j + 1 ≤ k ∧ 1 ≤ k ∧ k ≤ j + 1
    · rw [if_pos hk, tF_odd 0 (k - 1) j (by omega), Doubles.mul_zero, z]
    · rw [if_neg hk]
  | i + 2, k, j, h => by
    have z : (0 : α) + 0 = 0 := Doubles.add_zero 0
    rw [tF_two, tF_odd (i + 1) (k + 1) j (by omega), tF_odd i k j (by omega), Doubles.mul_zero, Doubles.mul_zero, z, ite_self, z, ite_self]
    by_cases hk : j ≤ k + i ∧ 1 ≤ k ∧ k ≤ j + (i + 2)
    · rw [if_pos hk, tF_odd (i + 1) (k - 1) j (by omega), Doubles.mul_zero, z]
    · rw [if_neg hk]

theorem tauF_odd {k i j : Nat} (h : (k + i + j) % 2 = 1) : tauF (α := α) k i j = 0 := by
  rw [tauF]
  refine tF_odd _ _ _ ?_
  have := min_add_max i j
  omega

theorem tauF_zero {k i j : Nat} (h : i + j < k ∨ k + i < j ∨ k + j < i) : tauF (α := α) k i j = 0 :=
  tF_zero (by omega)

theorem tauF_of_le {k i j : Nat} (h : i ≤ j) : tauF (α := α) k i j = tF k i j := by
  rw [tauF, min_eq_left h, max_eq_right h]

theorem triple_products_1dF_eq (n : Nat) : triple_products_1dF n = .ok (cubeOf (2 * n + 1) (n + 1) (tauF (α := α))) := by
  rw [triple_products_1dF, zeroCube_eq]
  obtain ⟨s, e, rfl⟩ := forFrom_inv (a := 0) (b := n + 1) (acc := cubeOf (2 * n + 1) (n + 1) fun _ _ _ => (0 : α))
    (body := fun i products => wr3 products i 0 i 1)
    (fun m s => s = cubeOf (2 * n + 1) (n + 1) fun k i j => if i = 0 ∧ k = j ∧ k < m then 1 else 0) (by omega)
    (by congr 1; funext k i j; rw [if_neg (by omega)]) (by
      rintro i s - hi rfl
      rw [wr3_cubeOf (by omega) (by omega) (by omega)]
      refine ⟨_, rfl, ?_⟩
      congr 1
      funext k b c
      rw [upd]
      by_cases h : k = i ∧ b = 0 ∧ c = i
      · rw [if_pos h, if_pos (by omega)]
      · rw [if_neg h]
        by_cases h' : b = 0 ∧ k = c ∧ k < i
        · rw [if_pos h', if_pos (by omega)]
        · rw [if_neg h', if_neg (by omega)])
  rw [e, Out.ok_bind]
  clear e
  dsimp only
  rw [show (cubeOf (2 * n + 1) (n + 1) fun k i j => if i = 0 ∧ k = j ∧ k < n + 1 then (1 : α) else 0) =
      cubeOf (2 * n + 1) (n + 1) fun k b c => if b < 1 ∧ b ≤ c then (tauF k b c : α) else 0 from cubeOf_congr (by
        intro k i j hk hi hj
        by_cases h : i = 0
        · subst h
          rw [tauF_first, if_pos (by omega : 0 < 1 ∧ 0 ≤ j)]
          by_cases h' : k = j
          · rw [if_pos (by omega), if_pos h']
          · rw [if_neg (by omega), if_neg h']
        · rw [if_neg (by omega), if_neg (by omega)])]
  obtain ⟨s, e, rfl⟩ := forFrom_inv (a := 1) (b := n + 1)
    (acc := cubeOf (2 * n + 1) (n + 1) fun k b c => if b < 1 ∧ b ≤ c then (tauF k b c : α) else 0)
    (body := fun i products => do
      let ai ← rd ((List.range (2 * n + 1)).map (recA (α := α))) (i - 1)
      let bi ← rd ((List.range (2 * n + 1)).map (recB (α := α))) (i - 1)
      forFrom i (n + 1) products fun j products => do
        let products ← forFrom (max (j - i) 0) (j + i - 2 + 1) products fun k products => do
          let ak ← rd ((List.range (2 * n + 1)).map (recA (α := α))) k
          let x ← rd3 products (k + 1) (i - 1) j
          add3 products k i j (ai / ak * x)
        let products ← forFrom (max (j + 2 - i) 0) (j + i - 2 + 1) products fun k products => do
          let x ← if 2 ≤ i then rd3 products k (i - 2) j else .ub
          add3 products k i j (-bi * x)
        forFrom (max (j + 2 - i) 1) (i + j + 1) products fun k products => do
          let ak ← rd ((List.range (2 * n + 1)).map (recA (α := α))) k
          let bk ← rd ((List.range (2 * n + 1)).map (recB (α := α))) k
          let x ← rd3 products (k - 1) (i - 1) j
          add3 products k i j (ai / ak * bk * x))
    (fun i s => s = cubeOf (2 * n + 1) (n + 1) fun k b c => if b < i ∧ b ≤ c then (tauF k b c : α) else 0) (by omega) rfl (by
      rintro i s h1 h2 rfl
      obtain ⟨i, rfl⟩ : ∃ i', i = i' + 1 := ⟨i - 1, by omega⟩
      simp only [Nat.add_sub_cancel]
      rw [rd_map_range _ (by omega), Out.ok_bind, rd_map_range _ (by omega), Out.ok_bind]
      obtain ⟨s, e, rfl⟩ := forFrom_inv (a := i + 1) (b := n + 1)
        (acc := cubeOf (2 * n + 1) (n + 1) fun k b c => if b < i + 1 ∧ b ≤ c then (tauF k b c : α) else 0)
        (body := fun j products => do
          let products ← forFrom (max (j - (i + 1)) 0) (j + (i + 1) - 2 + 1) products fun k products => do
            let ak ← rd ((List.range (2 * n + 1)).map (recA (α := α))) k
            let x ← rd3 products (k + 1) i j
            add3 products k (i + 1) j ((recA i : α) / ak * x)
          let products ← forFrom (max (j + 2 - (i + 1)) 0) (j + (i + 1) - 2 + 1) products fun k products => do
            let x ← if 2 ≤ i + 1 then rd3 products k (i + 1 - 2) j else .ub
            add3 products k (i + 1) j (-(recB i : α) * x)
          forFrom (max (j + 2 - (i + 1)) 1) (i + 1 + j + 1) products fun k products => do
            let ak ← rd ((List.range (2 * n + 1)).map (recA (α := α))) k
            let bk ← rd ((List.range (2 * n + 1)).map (recB (α := α))) k
            let x ← rd3 products (k - 1) i j
            add3 products k (i + 1) j ((recA i : α) / ak * bk * x))
        (fun j s => s = cubeOf (2 * n + 1) (n + 1) fun k b c =>
          if (b < i + 1 ∧ b ≤ c) ∨ (b = i + 1 ∧ i + 1 ≤ c ∧ c < j) then (tauF k b c : α) else 0) (by omega) (by
          congr 1; funext k b c
          by_cases h : b < i + 1 ∧ b ≤ c
          · rw [if_pos h, if_pos (Or.inl h)]
          · rw [if_neg h, if_neg (by omega)]) (by
          rintro j s h3 h4 rfl
          rw [kloop' (i := i + 1) (j := j) (g := fun k => (recA i : α) / recA k * tauF (k + 1) i j) (by omega) (by omega) (by omega) (by
            intro k f' h5 h6 hf
            rw [rd_map_range _ (by omega), Out.ok_bind, rd3_cubeOf (by omega) (by omega) (by omega), Out.ok_bind,
              hf _ _ _ (by omega), if_pos (by omega)]), Out.ok_bind]
          rw [kloop' (i := i + 1) (j := j) (g := fun k => -(recB i : α) * tauF k (i - 1) j) (by omega) (by omega) (by omega) (by
            intro k f' h5 h6 hf
            rw [if_pos (by omega), rd3_cubeOf (by omega) (by omega) (by omega), Out.ok_bind,
              hf _ _ _ (by omega), if_neg (by omega), if_pos (by omega),
              show i + 1 - 2 = i - 1 by omega]), Out.ok_bind]
          rw [kloop' (i := i + 1) (j := j) (g := fun k => (recA i : α) / recA k * recB k * tauF (k - 1) i j) (by omega) (by omega) (by omega) (by
            intro k f' h5 h6 hf
            rw [rd_map_range _ (by omega), Out.ok_bind, rd_map_range _ (by omega), Out.ok_bind,
              rd3_cubeOf (by omega) (by omega) (by omega), Out.ok_bind,
              hf _ _ _ (by omega), if_neg (by omega), if_neg (by omega), if_pos (by omega)])]
          refine ⟨_, rfl, cubeOf_congr ?_⟩
          intro k b c hk hb hc
          by_cases h : b = i + 1 ∧ c = j
          · obtain ⟨rfl, rfl⟩ := h
            rw [if_neg (by omega : ¬((i + 1 < i + 1 ∧ i + 1 ≤ c) ∨ (i + 1 = i + 1 ∧ i + 1 ≤ c ∧ c < c))),
              if_pos (by omega : (i + 1 < i + 1 ∧ i + 1 ≤ c) ∨ (i + 1 = i + 1 ∧ i + 1 ≤ c ∧ c < c + 1))]
            rw [tauF_of_le h3, tauF_of_le (by omega), tauF_of_le (by omega), tauF_of_le (by omega)]
            rcases i with _ | i
            · rw [Nat.zero_add, tF_one, if_neg (by omega : ¬(1 = 1 ∧ c = c ∧ max (c + 2 - (1)) 0 ≤ k ∧ k < c + (1) - 2 + 1))]
              by_cases h5 : c ≤ k + 1 ∧ k < c
              · rw [if_pos h5, if_pos (by omega : 1 = 1 ∧ c = c ∧ max (c - (1)) 0 ≤ k ∧ k < c + (1) - 2 + 1),
                  if_neg (by omega), if_neg (by omega)]
              · rw [if_neg h5, if_neg (by omega : ¬(1 = 1 ∧ c = c ∧ max (c - (1)) 0 ≤ k ∧ k < c + (1) - 2 + 1))]
                by_cases h6 : c + 1 ≤ k ∧ 1 ≤ k ∧ k ≤ c + 1
                · rw [if_pos h6, if_pos (by omega)]
                · rw [if_neg h6, if_neg (by omega)]
            · rw [tF_two]
              congr 1
              · exact propext ⟨fun h => by omega, fun h => by omega⟩
              · congr 1
                congr 1
                · exact propext ⟨fun h => by omega, fun h => by omega⟩
                · congr 1
                  congr 1
                  exact propext ⟨fun h => by omega, fun h => by omega⟩
                · congr 1
                  exact propext ⟨fun h => by omega, fun h => by omega⟩
              · congr 1
                · exact propext ⟨fun h => by omega, fun h => by omega⟩
                · congr 1
                  congr 1
                  exact propext ⟨fun h => by omega, fun h => by omega⟩
                · congr 1
                  exact propext ⟨fun h => by omega, fun h => by omega⟩
          · rw [if_neg (by omega : ¬(b = i + 1 ∧ c = j ∧ _)), if_neg (by omega : ¬(b = i + 1 ∧ c = j ∧ _)),
              if_neg (by omega : ¬(b = i + 1 ∧ c = j ∧ _))]
            by_cases h6 : (b < i + 1 ∧ b ≤ c) ∨ (b = i + 1 ∧ i + 1 ≤ c ∧ c < j)
            · rw [if_pos h6, if_pos (by omega)]
            · rw [if_neg h6, if_neg (by omega)])
      refine ⟨_, e, cubeOf_congr ?_⟩
      intro k b c hk hb hc
      by_cases h : b < i + 1 + 1 ∧ b ≤ c
      · rw [if_pos h, if_pos (by omega)]
      · rw [if_neg h, if_neg (by omega)])
  rw [e, Out.ok_bind]
  clear e
  obtain ⟨s, e, rfl⟩ := forFrom_inv (a := 0) (b := n + 1)
    (acc := cubeOf (2 * n + 1) (n + 1) fun k b c => if b < n + 1 ∧ b ≤ c then (tauF k b c : α) else 0)
    (body := fun i products => forFrom i (n + 1) products fun j products =>
      forFrom (j - i) (j + i + 1) products fun k products => do
        let x ← rd3 products k i j
        wr3 products k j i x)
    (fun i s => s = cubeOf (2 * n + 1) (n + 1) fun k b c => if b ≤ c ∨ c < i then (tauF k b c : α) else 0) (by omega)
    (cubeOf_congr (by
      intro k b c hk hb hc
      by_cases h : b ≤ c
      · rw [if_pos (by omega), if_pos (by omega)]
      · rw [if_neg (by omega), if_neg (by omega)])) (by
      rintro i s - h2 rfl
      obtain ⟨s, e, rfl⟩ := forFrom_inv (a := i) (b := n + 1)
        (acc := cubeOf (2 * n + 1) (n + 1) fun k b c => if b ≤ c ∨ c < i then (tauF k b c : α) else 0)
        (body := fun j products => forFrom (j - i) (j + i + 1) products fun k products => do
          let x ← rd3 products k i j
          wr3 products k j i x)
        (fun j s => s = cubeOf (2 * n + 1) (n + 1) fun k b c => if b ≤ c ∨ c < i ∨ (c = i ∧ b < j) then (tauF k b c : α) else 0)
        (by omega) (by
          congr 1; funext k b c
          by_cases h : b ≤ c ∨ c < i
          · rw [if_pos h, if_pos (by omega)]
          · rw [if_neg h, if_neg (by omega)]) (by
          rintro j s h3 h4 rfl
          obtain ⟨s, e, rfl⟩ := forFrom_inv (a := j - i) (b := j + i + 1)
            (acc := cubeOf (2 * n + 1) (n + 1) fun k b c => if b ≤ c ∨ c < i ∨ (c = i ∧ b < j) then (tauF k b c : α) else 0)
            (body := fun k products => do
              let x ← rd3 products k i j
              wr3 products k j i x)
            (fun k' s => s = cubeOf (2 * n + 1) (n + 1) fun k b c =>
              if b ≤ c ∨ c < i ∨ (c = i ∧ b < j) ∨ (c = i ∧ b = j ∧ j - i ≤ k ∧ k < k') then (tauF k b c : α) else 0)
            (by omega) (by
              congr 1; funext k b c
              by_cases h : b ≤ c ∨ c < i ∨ (c = i ∧ b < j)
              · rw [if_pos h, if_pos (by omega)]
              · rw [if_neg h, if_neg (by omega)]) (by
              rintro k s h5 h6 rfl
              rw [rd3_cubeOf (by omega) (by omega) (by omega), Out.ok_bind, if_pos (by omega),
                wr3_cubeOf (by omega) (by omega) (by omega)]
              refine ⟨_, rfl, ?_⟩
              congr 1
              funext a b c
              rw [upd]
              by_cases h : a = k ∧ b = j ∧ c = i
              · obtain ⟨rfl, rfl, rfl⟩ := h
                rw [if_pos ⟨rfl, rfl, rfl⟩, if_pos (by omega), tauF_symm]
              · rw [if_neg h]
                by_cases h7 : b ≤ c ∨ c < i ∨ (c = i ∧ b < j) ∨ (c = i ∧ b = j ∧ j - i ≤ a ∧ a < k)
                · rw [if_pos h7, if_pos (by omega)]
                · rw [if_neg h7, if_neg (by omega)])
          refine ⟨_, e, cubeOf_congr ?_⟩
          intro k b c hk hb hc
          by_cases h : b ≤ c ∨ c < i ∨ (c = i ∧ b < j) ∨ (c = i ∧ b = j ∧ j - i ≤ k ∧ k < j + i + 1)
          · rw [if_pos h, if_pos (by omega)]
          · rw [if_neg h]
            by_cases h8 : b ≤ c ∨ c < i ∨ (c = i ∧ b < j + 1)
            · rw [if_pos h8, tauF_zero (by omega)]
            · rw [if_neg h8])
      refine ⟨_, e, cubeOf_congr ?_⟩
      intro k b c hk hb hc
      by_cases h : b ≤ c ∨ c < i ∨ (c = i ∧ b < n + 1)
      · rw [if_pos h, if_pos (by omega)]
      · rw [if_neg h, if_neg (by omega)])
  rw [e]
  congr 1
  exact cubeOf_congr (by intro k b c hk hb hc; rw [if_pos (by omega)])

end Hermipy
