import Verif.Lemmas.VarfExact
import Mathlib.Analysis.Real.Pi.Bounds

/-! # Situations in which the variational matrix is not the quadrature -/

namespace Hermipy

open Spec

theorem dropTol_le {L : List IVec} {c : List Nat → ℝ} (hB : ∀ m ∈ L, |c m| ≤ 1) (hn : L.length ≤ 10000) :
    dropTol L c ≤ 1 / 10 ^ 10 := by
  rw [dropTol]
  have h1 : ∑ i ∈ Finset.range L.length, c (L.getD i []) ^ 2 ≤ ∑ i ∈ Finset.range L.length, (1 : ℝ) := by
    apply Finset.sum_le_sum
    intro i hi
    have := hB (L.getD i []) (by simp [Finset.mem_range.1 hi])
    rw [← sq_abs]
    exact pow_le_one₀ (abs_nonneg _) this
  rw [Finset.sum_const, Finset.card_range, nsmul_eq_mul, mul_one] at h1
  have h2 : (L.length : ℝ) ≤ 100 ^ 2 := by
    have : (L.length : ℝ) ≤ (10000 : ℕ) := by exact_mod_cast hn
    norm_num at this ⊢
    exact this
  have h3 : √(∑ i ∈ Finset.range L.length, c (L.getD i []) ^ 2) ≤ 100 := by
    rw [show (100 : ℝ) = √(100 ^ 2) by rw [Real.sqrt_sq (by norm_num)]]
    exact Real.sqrt_le_sqrt (h1.trans h2)
  have h4 : max 1 (√(∑ i ∈ Finset.range L.length, c (L.getD i []) ^ 2)) ≤ 100 := max_le (by norm_num) h3
  calc 1 / 10 ^ 12 * max 1 (√(∑ i ∈ Finset.range L.length, c (L.getD i []) ^ 2)) ≤ 1 / 10 ^ 12 * 100 := by gcongr
    _ = 1 / 10 ^ 10 := by norm_num

theorem inv_sqrt_pi_le : 1 / √Real.pi ≤ 1 := by
  rw [div_le_one (Real.sqrt_pos.2 Real.pi_pos), Real.one_le_sqrt]
  linarith [Real.pi_gt_three]

theorem inv_sqrt_two_pi_le : 1 / √(2 * Real.pi) ≤ 1 := by
  rw [div_le_one (Real.sqrt_pos.2 (by positivity)), Real.one_le_sqrt]
  linarith [Real.pi_gt_three]

theorem abs_trig_le (n : Nat) (x : ℝ) : |trig n x| ≤ 1 := by
  have key : ∀ y : ℝ, |y| ≤ 1 → |y / √Real.pi| ≤ 1 := by
    intro y hy
    rw [abs_div, abs_of_nonneg (Real.sqrt_nonneg _), div_eq_mul_one_div]
    calc |y| * (1 / √Real.pi) ≤ 1 * 1 := mul_le_mul hy inv_sqrt_pi_le (by positivity) (by norm_num)
      _ = 1 := one_mul 1
  rcases trig_cases n with rfl | ⟨a, ha, rfl⟩ | ⟨a, ha, rfl⟩
  · rw [trig_zero, abs_of_nonneg (by positivity)]
    exact inv_sqrt_two_pi_le
  · rw [trig_cos ha]
    exact key _ (Real.abs_cos_le_one _)
  · rw [trig_sin ha]
    exact key _ (Real.abs_sin_le_one _)

/-- The quadrature on the grid with the single point `(x, y)` and weight 1. -/
theorem quadrature_point (x y : ℝ) (g : Nat → List ℝ → ℝ) : quadrature [[x], [y]] [[1], [1]] g = g 0 [x, y] := by
  simp [quadrature, gridPoints, gridWeights, cartesian]

theorem basis_two (fourier m : List Nat) (x y : ℝ) : basis 2 fourier m [x, y] =
    phi (fourier.getD 0 0) (m.getD 0 0) x * phi (fourier.getD 1 0) (m.getD 1 0) y := by
  simp [basis, Finset.prod_range_succ]

theorem tripleProd_two (fourier m I J : List Nat) : tripleProd 2 fourier m I J =
    triple (fourier.getD 0 0) (m.getD 0 0) (I.getD 0 0) (J.getD 0 0) *
      triple (fourier.getD 1 0) (m.getD 1 0) (I.getD 1 0) (J.getD 1 0) := by
  simp [tripleProd, Finset.prod_range_succ]

theorem fcoef_origin (m : IVec) : fcoef [[0], [0]] [[1], [1]] [1, 1] [1] m = trig (m.getD 0 0) 0 * trig (m.getD 1 0) 0 := by
  rw [fcoef, quadrature_point]
  simp [basis_two, phi]

theorem abs_fcoef_origin (m : IVec) : |fcoef [[0], [0]] [[1], [1]] [1, 1] [1] m| ≤ 1 := by
  rw [fcoef_origin, abs_mul]
  exact mul_le_one₀ (abs_trig_le _ _) (abs_nonneg _) (abs_trig_le _ _)

theorem kept_big {L : List IVec} {c : List Nat → ℝ} (hB : ∀ m ∈ L, |c m| ≤ 1) (hn : L.length ≤ 10000) {x : ℝ}
    (hx : 1 / 10 ^ 10 ≤ |x|) : kept (dropTol L c) x = x := by
  rw [kept, if_neg (not_lt.2 ((dropTol_le hB hn).trans hx))]

theorem small_pi : (1 : ℝ) / 10 ^ 10 ≤ 1 / (2 * Real.pi) := by
  apply one_div_le_one_div_of_le (by positivity)
  linarith [Real.pi_lt_four]

theorem trig_zero_four : trig 4 0 = 1 / √Real.pi := by
  rw [show 4 = 2 * 2 by rfl, trig_cos (by omega)]
  simp

theorem trig_one_zero : trig 1 0 = 0 := by
  rw [show 1 = 2 * 1 - 1 by rfl, trig_sin (by omega)]
  simp

theorem four_one_one (k : Nat) : four k 1 1 = if k = 0 then 1 / √(2 * Real.pi) else if k = 4 then -(1 / (2 * √Real.pi)) else 0 := by
  rw [show four k 1 1 = four k (2 * 1 - 1) (2 * 1 - 1) by rfl, four_ss (by omega) (by omega), fss]
  simp only [Nat.reduceMul, Nat.reduceAdd, if_true]
  by_cases h0 : k = 0
  · rw [if_pos h0, if_neg (by omega), if_pos h0, zero_add]
  · rw [if_neg h0, if_neg h0, add_zero]

theorem inv_two_pi : 1 / √(2 * Real.pi) * (1 / √(2 * Real.pi)) = 1 / (2 * Real.pi) := by
  rw [div_mul_div_comm, one_mul, Real.mul_self_sqrt (by positivity)]

theorem inv_pi : 1 / √Real.pi * (1 / √Real.pi) = 1 / Real.pi := by
  rw [div_mul_div_comm, one_mul, Real.mul_self_sqrt (by positivity)]

theorem mixed_big : (1 : ℝ) / 10 ^ 10 ≤ 1 / √Real.pi * (1 / √(2 * Real.pi)) := by
  refine small_pi.trans ?_
  rw [← inv_two_pi]
  apply mul_le_mul_of_nonneg_right _ (by positivity)
  apply one_div_le_one_div_of_le (by positivity)
  apply Real.sqrt_le_sqrt
  linarith [Real.pi_pos]

theorem four_ne {k : Nat} (h : four k 1 1 ≠ 0) : k = 0 ∨ k = 4 := by
  rw [four_one_one] at h
  by_contra hk
  rw [if_neg (by omega), if_neg (by omega)] at h
  exact h rfl

/-- With two Fourier directions and the point at the origin: the entry at `((1, 1), (1, 1))` when `(4, 0)` and `(0, 4)` are in the
set but `(4, 4)` is not. -/
theorem origin_sum {L2 : List IVec} (hn : L2.Nodup) (hlen : L2.length ≤ 10000) (hl : ∀ m ∈ L2, m.length = 2) (h00 : [0, 0] ∈ L2)
    (h40 : [4, 0] ∈ L2) (h04 : [0, 4] ∈ L2) (h44 : [4, 4] ∉ L2) :
    ∑ t ∈ Finset.range L2.length, kept (dropTol L2 (fcoef [[0], [0]] [[1], [1]] [1, 1] [1]))
      (fcoef [[0], [0]] [[1], [1]] [1, 1] [1] (L2.getD t [])) * tripleProd 2 [1, 1] (L2.getD t []) [1, 1] [1, 1] =
      -(1 / (4 * Real.pi ^ 2)) := by
  rw [sum_listing hn (fun m => kept (dropTol L2 (fcoef [[0], [0]] [[1], [1]] [1, 1] [1]))
      (fcoef [[0], [0]] [[1], [1]] [1, 1] [1] m) * tripleProd 2 [1, 1] m [1, 1] [1, 1])]
  have hsub : ({[0, 0], [4, 0], [0, 4]} : Finset IVec) ⊆ L2.toFinset := by
    intro m hm
    simp only [Finset.mem_insert, Finset.mem_singleton] at hm
    rw [List.mem_toFinset]
    rcases hm with rfl | rfl | rfl <;> assumption
  rw [← Finset.sum_subset hsub]
  · rw [Finset.sum_insert (by decide), Finset.sum_insert (by decide), Finset.sum_singleton]
    have hb : ∀ m ∈ L2, |fcoef [[0], [0]] [[1], [1]] [1, 1] [1] m| ≤ 1 := fun m _ => abs_fcoef_origin m
    have c00 : fcoef [[0], [0]] [[1], [1]] [1, 1] [1] [0, 0] = 1 / (2 * Real.pi) := by
      rw [fcoef_origin]; simp only [List.getD_cons_zero, List.getD_cons_succ, trig_zero]; exact inv_two_pi
    have c40 : fcoef [[0], [0]] [[1], [1]] [1, 1] [1] [4, 0] = 1 / √Real.pi * (1 / √(2 * Real.pi)) := by
      rw [fcoef_origin]; simp only [List.getD_cons_zero, List.getD_cons_succ, trig_zero, trig_zero_four]
    have c04 : fcoef [[0], [0]] [[1], [1]] [1, 1] [1] [0, 4] = 1 / √Real.pi * (1 / √(2 * Real.pi)) := by
      rw [fcoef_origin]; simp only [List.getD_cons_zero, List.getD_cons_succ, trig_zero, trig_zero_four]; ring
    rw [c00, c40, c04, kept_big hb hlen (by rw [abs_of_nonneg (by positivity)]; exact small_pi),
      kept_big hb hlen (by rw [abs_of_nonneg (by positivity)]; exact mixed_big)]
    simp only [tripleProd_two, List.getD_cons_zero, List.getD_cons_succ, triple_four, four_one_one, if_true,
      if_neg (show ¬(4 = 0) by omega)]
    have h1 := inv_two_pi
    have h2 := inv_pi
    have hp : Real.pi ≠ 0 := Real.pi_ne_zero
    have e1 : 1 / (2 * Real.pi) * (1 / √(2 * Real.pi) * (1 / √(2 * Real.pi))) = 1 / (4 * Real.pi ^ 2) := by
      rw [h1]; field_simp; norm_num
    have e2 : 1 / √Real.pi * (1 / √(2 * Real.pi)) * (-(1 / (2 * √Real.pi)) * (1 / √(2 * Real.pi))) = -(1 / (4 * Real.pi ^ 2)) := by
      have : 1 / √Real.pi * (1 / √(2 * Real.pi)) * (-(1 / (2 * √Real.pi)) * (1 / √(2 * Real.pi))) =
          -(1 / 2 * (1 / √Real.pi * (1 / √Real.pi)) * (1 / √(2 * Real.pi) * (1 / √(2 * Real.pi)))) := by
        rw [one_div (2 * √Real.pi), mul_inv]
        ring
      rw [this, h1, h2]
      field_simp
      norm_num
    rw [e1, e2, mul_comm (1 / √(2 * Real.pi)) (-(1 / (2 * √Real.pi))), e2]
    ring
  · intro m hm hm'
    rw [List.mem_toFinset] at hm
    by_cases h0 : tripleProd 2 [1, 1] m [1, 1] [1, 1] = 0
    · rw [h0, mul_zero]
    · exfalso
      have hml := hl m hm
      obtain ⟨a, b, rfl⟩ : ∃ a b, m = [a, b] := by
        match m, hml with
        | [a, b], _ => exact ⟨a, b, rfl⟩
      rw [tripleProd_two] at h0
      simp only [List.getD_cons_zero, List.getD_cons_succ, triple_four] at h0
      have ha := four_ne (left_ne_zero_of_mul h0)
      have hb := four_ne (right_ne_zero_of_mul h0)
      rcases ha with rfl | rfl <;> rcases hb with rfl | rfl
      · simp at hm'
      · simp at hm'
      · simp at hm'
      · exact h44 hm

/-- The same for the entry at `((0, 1), (0, 1))` when `(0, 4)` is not in the set. -/
theorem origin_sum_rect {L2 : List IVec} (hn : L2.Nodup) (hlen : L2.length ≤ 10000) (hl : ∀ m ∈ L2, m.length = 2)
    (h00 : [0, 0] ∈ L2) (h04 : [0, 4] ∉ L2) :
    ∑ t ∈ Finset.range L2.length, kept (dropTol L2 (fcoef [[0], [0]] [[1], [1]] [1, 1] [1]))
      (fcoef [[0], [0]] [[1], [1]] [1, 1] [1] (L2.getD t [])) * tripleProd 2 [1, 1] (L2.getD t []) [0, 1] [0, 1] =
      1 / (4 * Real.pi ^ 2) := by
  rw [sum_listing hn (fun m => kept (dropTol L2 (fcoef [[0], [0]] [[1], [1]] [1, 1] [1]))
      (fcoef [[0], [0]] [[1], [1]] [1, 1] [1] m) * tripleProd 2 [1, 1] m [0, 1] [0, 1])]
  rw [Finset.sum_eq_single_of_mem [0, 0] (List.mem_toFinset.2 h00)]
  · have hb : ∀ m ∈ L2, |fcoef [[0], [0]] [[1], [1]] [1, 1] [1] m| ≤ 1 := fun m _ => abs_fcoef_origin m
    have c00 : fcoef [[0], [0]] [[1], [1]] [1, 1] [1] [0, 0] = 1 / (2 * Real.pi) := by
      rw [fcoef_origin]; simp only [List.getD_cons_zero, List.getD_cons_succ, trig_zero]; exact inv_two_pi
    rw [c00, kept_big hb hlen (by rw [abs_of_nonneg (by positivity)]; exact small_pi)]
    simp only [tripleProd_two, List.getD_cons_zero, List.getD_cons_succ, triple_four, four_one_one, four_zero_left, if_true]
    rw [inv_two_pi]
    have hp : Real.pi ≠ 0 := Real.pi_ne_zero
    field_simp
    norm_num
  · intro m hm hm'
    rw [List.mem_toFinset] at hm
    by_cases h0 : tripleProd 2 [1, 1] m [0, 1] [0, 1] = 0
    · rw [h0, mul_zero]
    · exfalso
      have hml := hl m hm
      obtain ⟨a, b, rfl⟩ : ∃ a b, m = [a, b] := by
        match m, hml with
        | [a, b], _ => exact ⟨a, b, rfl⟩
      rw [tripleProd_two] at h0
      simp only [List.getD_cons_zero, List.getD_cons_succ, triple_four] at h0
      have ha := left_ne_zero_of_mul h0
      have hb := four_ne (right_ne_zero_of_mul h0)
      rw [four_zero_left] at ha
      obtain rfl : a = 0 := by
        by_contra h
        rw [if_neg h] at ha
        exact ha rfl
      rcases hb with rfl | rfl
      · exact hm' rfl
      · exact h04 hm

/-- Hermite: products of functions of different variables have one term. -/
theorem tripleProd_axes {n a b : Nat} (h : tripleProd 2 [0, 0] [a, b] [n, 0] [0, n] ≠ 0) : a = n ∧ b = n := by
  rw [tripleProd_two] at h
  simp only [List.getD_cons_zero, List.getD_cons_succ, triple_tau] at h
  have ha := left_ne_zero_of_mul h
  have hb := right_ne_zero_of_mul h
  rw [tau_symm, tau_first] at ha
  rw [tau_first] at hb
  constructor
  · by_contra h
    rw [if_neg h] at ha
    exact ha rfl
  · by_contra h
    rw [if_neg h] at hb
    exact hb rfl

theorem trig_origin (n : Nat) : trig n 0 = 0 ∨ 1 / 10 ^ 5 ≤ |trig n 0| := by
  have hp : √(2 * Real.pi) ≤ 10 ^ 5 := by
    rw [Real.sqrt_le_left (by norm_num)]
    linarith [Real.pi_lt_four]
  have hp' : √Real.pi ≤ 10 ^ 5 := by
    rw [Real.sqrt_le_left (by norm_num)]
    linarith [Real.pi_lt_four]
  rcases trig_cases n with rfl | ⟨a, ha, rfl⟩ | ⟨a, ha, rfl⟩
  · right
    rw [trig_zero, abs_of_nonneg (by positivity)]
    exact one_div_le_one_div_of_le (by positivity) hp
  · right
    rw [trig_cos ha, mul_zero, Real.cos_zero, abs_of_nonneg (by positivity)]
    exact one_div_le_one_div_of_le (by positivity) hp'
  · left
    rw [trig_sin ha]
    simp

theorem small_listing {s : IndexSet} {L2 : List IVec} (ok2 : IterOk s 2 4 L2) : L2.length ≤ 10000 := by
  have h1 : L2.toFinset ⊆ boxSet [5, 5] := by
    intro m hm
    have hm := (ok2.mem m).1 (List.mem_toFinset.1 hm)
    have hml := inSet_length hm
    have hle := inSet_le (by simp) hm
    rw [mem_boxSet]
    refine ⟨hml, fun k hk => ?_⟩
    have h2 := getD_le hle k
    have hk : k < 2 := hk
    have : k = 0 ∨ k = 1 := by omega
    rcases this with rfl | rfl <;> simp only [List.getD_cons_zero, List.getD_cons_succ] <;> omega
  have h2 := Finset.card_le_card h1
  rw [List.toFinset_card_of_nodup ok2.nodup] at h2
  have h3 : (boxSet [5, 5]).card ≤ 10000 := by decide
  omega

end Hermipy
