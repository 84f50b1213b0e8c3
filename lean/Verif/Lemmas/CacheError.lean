import Verif.Spec.CacheError
import Mathlib.Algebra.Order.Chebyshev
import Mathlib.Analysis.InnerProductSpace.PiL2
import Mathlib.Data.List.GetD

/-! # Norms of the differences of results -/

namespace Hermipy.Cache
open Hermipy Hermipy.Spec

theorem flatten_blocks (p : ℕ) (n : ℕ) (d : List ℝ) (h : d.length = n * p) :
    ((List.range n).map fun i => (d.drop (i * p)).take p).flatten = d := by
  induction n generalizing d with
  | zero =>
    have : d = [] := List.length_eq_zero_iff.mp (by simpa using h)
    simp [this]
  | succ n ih =>
    rw [List.range_succ_eq_map, List.map_cons, List.flatten_cons, List.map_map]
    have := ih (d.drop p) (by rw [List.length_drop, h, Nat.succ_mul]; omega)
    have e : ((fun i => (d.drop (i * p)).take p) ∘ Nat.succ) = fun i => ((d.drop p).drop (i * p)).take p := by
      funext i
      simp only [Function.comp, List.drop_drop, Nat.succ_mul]
      rw [Nat.add_comm]
    rw [e, this]
    simp

theorem expand_self (s : List ℕ) (d : List ℝ) (h : d.length = s.prod) : expand s s d = d := by
  induction s generalizing d with
  | nil => simp [expand]
  | cons n s ih =>
    rw [expand, if_pos rfl]
    rw [List.prod_cons] at h
    rw [← flatten_blocks s.prod n d h]
    congr 1
    refine List.map_congr_left fun i hi => ?_
    rw [flatten_blocks s.prod n d h]
    refine ih _ ?_
    rw [List.length_take, List.length_drop, h, ← Nat.sub_mul]
    refine Nat.min_eq_left ?_
    have : 1 ≤ n - i := by have := List.mem_range.mp hi; omega
    exact Nat.le_mul_of_pos_left _ this

theorem bshape_self (s : List ℕ) : bshape s s = .ok s := by
  rw [bshape]
  simp only [max_self, Nat.sub_self, List.replicate_zero, List.nil_append]
  rw [if_neg]
  · congr 1
    induction s with
    | nil => rfl
    | cons a s ih => simp
  · rintro ⟨p, hp, h, -⟩
    induction s with
    | nil => simp at hp
    | cons a s ih =>
      rw [List.zip_cons_cons, List.mem_cons] at hp
      rcases hp with rfl | hp
      · exact h rfl
      · exact ih hp

theorem subArrays_self {s : List ℕ} {d e : List ℝ} (hd : d.length = s.prod) (he : e.length = s.prod) :
    subArrays s d s e = .ok (s, List.zipWith (· - ·) d e) := by
  rw [subArrays, bshape_self]
  simp [expand_self s d hd, expand_self s e he]

theorem vecNorm_nonneg (d : List ℝ) : 0 ≤ vecNorm d := Real.sqrt_nonneg _

theorem sq_sum_nonneg (d : List ℝ) : 0 ≤ (d.map (· ^ 2)).sum := by
  refine List.sum_nonneg fun x hx => ?_
  obtain ⟨y, -, rfl⟩ := List.mem_map.mp hx
  positivity

theorem abs_le_vecNorm {d : List ℝ} {x : ℝ} (h : x ∈ d) : |x| ≤ vecNorm d := by
  refine Real.abs_le_sqrt ?_
  refine List.single_le_sum ?_ _ (List.mem_map.mpr ⟨x, h, rfl⟩)
  intro y hy
  obtain ⟨z, -, rfl⟩ := List.mem_map.mp hy
  positivity

/-- The Euclidean norm is at most the sum of the absolute values. -/
theorem vecNorm_le_sum (d : List ℝ) : vecNorm d ≤ (d.map (|·|)).sum := by
  have h0 : ∀ d : List ℝ, 0 ≤ (d.map (|·|)).sum := fun d => List.sum_nonneg fun x hx => by
    obtain ⟨y, -, rfl⟩ := List.mem_map.mp hx
    positivity
  refine Real.sqrt_le_iff.mpr ⟨h0 d, ?_⟩
  induction d with
  | nil => simp
  | cons a d ih =>
    simp only [List.map_cons, List.sum_cons]
    have := h0 d
    have := abs_nonneg a
    nlinarith [sq_abs a]

open scoped Matrix.Norms.L2Operator in
theorem entry_le_matNorm {m n : ℕ} (d : List ℝ) {i j : ℕ} (hi : i < m) (hj : j < n) : |d.getD (i * n + j) 0| ≤ matNorm m n d := by
  rw [matNorm]
  set A : Matrix (Fin m) (Fin n) ℝ := Matrix.of fun (i : Fin m) (j : Fin n) => d.getD (i * n + j) 0 with hA
  have h := Matrix.l2_opNorm_mulVec A (EuclideanSpace.single (⟨j, hj⟩ : Fin n) (1 : ℝ))
  rw [PiLp.norm_single, norm_one, mul_one] at h
  refine le_trans ?_ h
  refine le_trans ?_ (PiLp.norm_apply_le _ (⟨i, hi⟩ : Fin m))
  simp [hA]

open scoped Matrix.Norms.L2Operator in
/-- The largest singular value is at most the Euclidean norm of the entries. -/
theorem matNorm_le_vecNorm {m n : ℕ} {d : List ℝ} (hd : d.length = m * n) : matNorm m n d ≤ vecNorm d := by
  rw [matNorm]
  set A : Matrix (Fin m) (Fin n) ℝ := Matrix.of fun (i : Fin m) (j : Fin n) => d.getD (i * n + j) 0 with hA
  rw [Matrix.l2_opNorm_def]
  refine ContinuousLinearMap.opNorm_le_bound _ (vecNorm_nonneg d) fun x => ?_
  have hs : (d.map (· ^ 2)).sum = ∑ i, ∑ j, A i j ^ 2 := by
    have e : d.map (· ^ 2) = List.ofFn fun k : Fin (m * n) => d.getD k 0 ^ 2 := by
      refine List.ext_getElem (by simp [hd]) fun k h1 h2 => ?_
      rw [List.length_map] at h1
      simp [h1]
    rw [e, List.sum_ofFn, ← finProdFinEquiv.sum_comp, Fintype.sum_prod_type]
    refine Finset.sum_congr rfl fun i _ => Finset.sum_congr rfl fun j _ => ?_
    rw [hA, Matrix.of_apply, finProdFinEquiv_apply_val, add_comm, mul_comm]
  rw [EuclideanSpace.norm_eq, EuclideanSpace.norm_eq, vecNorm, ← Real.sqrt_mul (sq_sum_nonneg d)]
  refine Real.sqrt_le_sqrt ?_
  rw [hs, Finset.sum_mul]
  refine Finset.sum_le_sum fun i _ => ?_
  rw [Real.norm_eq_abs, sq_abs]
  simp only [Real.norm_eq_abs, sq_abs]
  exact Finset.sum_mul_sq_le_sq_mul_sq Finset.univ (fun j => A i j) (fun j => x j)

/-- The entries of the difference of two lists. -/
theorem getD_sub {d e : List ℝ} (h : d.length = e.length) (i : ℕ) : (List.zipWith (· - ·) d e).getD i 0 = d.getD i 0 - e.getD i 0 := by
  by_cases hi : i < d.length
  · have hi' : i < e.length := h ▸ hi
    simp [List.getD_eq_getElem?_getD, hi, hi']
  · have hi' : ¬ i < e.length := h ▸ hi
    simp [List.getD_eq_getElem?_getD, hi, hi']

/-- Each entry is less than the norm allows. -/
theorem vec_near {d e : List ℝ} (h : d.length = e.length) {ε : ℝ} (hn : vecNorm (List.zipWith (· - ·) d e) < ε) (i : ℕ) :
    |d.getD i 0 - e.getD i 0| < ε := by
  rw [← getD_sub h]
  by_cases hi : i < (List.zipWith (· - ·) d e).length
  · refine lt_of_le_of_lt ?_ hn
    rw [List.getD_eq_getElem _ _ hi]
    exact abs_le_vecNorm (List.getElem_mem hi)
  · rw [List.getD_eq_default _ _ (by omega), abs_zero]
    exact lt_of_le_of_lt (vecNorm_nonneg _) hn

theorem sum_abs_lt {l : List ℝ} {ε : ℝ} (hε : 0 < ε) (h : ∀ x ∈ l, |x| < ε / l.length) : (l.map (|·|)).sum < ε := by
  rcases Nat.eq_zero_or_pos l.length with h0 | h0
  · rw [List.length_eq_zero_iff.mp h0]
    simpa using hε
  · have hne : l ≠ [] := List.length_pos_iff.mp h0
    have hpos : (0 : ℝ) < l.length := by exact_mod_cast h0
    have h1 := List.sum_lt_sum_of_ne_nil hne (fun x => |x|) (fun _ => ε / l.length) (fun x hx => h x hx)
    rw [List.map_const', List.sum_replicate, nsmul_eq_mul, mul_div_cancel₀ _ hpos.ne'] at h1
    exact h1

/-- The norm is small if the entries are. -/
theorem vec_accept {d e : List ℝ} (h : d.length = e.length) {ε : ℝ} (hε : 0 < ε)
    (hn : ∀ i < d.length, |d.getD i 0 - e.getD i 0| < ε / d.length) : vecNorm (List.zipWith (· - ·) d e) < ε := by
  refine lt_of_le_of_lt (vecNorm_le_sum _) (sum_abs_lt hε fun x hx => ?_)
  obtain ⟨i, hi, rfl⟩ := List.getElem_of_mem hx
  have hl : (List.zipWith (· - ·) d e).length = d.length := by simp [h]
  have := hn i (hl ▸ hi)
  rw [← getD_sub h, List.getD_eq_getElem _ _ hi] at this
  rwa [hl]

theorem arrayError_vec {d e : List ℝ} {n : ℕ} (hd : d.length = n) (he : e.length = n) :
    arrayError [n] d [n] e = .ok (vecNorm (List.zipWith (· - ·) d e)) := by
  rw [arrayError, subArrays_self (by simpa using hd) (by simpa using he)]
  simp [npNorm]

theorem arrayError_mat {d e : List ℝ} {m n : ℕ} (hm : 0 < m) (hn : 0 < n) (hd : d.length = m * n) (he : e.length = m * n) :
    arrayError [m, n] d [m, n] e = .ok (matNorm m n (List.zipWith (· - ·) d e)) := by
  rw [arrayError, subArrays_self (by simpa using hd) (by simpa using he)]
  simp [npNorm, hm.ne', hn.ne']

/-- A place that occurs once holds what is stored there. -/
theorem entry_of_mem {e : List ((ℕ × ℕ) × ℝ)} (hn : (e.map (·.1)).Nodup) {i j : ℕ} {x : ℝ} (h : ((i, j), x) ∈ e) : sparseEntry e i j = x := by
  induction e with
  | nil => simp at h
  | cons p e ih =>
    rw [List.map_cons, List.nodup_cons] at hn
    rw [sparseEntry, List.filter_cons]
    rcases List.mem_cons.mp h with rfl | h
    · have : e.filter (fun p => decide (p.1 = (i, j))) = [] := by
        rw [List.filter_eq_nil_iff]
        intro q hq hqe
        exact hn.1 (List.mem_map.mpr ⟨q, hq, by simpa using hqe⟩)
      simp [this]
    · have hp : p.1 ≠ (i, j) := fun hp => hn.1 (List.mem_map.mpr ⟨_, h, by simp [hp]⟩)
      simp only [hp, decide_false, Bool.false_eq_true, if_false]
      exact ih hn.2 h

theorem entry_of_not_mem {e : List ((ℕ × ℕ) × ℝ)} {i j : ℕ} (h : (i, j) ∉ e.map (·.1)) : sparseEntry e i j = 0 := by
  have : e.filter (fun p => decide (p.1 = (i, j))) = [] := by
    rw [List.filter_eq_nil_iff]
    intro q hq hqe
    exact h (List.mem_map.mpr ⟨q, hq, by simpa using hqe⟩)
  rw [sparseEntry, this]
  rfl

end Hermipy.Cache
