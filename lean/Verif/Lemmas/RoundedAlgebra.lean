import Verif.Lemmas.TransformRounded
import Verif.Lemmas.Inner
import Verif.Lemmas.TensorizeVec
import Mathlib.Algebra.BigOperators.Group.List.Lemmas

/-! # Rounding errors of contraction and tensor product -/

namespace Hermipy

open Spec

variable {α : Type} [Floats α] {val : α → ℝ} {u : ℝ}

theorem coef_map_val (A : Accurate α val u) (L : List IVec) (s : List α) (m : IVec) :
    coef L (s.map val) m = val (coef L s m) := by
  rw [coef, coef, getD_map_val A]

theorem fold_addTerm_ok (A : Accurate α val u) {L1 L2 : List IVec} {s1 s2 : List α} (hs1 : s1.length = L1.length)
    (hs2 : s2.length = L2.length) (dirs1 dirs2 D m K : IVec) : ∀ (LK : List IVec) (acc : α) (t : ℕ) (x M : ℝ), Approx u (t + 1) (val acc) x M →
    Approx u (t + LK.length + 1) (val (LK.foldl (addTerm L1 L2 s1 s2 dirs1 dirs2 D m K) acc))
      (x + (LK.map fun k => coef L1 (s1.map val) (dirs1.map (joint D m K k)) * coef L2 (s2.map val) (dirs2.map (joint D m K k))).sum)
      (M + (LK.map fun k => |coef L1 (s1.map val) (dirs1.map (joint D m K k)) * coef L2 (s2.map val) (dirs2.map (joint D m K k))|).sum)
  | [], acc, t, x, M, h => by simpa using h
  | k :: LK, acc, t, x, M, h => by
    have hstep : Approx u (t + 1 + 1) (val (addTerm L1 L2 s1 s2 dirs1 dirs2 D m K acc k))
        (x + coef L1 (s1.map val) (dirs1.map (joint D m K k)) * coef L2 (s2.map val) (dirs2.map (joint D m K k)))
        (M + |coef L1 (s1.map val) (dirs1.map (joint D m K k)) * coef L2 (s2.map val) (dirs2.map (joint D m K k))|) := by
      rw [coef_map_val A, coef_map_val A]
      rw [addTerm]
      split
      · refine h.add A.nonneg ?_ (A.add _ _)
        have := (Approx.exact A.nonneg 0 (val (coef L1 s1 (dirs1.map (joint D m K k))))).mul A.nonneg
          (Approx.exact A.nonneg 0 (val (coef L2 s2 (dirs2.map (joint D m K k))))) (A.mul _ _)
        rw [← abs_mul] at this
        exact this.mono A.nonneg (by omega)
      · rename_i hc
        have hzero : val (coef L1 s1 (dirs1.map (joint D m K k))) * val (coef L2 s2 (dirs2.map (joint D m K k))) = 0 := by
          by_cases h1 : dirs1.map (joint D m K k) ∈ L1
          · rw [coef_of_notMem (L := L2) (by omega) (fun h => hc ⟨h1, h⟩), A.zero, mul_zero]
          · rw [coef_of_notMem (L := L1) (by omega) h1, A.zero, zero_mul]
        rw [hzero, abs_zero, add_zero, add_zero]
        exact h.mono A.nonneg (by omega)
    have := fold_addTerm_ok A hs1 hs2 dirs1 dirs2 D m K LK _ (t + 1) _ _ hstep
    rw [List.foldl_cons, List.map_cons, List.map_cons, List.sum_cons, List.sum_cons, List.length_cons,
      show t + (LK.length + 1) + 1 = t + 1 + LK.length + 1 by omega, ← add_assoc x, ← add_assoc M]
    exact this

theorem innerF_ok (A : Accurate α val u) {s : IndexSet} {degree : Nat} {dirs1 dirs2 D K : IVec}
    (hu : Usable s dirs1.length degree) (hz2 : Sized s dirs2.length degree) (hi1 : Inc dirs1) (hi2 : Inc dirs2)
    (hsf : SharedFree dirs1 dirs2 D K) (hzD : D ≠ [] → Sized s D.length degree) {L1 L2 LD LK : List IVec}
    (hL1 : IterOk s dirs1.length degree L1) (hL2 : IterOk s dirs2.length degree L2) (hLD : Listing s degree D LD)
    (hLK : Listing s degree K LK) {s1 s2 : List α} (hs1 : s1.length = L1.length) (hs2 : s2.length = L2.length) :
    ∃ r, inner s s1 s2 dirs1 dirs2 = .ok r ∧ r.length = LD.length ∧
      ∀ (i : Nat) (m : IVec), LD[i]? = some m → Approx u (LK.length + 1) (val (r.getD i 0))
        (LK.map fun k => coef L1 (s1.map val) (dirs1.map (joint D m K k)) * coef L2 (s2.map val) (dirs2.map (joint D m K k))).sum
        (LK.map fun k => |coef L1 (s1.map val) (dirs1.map (joint D m K k)) * coef L2 (s2.map val) (dirs2.map (joint D m K k))|).sum := by
  obtain ⟨r, e, hl, h⟩ := inner_fold hu hz2 hi1 hi2 hsf hzD hL1 hL2 hLD hLK hs1 hs2
  refine ⟨r, e, hl, fun i m hm => ?_⟩
  rw [List.getD_eq_getElem?_getD, h i m hm, Option.getD_some]
  split
  · rename_i hK
    subst hK
    obtain ⟨-, rfl⟩ : ([] : IVec) = [] ∧ LK = [[]] := by simpa [Listing] using hLK
    have := (Approx.exact A.nonneg 0 (val (coef L1 s1 (dirs1.map (joint D m [] []))))).mul A.nonneg
      (Approx.exact A.nonneg 0 (val (coef L2 s2 (dirs2.map (joint D m [] []))))) (A.mul _ _)
    rw [← abs_mul] at this
    simp only [List.map_cons, List.map_nil, List.sum_cons, List.sum_nil, add_zero, coef_map_val A]
    exact this.mono A.nonneg (by simp)
  · have h0 : Approx u (0 + 1) (val (0 : α)) 0 0 := by
      rw [A.zero]
      have := Approx.exact A.nonneg 1 0
      rwa [abs_zero] at this
    have := fold_addTerm_ok A hs1 hs2 dirs1 dirs2 D m K LK 0 0 0 0 h0
    rwa [zero_add, zero_add, zero_add] at this

theorem Spec.Block.real_coef (A : Accurate α val u) (b : Block α) (m : IVec) : (b.real val).coef m = val (b.coef m) := coef_map_val A _ _ _

theorem fold_mul_ok (A : Accurate α val u) (m : IVec) : ∀ (bs : List (Block α)) (acc : α) (t : ℕ) (x M : ℝ), Approx u t (val acc) x M →
    Approx u (t + bs.length) (val (bs.foldl (fun x b => x * b.coef m) acc)) (x * (bs.map fun b => (b.real val).coef m).prod)
      (M * (bs.map fun b => |(b.real val).coef m|).prod)
  | [], acc, t, x, M, h => by simpa using h
  | b :: bs, acc, t, x, M, h => by
    have := fold_mul_ok A m bs _ _ _ _ (h.mul A.nonneg (Approx.exact A.nonneg 0 (val (b.coef m))) (A.mul _ _))
    rw [List.foldl_cons, List.map_cons, List.map_cons, List.prod_cons, List.prod_cons, List.length_cons, ← mul_assoc x, ← mul_assoc M, b.real_coef A,
      show t + (bs.length + 1) = t + 0 + 1 + bs.length by omega]
    exact this

theorem tensorize_vecsF_ok (A : Accurate α val u) {s : IndexSet} {dim degree : Nat} {b0 : Block α} {bs : List (Block α)}
    (hu : Usable s b0.dirs.length degree) (hz : Sized s dim degree)
    (hdim : ((b0 :: bs).map (·.dirs.length)).sum = dim) (hb : ∀ b ∈ b0 :: bs, b.Ok s degree ∧ Dirs s dim b.dirs)
    {L : List IVec} (hL : IterOk s dim degree L) :
    ∃ r, tensorize_vecs_dirs s ((b0 :: bs).map (·.vec)) ((b0 :: bs).map (·.dirs)) = .ok r ∧ r.length = L.length ∧
      ∀ (i : Nat) (m : IVec), L[i]? = some m →
        |val (r.getD i 0) - ((b0 :: bs).map fun b => (b.real val).coef m).prod| ≤
          err u bs.length * |((b0 :: bs).map fun b => (b.real val).coef m).prod| := by
  obtain ⟨r, e, hl, h⟩ := tensorize_vecs_fold hu hz hdim hb hL
  refine ⟨r, e, hl, fun i m hm => ?_⟩
  rw [List.getD_eq_getElem?_getD, h i m hm, Option.getD_some, List.foldl_cons, one_mul]
  have := (fold_mul_ok A m bs (b0.coef m) 0 _ _ (Approx.exact A.nonneg 0 _)).err
  rw [zero_add] at this
  have e2 : |((b0 :: bs).map fun b => (b.real val).coef m).prod| = |val (b0.coef m)| * (bs.map fun b => |(b.real val).coef m|).prod := by
    rw [List.map_cons, List.prod_cons, abs_mul, b0.real_coef A]
    congr 1
    have := map_list_prod (absHom : ℝ →*₀ ℝ) (bs.map fun b => (b.real val).coef m)
    rw [List.map_map] at this
    exact this
  rw [e2, List.map_cons, List.prod_cons, b0.real_coef A]
  exact this

/-! ## The size of the errors -/

theorem err_le_gamma (hu : 0 ≤ u) {n : ℕ} (h : n * u < 1) : err u n ≤ n * u / (1 - n * u) := by
  rcases Nat.eq_zero_or_pos n with rfl | hn
  · simp [err]
  have hn1 : (1 : ℝ) ≤ n := by exact_mod_cast hn
  have hu1 : u < 1 := by nlinarith
  have h1 : 1 - n * u ≤ (1 - u) ^ n := by
    have := one_add_mul_le_pow (show (-2 : ℝ) ≤ -u by linarith) n
    rw [← sub_eq_add_neg] at this
    linarith
  have h2 : (1 + u) ^ n * (1 - u) ^ n ≤ 1 := by
    rw [← mul_pow]
    exact pow_le_one₀ (by nlinarith) (by nlinarith)
  have h3 : (1 + u) ^ n * (1 - n * u) ≤ 1 := (mul_le_mul_of_nonneg_left h1 (by positivity)).trans h2
  rw [err, le_div_iff₀ (by linarith)]
  linarith

end Hermipy
