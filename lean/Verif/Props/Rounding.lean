import Verif.Lemmas.RoundedAlgebra
import Verif.Lemmas.RoundedExact
import Verif.Lemmas.Binary
import Verif.Props.Blocks

/-!
# Property C91: rounding errors

The numerical loops over floating-point numbers. `Spec.Accurate` is the standard model of rounding with unit roundoff `u`, and `err u n` is
`(1 + u)^n - 1`. Every bound is relative to the sum of the absolute values of the terms of the number which is computed. -/

namespace Hermipy.Props

open Hermipy.Spec

variable {α : Type} [Floats α]

/-- C91. Without rounding the functions are those of the other properties, which the bounds below therefore refer to. -/
theorem C91_exact : @Accurate ℝ realFloats id 0 ∧ @hermite_evalF ℝ realFloats = hermite_eval ∧
    @transformF ℝ realFloats = transform ∧ @integrateF ℝ realFloats = integrate ∧ ∀ n, err 0 n = 0 :=
  ⟨realFloats_accurate, hermite_evalF_real, transformF_real, integrateF_real, fun n => by simp [err]⟩

/-- C91. The numbers with 53 binary digits, where every operation gives a nearest number, meet the assumptions with `u = 2^-53`. -/
theorem C91_binary : Accurate Binary Binary.val (2 ^ (-53 : ℤ)) ∧ ∀ (x : ℝ) (y : Binary), |(rnd x).val - x| ≤ |y.val - x| :=
  ⟨binary_accurate, rnd_nearest⟩

/-- C91. The bounds grow linearly in the number of operations; for `double` and up to 2^26 operations they are below 2^-26. -/
theorem C91_size (u : ℝ) (hu : 0 ≤ u) (n : ℕ) (h : n * u < 1) :
    n * u ≤ err u n ∧ err u n ≤ n * u / (1 - n * u) ∧ (u = 2 ^ (-53 : ℤ) → n ≤ 2 ^ 26 → err u n ≤ 2 ^ (-26 : ℤ)) := by
  refine ⟨?_, err_le_gamma hu h, fun e hn => ?_⟩
  · have := one_add_mul_le_pow (show (-2 : ℝ) ≤ u by linarith) n
    rw [err]
    linarith
  · refine (err_le_gamma hu h).trans ?_
    have h1 : (n : ℝ) ≤ 2 ^ 26 := by exact_mod_cast hn
    have h2 : (n : ℝ) * u ≤ 2 ^ (-27 : ℤ) := by
      rw [e]
      calc (n : ℝ) * 2 ^ (-53 : ℤ) ≤ 2 ^ 26 * 2 ^ (-53 : ℤ) := mul_le_mul_of_nonneg_right h1 (by positivity)
        _ = 2 ^ (-27 : ℤ) := by norm_num
    rw [div_le_iff₀ (by linarith)]
    norm_num at h2 ⊢
    linarith

example : (2 : ℝ) ^ 26 * 2 ^ (-53 : ℤ) < 1 := by norm_num

/-- C91. Entry `i` of the recursion is the normalised Hermite polynomial of degree `i` up to `8 i` rounding errors. -/
theorem C91_hermite_eval (val : α → ℝ) (u : ℝ) (A : Accurate α val u) (slack degree : ℕ) (h : 1 ≤ degree ∨ 1 ≤ slack) (hdeg : degree < 2 ^ 32)
    (x : α) (values : List α) (hl : values.length = degree + 1) :
    ∃ r, hermite_evalF slack x degree values = .ok r ∧ r.length = degree + 1 ∧
      ∀ i ≤ degree, |val (r.getD i 0) - herm i (val x)| ≤ err u (8 * i) * hermAbs i (val x) := by
  obtain ⟨r, e, hl, hr⟩ := hermite_evalF_ok A h hdeg x hl
  refine ⟨r, e, hl, fun i hi => ?_⟩
  obtain ⟨c, hc, h⟩ := hr i hi
  rw [List.getD_eq_getElem?_getD, hc]
  exact h.err

example : Accurate Binary Binary.val (2 ^ (-53 : ℤ)) ∧ (List.replicate 6 (0 : Binary)).length = 5 + 1 := ⟨binary_accurate, by simp⟩

/-- C91. The forward transform. -/
theorem C91_forward (val : α → ℝ) (u : ℝ) (A : Accurate α val u) (slack : ℕ) (s : IndexSet) (degree : ℕ) (hdeg : degree < 2 ^ 32)
    (nodes weights : List (List α)) (fourier : List ℕ) (hz : Sized s nodes.length degree) (hg : Grid (reals val nodes) fourier)
    (hd : DegreeOk slack s degree fourier) (hw : weights.map List.length = nodes.map List.length) (L : List (List ℕ))
    (hL : s.s_list nodes.length degree = .ok L) (f : List α) (hf : f.length = (gridPoints (reals val nodes)).length) :
    ∃ r, transformF slack s degree f nodes weights fourier true = .ok r ∧ r.length = L.length ∧
      ∀ (j : ℕ) (m : List ℕ), L[j]? = some m →
        |val (r.getD j 0) - quadrature (reals val nodes) (reals val weights) fun i p =>
            (f.map val).getD i 0 * basis nodes.length fourier m p| ≤
          err u (nodes.length + 2 + basisOps nodes.length fourier m + f.length) *
            ∑ i ∈ Finset.range f.length, |(gridWeights (reals val weights)).getD i 0| *
              (|(f.map val).getD i 0| * basisAbs nodes.length fourier m ((gridPoints (reals val nodes)).getD i [])) := by
  obtain ⟨r, e, hl, hr⟩ := transformF_forward_ok A hdeg hz hg hd hw (IterOk.of_list hz.fits' hL) hf
  refine ⟨r, e, hl, fun j m hm => ?_⟩
  have := (hr j m hm).err
  rw [absSum, reals_length, ← hf] at this
  exact this

/-- C91. The backward transform: each value of a series. -/
theorem C91_backward (val : α → ℝ) (u : ℝ) (A : Accurate α val u) (slack : ℕ) (s : IndexSet) (degree : ℕ) (hdeg : degree < 2 ^ 32)
    (nodes weights : List (List α)) (fourier : List ℕ) (hz : Sized s nodes.length degree) (hg : Grid (reals val nodes) fourier)
    (hd : DegreeOk slack s degree fourier) (L : List (List ℕ)) (hL : s.s_list nodes.length degree = .ok L) (c : List α)
    (hc : c.length = L.length) :
    ∃ r, transformF slack s degree c nodes weights fourier false = .ok r ∧ r.length = (gridPoints (reals val nodes)).length ∧
      ∀ (i : ℕ) (p : List ℝ), (gridPoints (reals val nodes))[i]? = some p →
        |val (r.getD i 0) - series nodes.length fourier L (c.map val) p| ≤
          err u (nodes.length * (8 * degree + 6) + 1 + L.length) *
            ∑ j ∈ Finset.range L.length, |(c.map val).getD j 0| * basisAbs nodes.length fourier (L.getD j []) p := by
  obtain ⟨r, e, hl, hr⟩ := transformF_backward_ok A hdeg weights hz hg hd (IterOk.of_list hz.fits' hL) hc
  exact ⟨r, e, hl, fun i p hp => (hr i p hp).err⟩

/-- The hypotheses hold for a grid with a Hermite and a Fourier direction of binary numbers. -/
example : Sized .cross 2 6 ∧ Grid (reals Binary.val [[rnd (-1), rnd 0, rnd 2], [rnd 0, rnd 3]]) [0, 1] ∧ DegreeOk 0 .cross 6 [0, 1] ∧
    ([[rnd 1, rnd (1 / 3), rnd 1], [rnd 5, rnd 5]] : List (List Binary)).map List.length =
      ([[rnd (-1), rnd 0, rnd 2], [rnd 0, rnd 3]] : List (List Binary)).map List.length :=
  ⟨(usable_small _ (by omega) (by omega) (by omega)).toSized, ⟨by simp [reals], by simp [reals], by simp [reals], by simp [reals, gridPoints, cartesian]⟩,
    ⟨by simp, by simp, by simp⟩, by simp⟩

/-- C91. Integrals. -/
theorem C91_integrate (val : α → ℝ) (u : ℝ) (A : Accurate α val u) (slack : ℕ) (nodes weights : List (List α)) (fourier : List ℕ)
    (hg : Grid (reals val nodes) fourier) (hs : 0 ∈ fourier → 1 ≤ slack) (hw : weights.map List.length = nodes.map List.length) (f : List α)
    (hf : f.length = (gridPoints (reals val nodes)).length) :
    ∃ r, integrateF slack f nodes weights fourier = .ok r ∧
      |val r - quadrature (reals val nodes) (reals val weights) fun i _ => (f.map val).getD i 0| ≤
        err u (12 * nodes.length + 3 + f.length) *
          ∑ i ∈ Finset.range f.length, |(gridWeights (reals val weights)).getD i 0| * |(f.map val).getD i 0| := by
  obtain ⟨r, e, h⟩ := integrateF_ok A hg hs hw hf
  exact ⟨r, e, h.err⟩

/-- C91. Integrals of a function bounded by `B` for weights which are not negative and have the sum `W`. -/
theorem C91_integrate_bounded (val : α → ℝ) (u : ℝ) (A : Accurate α val u) (slack : ℕ) (nodes weights : List (List α)) (fourier : List ℕ)
    (hg : Grid (reals val nodes) fourier) (hs : 0 ∈ fourier → 1 ≤ slack) (hw : weights.map List.length = nodes.map List.length) (f : List α)
    (hf : f.length = (gridPoints (reals val nodes)).length) (B W : ℝ) (hB : ∀ x ∈ f, |val x| ≤ B)
    (hpos : ∀ x ∈ gridWeights (reals val weights), 0 ≤ x) (hsum : (gridWeights (reals val weights)).sum = W) :
    ∃ r, integrateF slack f nodes weights fourier = .ok r ∧
      |val r - quadrature (reals val nodes) (reals val weights) fun i _ => (f.map val).getD i 0| ≤
        err u (12 * nodes.length + 3 + f.length) * (W * B) := by
  obtain ⟨r, e, h⟩ := C91_integrate val u A slack nodes weights fourier hg hs hw f hf
  refine ⟨r, e, h.trans (mul_le_mul_of_nonneg_left ?_ (err_nonneg A.nonneg _))⟩
  have hlen : (gridWeights (reals val weights)).length = f.length := by
    rw [hf]
    rw [gridWeights, List.length_map, gridPoints, length_cartesian, length_cartesian, reals_lengths, reals_lengths, hw]
  have hW : W = ∑ i ∈ Finset.range f.length, (gridWeights (reals val weights)).getD i 0 := by
    rw [← hsum, ← hlen, Finset.sum_range]
    conv_lhs => rw [← List.ofFn_getElem (xs := gridWeights (reals val weights)), List.sum_ofFn]
    exact Finset.sum_congr rfl fun i _ => by simp
  rw [hW, Finset.sum_mul]
  refine Finset.sum_le_sum fun i hi => ?_
  have hi := Finset.mem_range.1 hi
  have h1 : 0 ≤ (gridWeights (reals val weights)).getD i 0 := by
    rw [List.getD_eq_getElem?_getD, List.getElem?_eq_getElem (by omega)]
    exact hpos _ (List.getElem_mem _)
  have h2 : |(f.map val).getD i 0| ≤ B := by
    rw [List.getD_eq_getElem?_getD, List.getElem?_map, List.getElem?_eq_getElem hi]
    exact hB _ (List.getElem_mem _)
  rw [abs_of_nonneg h1]
  exact mul_le_mul_of_nonneg_left h2 h1

/-- C91. Contraction. -/
theorem C91_inner (val : α → ℝ) (u : ℝ) (A : Accurate α val u) (s : IndexSet) (degree : ℕ) (dirs1 dirs2 D K : List ℕ)
    (hu : Usable s dirs1.length degree) (hz2 : Sized s dirs2.length degree) (hi1 : dirs1.Pairwise (· < ·))
    (hi2 : dirs2.Pairwise (· < ·)) (hsf : SharedFree dirs1 dirs2 D K) (hzD : D ≠ [] → Sized s D.length degree)
    (L1 L2 LD LK : List (List ℕ)) (hL1 : s.s_list dirs1.length degree = .ok L1)
    (hL2 : s.s_list dirs2.length degree = .ok L2) (hLD : Listing s degree D LD) (hLK : Listing s degree K LK)
    (s1 s2 : List α) (hs1 : s1.length = L1.length) (hs2 : s2.length = L2.length) :
    ∃ r, inner s s1 s2 dirs1 dirs2 = .ok r ∧ r.length = LD.length ∧
      ∀ (i : ℕ) (m : List ℕ), LD[i]? = some m →
        |val (r.getD i 0) - (LK.map fun k =>
            coef L1 (s1.map val) (dirs1.map (joint D m K k)) * coef L2 (s2.map val) (dirs2.map (joint D m K k))).sum| ≤
          err u (LK.length + 1) * (LK.map fun k =>
            |coef L1 (s1.map val) (dirs1.map (joint D m K k)) * coef L2 (s2.map val) (dirs2.map (joint D m K k))|).sum := by
  obtain ⟨r, e, hl, h⟩ := innerF_ok A hu hz2 hi1 hi2 hsf hzD (IterOk.of_list hu.toSized.fits' hL1) (IterOk.of_list hz2.fits' hL2)
    hLD hLK hs1 hs2
  exact ⟨r, e, hl, fun i m hm => (h i m hm).err⟩

/-- C91. Tensor products of vectors have a small relative error in every entry. -/
theorem C91_tensorize (val : α → ℝ) (u : ℝ) (A : Accurate α val u) (s : IndexSet) (dim degree : ℕ) (b0 : Block α) (bs : List (Block α))
    (hu : Usable s b0.dirs.length degree) (hz : Sized s dim degree)
    (hdim : ((b0 :: bs).map (·.dirs.length)).sum = dim) (hb : ∀ b ∈ b0 :: bs, b.Ok s degree ∧ Dirs s dim b.dirs)
    (L : List (List ℕ)) (hL : s.s_list dim degree = .ok L) :
    ∃ r, tensorize_vecs_dirs s ((b0 :: bs).map (·.vec)) ((b0 :: bs).map (·.dirs)) = .ok r ∧ r.length = L.length ∧
      ∀ (i : ℕ) (m : List ℕ), L[i]? = some m →
        |val (r.getD i 0) - ((b0 :: bs).map fun b => (b.real val).coef m).prod| ≤
          err u bs.length * |((b0 :: bs).map fun b => (b.real val).coef m).prod| :=
  tensorize_vecsF_ok A hu hz hdim hb (IterOk.of_list hz.fits' hL)

/-- The hypotheses of the last two hold for binary numbers. -/
example : SharedFree [0, 1, 3] [1, 2] [0, 2, 3] [1] ∧ Usable .cross_nc [0, 1, 3].length 12 ∧ Sized .cross_nc [1, 2].length 12 ∧
    ∃ (L1 L2 : List (List ℕ)) (s1 s2 : List Binary), IndexSet.cross_nc.s_list 3 12 = .ok L1 ∧ IndexSet.cross_nc.s_list 2 12 = .ok L2 ∧
      s1.length = L1.length ∧ s2.length = L2.length := by
  have h3 := (usable_small .cross_nc (dim := 3) (degree := 12) (by omega) (by omega) (by omega))
  have h2 := (usable_small .cross_nc (dim := 2) (degree := 12) (by omega) (by omega) (by omega)).toSized
  obtain ⟨L1, e1⟩ := list_exists _ h3.toSized
  obtain ⟨L2, e2⟩ := list_exists _ h2
  refine ⟨⟨by decide, by decide, fun x => ?_, fun x => ?_⟩, h3, h2, L1, L2, L1.map fun m => rnd (1 / (m.sum + 1)), L2.map fun m => rnd √m.sum,
    e1, e2, by simp, by simp⟩
  · simp only [List.mem_cons, List.not_mem_nil, or_false]; omega
  · simp only [List.mem_cons, List.not_mem_nil, or_false]; omega

end Hermipy.Props
