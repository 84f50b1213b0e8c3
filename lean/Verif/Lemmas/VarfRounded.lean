import Verif.Lemmas.FourierRounded
import Verif.Lemmas.TensorizeFold
import Verif.Lemmas.VarfOk
import Mathlib.Algebra.Order.BigOperators.Ring.Finset

/-! # Rounding errors of variational forms -/

namespace Hermipy

open Spec

variable {α : Type} [Doubles α] {val : α → ℝ} {u : ℝ}

instance arithSpDoubles : LawfulArith (SpMat α) α := arithSpMat_of Doubles.add_zero Doubles.zero_mul

/-! ## Factors -/

/-- One slice of a table. -/
def sliceF (n : ℕ) (g : ℕ → ℕ → ℕ → ℕ → α) (f k : ℕ) : DMat α :=
  (List.range (n + 1)).map fun i => (List.range (n + 1)).map fun j => g f k i j

omit [Doubles α] in
theorem sliceF_isMat (n : ℕ) (g : ℕ → ℕ → ℕ → ℕ → α) (f k : ℕ) : IsMat (sliceF n g f k) (n + 1) (n + 1) (g f k) := by
  refine ⟨by simp [sliceF], ?_, ?_⟩
  · intro r hr
    obtain ⟨i, -, rfl⟩ := List.mem_map.1 hr
    simp
  · intro i j r x hr hx
    simp only [sliceF, List.getElem?_map, Option.map_eq_some_iff] at hr
    obtain ⟨a, ha, rfl⟩ := hr
    simp only [List.getElem?_map, Option.map_eq_some_iff] at hx
    obtain ⟨b, hb, rfl⟩ := hx
    obtain ⟨h1, e1⟩ := List.getElem?_eq_some_iff.1 ha
    obtain ⟨h2, e2⟩ := List.getElem?_eq_some_iff.1 hb
    simp only [List.getElem_range] at e1 e2
    rw [e1, e2]

omit [Doubles α] in
theorem varfFactorsF_ok {n : ℕ} {g : ℕ → ℕ → ℕ → ℕ → α} (hg : ∀ f, f ≠ 1 → g f = g 0) {F : List (List (List α))} :
    ∀ (fs : List ℕ) (ms : IVec), fs.length = ms.length →
    (∀ x ∈ ms, x ≤ 2 * n) → (1 ∈ fs → F = cubeOf (2 * n + 1) (n + 1) (g 1)) →
    varfFactors (cubeOf (2 * n + 1) (n + 1) (g 0)) F fs ms = .ok (List.zipWith (sliceF n g) fs ms)
  | [], [], _, _, _ => rfl
  | [], _ :: _, h, _, _ => by simp at h
  | _ :: _, [], h, _, _ => by simp at h
  | f :: fs, m :: ms, hl, hm, hF => by
    have hm0 : m < 2 * n + 1 := by have := hm m (by simp); omega
    have e : (if f = 1 then rd F m else rd (cubeOf (2 * n + 1) (n + 1) (g 0)) m) = .ok (sliceF n g f m) := by
      by_cases hf : f = 1
      · rw [if_pos hf, hF (by simp [hf]), cubeOf, rd_map_range _ hm0, hf]
        rfl
      · rw [if_neg hf, cubeOf, rd_map_range _ hm0, ← hg f hf]
        rfl
    rw [varfFactors, varfFactorsF_ok hg fs ms (by simpa using hl) (fun x hx => hm x (by simp [hx]))
      (fun h => hF (by simp [h]))]
    by_cases hf : f = 1
    · simp only [if_pos hf] at e ⊢
      rw [e]; rfl
    · simp only [if_neg hf] at e ⊢
      rw [e]; rfl

open Classical in
/-- The tensor product of slices. -/
theorem tensor_slicesF {T : Type} [Meaning T α] [Convert (SpMat α) T] [LawfulConvert (SpMat α) T α] [MatOps T α] [LawfulMat T α]
    {s : IndexSet} {dim degree : ℕ}
    (hz : Sized s dim degree) (hu : ∀ k, 1 ≤ k → k < dim → Usable s k degree) (hc : s = .cross ∨ s = .cross_nc → 1 ≤ degree)
    {L : List IVec} (hL : IterOk s dim degree L) (g : ℕ → ℕ → ℕ → ℕ → α) {fourier m : List ℕ} (hf : fourier.length = dim)
    (hm : m.length = dim) :
    ∃ R : T, tensorize_mats_axes (α := α) (S := DMat α) s (List.zipWith (sliceF degree g) fourier m) = .ok R ∧
      IsMat R L.length L.length (fun i j => ((List.range dim).map fun d =>
        g (fourier.getD d 0) (m.getD d 0) ((L.getD i []).getD d 0) ((L.getD j []).getD d 0)).foldl (· * ·) 1) := by
  obtain ⟨L1, hL1⟩ := iterOk_exists (hz.sub le_rfl hz.dim_pos).fits'
  have hline := hL1.line hc
  obtain ⟨blk, hblk⟩ : ∃ blk : ℕ → DMat α × MBlock α, blk = fun d =>
    (sliceF degree g (fourier.getD d 0) (m.getD d 0), ⟨[d], L1, g (fourier.getD d 0) (m.getD d 0)⟩) := ⟨_, rfl⟩
  have hd1 : ((List.range dim).map blk).map (·.2.dirs) = (List.range dim).map fun i => [i] := by
    rw [List.map_map, hblk]; rfl
  have hd2 : ((List.range dim).map blk).map (·.1) = List.zipWith (sliceF degree g) fourier m := by
    rw [List.map_map, hblk]
    apply List.ext_getElem
    · simp [hf, hm]
    · intro i hi hi'
      simp only [List.length_map, List.length_range] at hi
      simp [hf, hm, hi]
  obtain ⟨R, eR, hR⟩ := tensorize_mats_fold (T := T) (bs := (List.range dim).map blk) hz hu
    (by rw [hd1]; exact partition_axes)
    (by
      intro b hb
      obtain ⟨i, -, rfl⟩ := List.mem_map.1 hb
      rw [hblk]
      refine ⟨hL1.list, ?_⟩
      have := sliceF_isMat degree g (fourier.getD i 0) (m.getD i 0)
      simpa [hline] using this) hL
  rw [hd1, hd2] at eR
  refine ⟨R, ?_, LawfulMat.congr hR fun i j hi hj => ?_⟩
  · rw [tensorize_mats_axes, axesDirs_eq]
    have : (List.zipWith (sliceF degree g) fourier m).length = dim := by simp [hf, hm]
    rw [this]
    exact eR
  · rw [List.map_map]
    congr 1
    refine List.map_congr_left fun x hx => ?_
    have hx := List.mem_range.1 hx
    have hin : ∀ i, i < L.length → (L.getD i []).getD x 0 ≤ degree := by
      intro i hi
      have := inSet_restrict (dirs_single s hx) ((hL.mem (L.getD i [])).1 (by simp [hi]))
      exact (inSet_one hc _).1 this
    have hidx : ∀ a, a ≤ degree → [a] ∈ L1 ∧ L1.idxOf [a] = a := by
      intro a ha
      have h0 : L1[a]? = some [a] := by rw [hline, List.getElem?_map, List.getElem?_range (by omega)]; rfl
      exact ⟨List.mem_of_getElem? h0, idxOf_of_getElem? hL1.nodup h0⟩
    rw [hblk]
    simp only [Function.comp, MBlock.entry, restrict, List.map_cons, List.map_nil]
    rw [entry, if_pos ⟨(hidx _ (hin i hi)).1, (hidx _ (hin j hj)).1⟩, (hidx _ (hin i hi)).2, (hidx _ (hin j hj)).2]

theorem foldl_approx (A : Accurate α val u) {q : ℕ} (c : ℕ → α) (x M : ℕ → ℝ) : ∀ n : ℕ,
    (∀ d < n, Approx u q (val (c d)) (x d) (M d)) →
    Approx u (n * (q + 1)) (val (((List.range n).map c).foldl (· * ·) 1)) (∏ d ∈ Finset.range n, x d) (∏ d ∈ Finset.range n, M d)
  | 0, _ => by
    have := Approx.exact A.nonneg (0 * (q + 1)) (1 : ℝ)
    rw [abs_one] at this
    simpa [A.one] using this
  | n + 1, h => by
    have ih := foldl_approx A c x M n fun d hd => h d (by omega)
    rw [List.range_succ, List.map_append, List.foldl_append, Finset.prod_range_succ, Finset.prod_range_succ]
    have := ih.mul A.nonneg (h n (by omega)) (A.mul _ _)
    exact this.mono A.nonneg (by rw [Nat.add_mul]; omega)

/-! ## The norm -/

theorem Spec.Accurate.le_add (A : Accurate α val u) {x y : α} {a b : ℝ} (hx : 0 ≤ val x) (hy : 0 ≤ val y) (h : val x ≤ a) (h' : val y ≤ b) :
    0 ≤ val (x + y) ∧ val (x + y) ≤ (1 + u) * (a + b) := by
  have hu := A.nonneg
  have hs := A.small
  have e := A.add x y
  rw [abs_of_nonneg (add_nonneg hx hy)] at e
  obtain ⟨h1, h2⟩ := abs_le.1 e
  constructor
  · nlinarith
  · nlinarith

theorem normSum (A : AccurateD α val u) : ∀ (l : List α) (t : α) (b : ℝ), 0 ≤ val t → val t ≤ (1 + u) * b → 0 ≤ b →
    0 ≤ val (l.foldl (fun t x => t + Doubles.abs x * Doubles.abs x) t) ∧
      val (l.foldl (fun t x => t + Doubles.abs x * Doubles.abs x) t) ≤ (1 + u) ^ (l.length + 1) * (b + (l.map fun x => val x ^ 2).sum)
  | [], t, b, h0, h1, _ => ⟨h0, by simpa using h1⟩
  | x :: l, t, b, h0, h1, hb => by
    have hu := A.nonneg
    have hs := A.small
    have hm := A.mul (Doubles.abs x) (Doubles.abs x)
    rw [A.abs, abs_mul_abs_self] at hm
    rw [abs_of_nonneg (mul_self_nonneg (val x))] at hm
    obtain ⟨m1, m2⟩ := abs_le.1 hm
    have hsq := mul_self_nonneg (val x)
    obtain ⟨a1, a2⟩ := A.toAccurate.le_add (x := t) (y := Doubles.abs x * Doubles.abs x) (a := (1 + u) * b) (b := (1 + u) * (val x) ^ 2)
      h0 (by nlinarith) h1 (by nlinarith)
    obtain ⟨i1, i2⟩ := normSum A l (t + Doubles.abs x * Doubles.abs x) ((1 + u) * (b + val x ^ 2)) a1 (a2.trans (by nlinarith))
      (by nlinarith [sq_nonneg (val x)])
    refine ⟨i1, i2.trans ?_⟩
    rw [List.length_cons, List.map_cons, List.sum_cons, pow_succ (1 + u) (l.length + 1)]
    have hp : 0 ≤ (1 + u) ^ (l.length + 1) := by positivity
    have hsum : 0 ≤ (l.map fun x => val x ^ 2).sum := List.sum_nonneg fun y hy => by
      obtain ⟨z, -, rfl⟩ := List.mem_map.1 hy
      exact sq_nonneg _
    have : (1 + u) * (b + val x ^ 2) + (l.map fun x => val x ^ 2).sum ≤ (1 + u) * (b + (val x ^ 2 + (l.map fun x => val x ^ 2).sum)) := by nlinarith
    calc (1 + u) ^ (l.length + 1) * ((1 + u) * (b + val x ^ 2) + (l.map fun x => val x ^ 2).sum)
        ≤ (1 + u) ^ (l.length + 1) * ((1 + u) * (b + (val x ^ 2 + (l.map fun x => val x ^ 2).sum))) := mul_le_mul_of_nonneg_left this hp
      _ = _ := by ring

theorem one_le_pow' (hu : 0 ≤ u) (k : ℕ) : 1 ≤ (1 + u) ^ k := one_le_pow₀ (by linarith)

theorem normF_le (A : AccurateD α val u) (l : List α) :
    val (varfNormF l) ≤ (1 + u) ^ (l.length + 2) * max 1 √((l.map fun x => val x ^ 2).sum) := by
  have hu := A.nonneg
  obtain ⟨h0, h1⟩ := normSum A l 0 0 A.zero.ge (by rw [A.zero]; linarith) le_rfl
  rw [zero_add] at h1
  have hsum : 0 ≤ (l.map fun x => val x ^ 2).sum := List.sum_nonneg fun y hy => by
    obtain ⟨z, -, rfl⟩ := List.mem_map.1 hy
    exact sq_nonneg _
  rw [varfNormF]
  set S := l.foldl (fun t x => t + Doubles.abs x * Doubles.abs x) (0 : α)
  have hm : (1 : ℝ) ≤ max 1 √((l.map fun x => val x ^ 2).sum) := le_max_left _ _
  have hp := one_le_pow' hu (l.length + 2)
  by_cases hlt : Doubles.lt (Floats.sqrt S) (1 : α) = true
  · rw [if_pos hlt, A.one]
    nlinarith
  · rw [if_neg hlt]
    have e := A.sqrt S h0
    have h2 : val (Floats.sqrt S) ≤ (1 + u) * √(val S) := by have := (abs_le.1 e).2; linarith
    have h3 : √(val S) ≤ (1 + u) ^ (l.length + 1) * √((l.map fun x => val x ^ 2).sum) := by
      have hP := one_le_pow' hu (l.length + 1)
      refine Real.sqrt_le_iff.2 ⟨by positivity, ?_⟩
      rw [mul_pow, Real.sq_sqrt hsum]
      refine h1.trans (mul_le_mul_of_nonneg_right ?_ hsum)
      nlinarith
    calc val (Floats.sqrt S) ≤ (1 + u) * ((1 + u) ^ (l.length + 1) * √((l.map fun x => val x ^ 2).sum)) :=
          h2.trans (mul_le_mul_of_nonneg_left h3 (by linarith))
      _ = (1 + u) ^ (l.length + 2) * √((l.map fun x => val x ^ 2).sum) := by ring
      _ ≤ _ := mul_le_mul_of_nonneg_left (le_max_right _ _) (by linarith)

theorem norm_add_le' (n : ℕ) (a b : ℕ → ℝ) :
    √(∑ t ∈ Finset.range n, (a t + b t) ^ 2) ≤ √(∑ t ∈ Finset.range n, a t ^ 2) + √(∑ t ∈ Finset.range n, b t ^ 2) := by
  have ha : 0 ≤ ∑ t ∈ Finset.range n, a t ^ 2 := Finset.sum_nonneg fun t _ => sq_nonneg _
  have hb : 0 ≤ ∑ t ∈ Finset.range n, b t ^ 2 := Finset.sum_nonneg fun t _ => sq_nonneg _
  refine Real.sqrt_le_iff.2 ⟨by positivity, ?_⟩
  have hcs : ∑ t ∈ Finset.range n, a t * b t ≤ √(∑ t ∈ Finset.range n, a t ^ 2) * √(∑ t ∈ Finset.range n, b t ^ 2) := by
    rw [← Real.sqrt_mul ha]
    exact Real.le_sqrt_of_sq_le (Finset.sum_mul_sq_le_sq_mul_sq _ _ _)
  have e : ∑ t ∈ Finset.range n, (a t + b t) ^ 2 =
      ∑ t ∈ Finset.range n, a t ^ 2 + 2 * ∑ t ∈ Finset.range n, a t * b t + ∑ t ∈ Finset.range n, b t ^ 2 := by
    rw [Finset.mul_sum, ← Finset.sum_add_distrib, ← Finset.sum_add_distrib]
    exact Finset.sum_congr rfl fun t _ => by ring
  rw [e, add_sq, Real.sq_sqrt ha, Real.sq_sqrt hb]
  linarith

theorem sum_map_getD (l : List α) (g : α → ℝ) : (l.map g).sum = ∑ t ∈ Finset.range l.length, g (l.getD t 0) := by
  induction l with
  | nil => simp
  | cons a l ih => rw [List.map_cons, List.sum_cons, ih, List.length_cons, Finset.sum_range_succ']; simp [add_comm]

theorem tolF_le (A : AccurateD α val u) {K : ℕ} {L2 : List IVec} {Hf : List α} {c S : List ℕ → ℝ} (hl : Hf.length = L2.length)
    (h : ∀ t < L2.length, Approx u K (val (Hf.getD t 0)) (c (L2.getD t [])) (S (L2.getD t []))) :
    val (Doubles.threshold * varfNormF Hf) ≤ dropTolAbs u K L2 c S := by
  have hu := A.nonneg
  have hn := normF_le A Hf
  have hsum : √((Hf.map fun x => val x ^ 2).sum) ≤ √(∑ t ∈ Finset.range L2.length, c (L2.getD t []) ^ 2) +
      err u K * √(∑ t ∈ Finset.range L2.length, S (L2.getD t []) ^ 2) := by
    have hE := err_nonneg hu K
    rw [sum_map_getD, hl]
    have e : err u K * √(∑ t ∈ Finset.range L2.length, S (L2.getD t []) ^ 2) =
        √(∑ t ∈ Finset.range L2.length, (err u K * S (L2.getD t [])) ^ 2) := by
      simp only [mul_pow]
      rw [← Finset.mul_sum, Real.sqrt_mul (sq_nonneg _), Real.sqrt_sq hE]
    have e2 : ∑ t ∈ Finset.range L2.length, c (L2.getD t []) ^ 2 = ∑ t ∈ Finset.range L2.length, |c (L2.getD t [])| ^ 2 := by
      simp only [sq_abs]
    rw [e, e2]
    refine le_trans (Real.sqrt_le_sqrt (Finset.sum_le_sum fun t ht => ?_)) (norm_add_le' L2.length (fun t => |c (L2.getD t [])|)
      fun t => err u K * S (L2.getD t []))
    have ha := h t (Finset.mem_range.1 ht)
    rw [← sq_abs]
    refine pow_le_pow_left₀ (abs_nonneg _) ?_ 2
    have h1 := abs_sub_abs_le_abs_sub (val (Hf.getD t 0)) (c (L2.getD t []))
    have h2 := ha.err
    linarith
  have hth : |val (Doubles.threshold : α)| ≤ (1 + u) * (1 / 10 ^ 12) := by
    have := A.threshold
    have h2 := abs_sub_abs_le_abs_sub (val (Doubles.threshold : α)) (1 / 10 ^ 12)
    rw [abs_of_pos (show (0 : ℝ) < 1 / 10 ^ 12 by norm_num)] at h2
    linarith
  have hnn : 0 ≤ val (varfNormF Hf) := by
    rw [varfNormF]
    split
    · rw [A.one]; exact zero_le_one
    · rename_i h
      rw [A.lt, A.one] at h
      linarith [not_lt.1 h]
  have hmul := A.mul (Doubles.threshold : α) (varfNormF Hf)
  have h1 : val (Doubles.threshold * varfNormF Hf) ≤ (1 + u) * (|val (Doubles.threshold : α)| * val (varfNormF Hf)) := by
    have h3 := abs_sub_abs_le_abs_sub (val (Doubles.threshold * varfNormF Hf)) (val (Doubles.threshold : α) * val (varfNormF Hf))
    have h4 := le_abs_self (val (Doubles.threshold * varfNormF Hf))
    rw [abs_mul, abs_of_nonneg hnn] at h3 hmul
    linarith
  rw [hl] at hn
  have hmax : max 1 √((Hf.map fun x => val x ^ 2).sum) ≤ max 1 (√(∑ t ∈ Finset.range L2.length, c (L2.getD t []) ^ 2) +
      err u K * √(∑ t ∈ Finset.range L2.length, S (L2.getD t []) ^ 2)) := max_le_max le_rfl hsum
  have hp : 0 ≤ (1 + u) ^ (L2.length + 2) := by positivity
  calc val (Doubles.threshold * varfNormF Hf) ≤ (1 + u) * (((1 + u) * (1 / 10 ^ 12)) * ((1 + u) ^ (L2.length + 2) *
        max 1 (√(∑ t ∈ Finset.range L2.length, c (L2.getD t []) ^ 2) +
          err u K * √(∑ t ∈ Finset.range L2.length, S (L2.getD t []) ^ 2)))) := by
        refine h1.trans (mul_le_mul_of_nonneg_left ?_ (by linarith))
        exact mul_le_mul hth (hn.trans (mul_le_mul_of_nonneg_left hmax hp)) hnn (by positivity)
    _ = dropTolAbs u K L2 c S := by rw [dropTolAbs]; ring

/-! ## The form -/

/-- A coefficient which is kept. -/
def keptF (Hf : List α) (t : ℕ) : Bool := !Doubles.lt (Doubles.abs (Hf.getD t 0)) (Doubles.threshold * varfNormF Hf)

theorem getD_mem {m : IVec} {d : ℕ} (h : d < m.length) : m.getD d 0 ∈ m := by simp [h]

open Classical in
theorem varfF_ok (A : AccurateD α val u) {T : Type} [Meaning T α] [Convert (SpMat α) T] [LawfulConvert (SpMat α) T α] [MatOps T α]
    [LawfulMat T α] [MatArith T α] [LawfulArith T α] {slack : ℕ} {s : IndexSet} {degree : ℕ} {nodes weights : List (List α)}
    {fourier : List ℕ} (hz : Sized s nodes.length degree) (hz2 : Sized s nodes.length (2 * degree))
    (hu : ∀ k, 1 ≤ k → k < nodes.length → Usable s k degree) (hg : Spec.Grid (reals val nodes) fourier)
    (hd : DegreeOk slack s degree fourier) (hw : weights.map List.length = nodes.map List.length) {L L2 : List IVec}
    (hL : IterOk s nodes.length degree L) (hL2 : IterOk s nodes.length (2 * degree) L2) {f : List α}
    (hf : f.length = (gridPoints (reals val nodes)).length) :
    ∃ (R : T) (c : ℕ → ℕ → α), varfF slack s degree f nodes weights fourier = .ok R ∧ IsMat R L.length L.length c ∧
      (1 ∉ fourier → ∀ i j, c i j = c j i) ∧ ∀ i j, i < L.length → j < L.length →
        |val (c i j) - ∑ t ∈ Finset.range L2.length, fcoef (reals val nodes) (reals val weights) fourier (f.map val) (L2.getD t []) *
            tripleProd nodes.length fourier (L2.getD t []) (L.getD i []) (L.getD j [])| ≤
          err u (coefOps nodes.length degree f.length + nodes.length * (19 * degree + 17) + 1 + L2.length) *
            (∑ t ∈ Finset.range L2.length, fcoefAbs (reals val nodes) (reals val weights) fourier (f.map val) (L2.getD t []) *
              tripleProdAbs nodes.length fourier (L2.getD t []) (L.getD i []) (L.getD j [])) +
          dropTolAbs u (coefOps nodes.length degree f.length) L2 (fcoef (reals val nodes) (reals val weights) fourier (f.map val))
              (fcoefAbs (reals val nodes) (reals val weights) fourier (f.map val)) *
            ∑ t ∈ Finset.range L2.length, |tripleProd nodes.length fourier (L2.getD t []) (L.getD i []) (L.getD j [])| := by
  have hun := A.nonneg
  have hfl : fourier.length = nodes.length := by rw [hg.flags.1, reals_length]
  have hd2 : DegreeOk slack s (2 * degree) fourier :=
    ⟨fun _ => by omega, fun h => by have := hd.hermite h; omega, fun h => by have := hd.cross h; omega⟩
  have hdeg : 2 * degree < 2 ^ 32 := hz2.degree_lt
  have hwrap : wrap32 (2 * degree) = 2 * degree := Nat.mod_eq_of_lt hdeg
  have hsize := hL.size hz.dim_pos (by rw [hL.length]; exact hz.card_lt)
  obtain ⟨Hf, htr, hHl, hH⟩ := transformF_forward_ok A.toAccurate hdeg hz2 hg hd2 hw hL2 hf
  -- coefficients
  set c0 := fcoef (reals val nodes) (reals val weights) fourier (f.map val) with hc0
  set S0 := fcoefAbs (reals val nodes) (reals val weights) fourier (f.map val) with hS0
  set K := coefOps nodes.length degree f.length with hK
  have hcoef : ∀ t < L2.length, Approx u K (val (Hf.getD t 0)) (c0 (L2.getD t [])) (S0 (L2.getD t [])) := by
    intro t ht
    have ht' : L2[t]? = some (L2.getD t []) := by simp [ht]
    have h := hH t _ ht'
    have hmem := (hL2.mem _).1 (List.mem_of_getElem? ht')
    have hb := basisOps_le (dim := nodes.length) (fourier := fourier) (inSet_le hd2.cross hmem)
    have e1 : absSum (reals val nodes) (reals val weights) (f.map val) fourier (L2.getD t []) (gridPoints (reals val nodes)).length =
        S0 (L2.getD t []) := by rw [absSum, hS0, fcoefAbs, List.length_map, hf]
    have e2 : quadrature (reals val nodes) (reals val weights) (fun i p => (f.map val).getD i 0 * basis nodes.length fourier (L2.getD t []) p) =
        c0 (L2.getD t []) := by rw [hc0, fcoef, reals_length]
    rw [e1, e2] at h
    refine h.mono hun ?_
    have h3 : 8 * (2 * degree) + 6 = 16 * degree + 6 := by ring
    rw [h3] at hb
    rw [hK, coefOps, hf]
    omega
  -- tables
  obtain ⟨g, F, eF, hgF, hg0, hg1, hgA⟩ : ∃ (g : ℕ → ℕ → ℕ → ℕ → α) (F : List (List (List α))),
      (if 1 ∈ fourier then triple_products_fourierF degree else .ok []) = .ok F ∧
      (1 ∈ fourier → F = cubeOf (2 * degree + 1) (degree + 1) (g 1)) ∧ g 0 = tauF ∧ (∀ f, f ≠ 1 → g f = g 0) ∧
      ∀ f ∈ fourier, ∀ k i j, k ≤ 2 * degree → i ≤ degree → j ≤ degree →
        Approx u (tableOps f i j) (val (g f k i j)) (triple f k i j) (tripleAbs f k i j) := by
    by_cases h : 1 ∈ fourier
    · obtain ⟨gF, e, hgF⟩ := triple_products_fourierF_ok A (hd.even h)
      refine ⟨fun f => if f = 1 then gF else tauF, _, by rw [if_pos h, e], fun _ => by simp, by simp, fun f hf => by simp [hf], ?_⟩
      intro f _ k i j hk hi hj
      by_cases hf : f = 1
      · subst hf
        simpa using hgF k i j hk hi hj
      · simp only [if_neg hf]
        exact tauF_approx A (n := degree) (by omega) hi hj hf
    · refine ⟨fun _ => tauF, [], by rw [if_neg h], fun h' => absurd h' h, rfl, fun _ _ => rfl, ?_⟩
      intro f hf k i j hk hi hj
      exact tauF_approx A (n := degree) (by omega) hi hj (fun e => h (e ▸ hf))
  have mem : ∀ i < L.length, ∀ d < nodes.length, (L.getD i []).getD d 0 ≤ degree := by
    intro i hi d hdd
    have := inSet_restrict (dirs_single s hdd) ((hL.mem (L.getD i [])).1 (by simp [hi]))
    exact (inSet_one hd.cross _).1 this
  -- products
  have hprod : ∀ t < L2.length, ∀ i < L.length, ∀ j < L.length, Approx u (nodes.length * (19 * degree + 17))
      (val (((List.range nodes.length).map fun d => g (fourier.getD d 0) ((L2.getD t []).getD d 0) ((L.getD i []).getD d 0)
        ((L.getD j []).getD d 0)).foldl (· * ·) 1))
      (tripleProd nodes.length fourier (L2.getD t []) (L.getD i []) (L.getD j []))
      (tripleProdAbs nodes.length fourier (L2.getD t []) (L.getD i []) (L.getD j [])) := by
    intro t ht i hi j hj
    have hmem := (hL2.mem (L2.getD t [])).1 (by simp [ht])
    have hml := inSet_length hmem
    refine foldl_approx A.toAccurate (q := 19 * degree + 16) _ _ _ _ fun d hdd => ?_
    have h1 : fourier.getD d 0 ∈ fourier := by simp [hfl, hdd]
    have h2 : (L2.getD t []).getD d 0 ≤ 2 * degree := inSet_le hd2.cross hmem _ (getD_mem (by omega))
    refine (hgA _ h1 _ _ _ h2 (mem i hi d hdd) (mem j hj d hdd)).mono hun ?_
    have := mem i hi d hdd
    rw [tableOps]
    split
    · omega
    · have : min ((L.getD i []).getD d 0) ((L.getD j []).getD d 0) ≤ degree := (min_le_left _ _).trans (mem i hi d hdd)
      omega
  have eF' : ∀ k : List (List (List α)) → Out T, (if 1 ∈ fourier then triple_products_fourierF degree >>= k else Out.ok [] >>= k) = k F := by
    intro k
    by_cases h : 1 ∈ fourier
    · rw [if_pos h] at eF ⊢
      rw [eF, Out.ok_bind]
    · rw [if_neg h] at eF ⊢
      rw [eF, Out.ok_bind]
  rw [varfF]
  dsimp only
  rw [hsize, Out.ok_bind, hwrap, htr, Out.ok_bind, hL2.iter, Out.ok_bind, triple_products_1dF_eq, Out.ok_bind, freshIter_reset, eF',
    ← hg0, hHl]
  set Q := nodes.length * (19 * degree + 17) with hQ
  obtain ⟨it, R, e, -, C, hR, hsym, hC⟩ := hL2.countLoop (acc := MatOps.construct (M := T) L.length L.length)
    (body := fun i m result => do
        let h ← rd Hf i
        if Doubles.lt (Doubles.abs h) (Doubles.threshold * varfNormF Hf) then .ok result
        else do
          let factors ← varfFactors (cubeOf (2 * degree + 1) (degree + 1) (g 0)) F fourier m
          let it ← tensorize_mats_axes (α := α) (S := DMat α) (T := T) s factors
          MatArith.add result (MatArith.scale it h))
    (fun n R => ∃ C : ℕ → ℕ → α, IsMat R L.length L.length C ∧ (1 ∉ fourier → ∀ i j, C i j = C j i) ∧ ∀ i < L.length, ∀ j < L.length, Approx u (K + Q + 1 + n) (val (C i j))
      (∑ t ∈ Finset.range n, if keptF Hf t then
        c0 (L2.getD t []) * tripleProd nodes.length fourier (L2.getD t []) (L.getD i []) (L.getD j []) else 0)
      (∑ t ∈ Finset.range n, if keptF Hf t then
        S0 (L2.getD t []) * tripleProdAbs nodes.length fourier (L2.getD t []) (L.getD i []) (L.getD j []) else 0))
    ⟨fun _ _ => 0, LawfulMat.construct (M := T) (α := α) L.length L.length, fun _ _ _ => rfl, fun i _ j _ => by
      simpa using approx_zero A.toAccurate _ le_rfl⟩
    (by
      rintro t m R ht ⟨C, hR, hsym, hC⟩
      obtain ⟨hlt, hte⟩ := List.getElem?_eq_some_iff.1 ht
      have hget : L2.getD t [] = m := by simp [hlt, hte]
      have hrd : rd Hf t = .ok (Hf.getD t 0) := by
        rw [rd_of_lt (by omega)]
        simp [hHl, hlt]
      simp only [hrd, Out.ok_bind]
      by_cases hdrop : Doubles.lt (Doubles.abs (Hf.getD t 0)) (Doubles.threshold * varfNormF Hf) = true
      · rw [if_pos hdrop]
        refine ⟨R, rfl, C, hR, hsym, fun i hi j hj => ?_⟩
        have hk : keptF Hf t = false := by rw [keptF, hdrop]; rfl
        rw [Finset.sum_range_succ, Finset.sum_range_succ, hk]
        simp only [Bool.false_eq_true, if_false, add_zero]
        exact (hC i hi j hj).mono hun (by omega)
      · rw [if_neg hdrop]
        have hk : keptF Hf t = true := by rw [keptF]; simpa using hdrop
        have hmem := (hL2.mem m).1 (List.mem_of_getElem? ht)
        have hml := inSet_length hmem
        rw [varfFactorsF_ok hg1 fourier m (by rw [hfl, hml]) (inSet_le hd2.cross hmem) hgF]
        obtain ⟨S, eS, hS⟩ := tensor_slicesF (T := T) hz hu hd.cross hL g hfl hml
        obtain ⟨D, eD, hD⟩ := LawfulArith.add hR (LawfulArith.scale (Hf.getD t 0) hS)
        refine ⟨D, ?_, _, hD, fun h1 i j => ?_, fun i hi j hj => ?_⟩
        · rw [Out.ok_bind, eS, Out.ok_bind, eD]
        · have hcol : (List.range nodes.length).map (fun d => g (fourier.getD d 0) (m.getD d 0) ((L.getD i []).getD d 0) ((L.getD j []).getD d 0)) =
              (List.range nodes.length).map fun d => g (fourier.getD d 0) (m.getD d 0) ((L.getD j []).getD d 0) ((L.getD i []).getD d 0) := by
            refine List.map_congr_left fun d hdd => ?_
            have hdd := List.mem_range.1 hdd
            have hmem : fourier.getD d 0 ∈ fourier := getD_mem (by omega)
            rw [hg1 _ fun e => h1 (e ▸ hmem), hg0, tauF_symm]
          rw [hcol, hsym h1 i j]
        · rw [Finset.sum_range_succ, Finset.sum_range_succ, hk]
          simp only [if_true]
          have hp := hprod t hlt i hi j hj
          rw [hget] at hp
          have hm := (hp.mul hun (hcoef t hlt) (A.mul _ _))
          rw [hget] at hm
          have hm' := hm.mono hun (k' := K + Q + 1 + t) (by omega)
          have ha := (hC i hi j hj).add hun hm' (A.add _ _)
          rw [hget, mul_comm (c0 m), mul_comm (S0 m)]
          exact ha)
  refine ⟨R, C, by rw [e, Out.ok_bind], hR, hsym, fun i j hi hj => ?_⟩
  have h := hC i hi j hj
  set tp := fun t => tripleProd nodes.length fourier (L2.getD t []) (L.getD i []) (L.getD j []) with htp
  set ta := fun t => tripleProdAbs nodes.length fourier (L2.getD t []) (L.getD i []) (L.getD j []) with hta
  have htol := tolF_le A hHl hcoef
  set tol := dropTolAbs u K L2 c0 S0 with htoldef
  have hN : K ≤ K + Q + 1 + L2.length := by omega
  set N := K + Q + 1 + L2.length with hNdef
  have hmis : |∑ t ∈ Finset.range L2.length, (if keptF Hf t then c0 (L2.getD t []) * tp t else 0) -
      ∑ t ∈ Finset.range L2.length, c0 (L2.getD t []) * tp t| ≤
      ∑ t ∈ Finset.range L2.length, ((if keptF Hf t then 0 else err u N * (S0 (L2.getD t []) * ta t)) + tol * |tp t|) := by
    rw [← Finset.sum_sub_distrib]
    refine (Finset.abs_sum_le_sum_abs _ _).trans (Finset.sum_le_sum fun t ht => ?_)
    have ht := Finset.mem_range.1 ht
    have hT0 : 0 ≤ val (Doubles.threshold * varfNormF Hf) ∨ keptF Hf t = true := by
      by_cases hk : keptF Hf t = true
      · exact Or.inr hk
      · left
        rw [keptF] at hk
        simp only [Bool.not_eq_true, Bool.not_eq_false'] at hk
        rw [A.lt, A.abs] at hk
        exact (abs_nonneg _).trans hk.le
    have htol0 : 0 ≤ tol := by
      rw [htoldef, dropTolAbs]
      have : (0 : ℝ) ≤ max 1 (√(∑ t ∈ Finset.range L2.length, c0 (L2.getD t []) ^ 2) + err u K * √(∑ t ∈ Finset.range L2.length, S0 (L2.getD t []) ^ 2)) :=
        zero_le_one.trans (le_max_left _ _)
      positivity
    by_cases hk : keptF Hf t = true
    · rw [if_pos hk, if_pos hk, sub_self, abs_zero, zero_add]
      exact mul_nonneg htol0 (abs_nonneg _)
    · rw [if_neg hk, if_neg hk, zero_sub, abs_neg, abs_mul]
      rw [keptF] at hk
      simp only [Bool.not_eq_true, Bool.not_eq_false'] at hk
      rw [A.lt, A.abs] at hk
      have h1 := hcoef t ht
      have h2 := hprod t ht i hi j hj
      have h3 : |c0 (L2.getD t [])| ≤ tol + err u N * S0 (L2.getD t []) := by
        have a1 := abs_sub_abs_le_abs_sub (c0 (L2.getD t [])) (val (Hf.getD t 0))
        have a2 := h1.err
        rw [abs_sub_comm] at a2
        have a3 := mul_le_mul_of_nonneg_right (err_mono hun hN) h1.nonneg
        linarith
      have h4 : |tp t| ≤ ta t := h2.le
      have h5 : 0 ≤ err u N * S0 (L2.getD t []) := mul_nonneg (err_nonneg hun _) h1.nonneg
      calc |c0 (L2.getD t [])| * |tp t| ≤ (tol + err u N * S0 (L2.getD t [])) * |tp t| := mul_le_mul_of_nonneg_right h3 (abs_nonneg _)
        _ = err u N * S0 (L2.getD t []) * |tp t| + tol * |tp t| := by ring
        _ ≤ err u N * S0 (L2.getD t []) * ta t + tol * |tp t| := by
          have := mul_le_mul_of_nonneg_left h4 h5
          linarith
        _ = _ := by ring
  have htri := abs_sub_le (val (C i j)) (∑ t ∈ Finset.range L2.length, (if keptF Hf t then c0 (L2.getD t []) * tp t else 0))
    (∑ t ∈ Finset.range L2.length, c0 (L2.getD t []) * tp t)
  refine htri.trans ((add_le_add h.err hmis).trans_eq ?_)
  rw [Finset.mul_sum, Finset.mul_sum, Finset.mul_sum, Finset.sum_add_distrib, ← add_assoc, ← Finset.sum_add_distrib]
  congr 1
  refine Finset.sum_congr rfl fun t _ => ?_
  by_cases hk : keptF Hf t = true
  · rw [if_pos hk, if_pos hk, add_zero]
  · rw [if_neg hk, if_neg hk, mul_zero, zero_add]

end Hermipy
