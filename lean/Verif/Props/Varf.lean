import Verif.Lemmas.VarfExact
import Verif.Lemmas.VarfCounter
import Verif.Lemmas.TransformEdge

/-!
# Properties C35 - C38: variational forms

`Spec.FormOk` states what is asked of the arguments. The results are stated for every storage `T` of matrices that satisfies the
laws of `Lemmas.Matrix` and `Lemmas.Arith`; nested vectors, compressed matrices and dense ublas matrices do.
-/

namespace Hermipy.Props

open Hermipy.Spec

variable {T : Type} [Meaning T ℝ] [Convert (SpMat ℝ) T] [LawfulConvert (SpMat ℝ) T ℝ] [MatOps T ℝ] [LawfulMat T ℝ]
  [MatArith T ℝ] [LawfulArith T ℝ]

/-- The storages of the library satisfy the laws. -/
example : LawfulArith (DMat ℝ) ℝ ∧ LawfulArith (SpMat ℝ) ℝ ∧ LawfulArith (BMat ℝ) ℝ ∧ LawfulConvert (SpMat ℝ) (DMat ℝ) ℝ ∧
    LawfulConvert (SpMat ℝ) (SpMat ℝ) ℝ ∧ LawfulConvert (SpMat ℝ) (BMat ℝ) ℝ :=
  ⟨inferInstance, inferInstance, inferInstance, inferInstance, inferInstance, inferInstance⟩

/-- Arguments that are as asked: dimension at most 4, degree at most 125. -/
theorem formOk_small {slack : Nat} {s : IndexSet} {degree : Nat} {nodes weights : List (List ℝ)} {fourier : List Nat}
    (h4 : nodes.length ≤ 4) (hdeg : degree ≤ 125) (hg : Grid nodes fourier) (hd : DegreeOk slack s degree fourier)
    (hw : weights.map List.length = nodes.map List.length) : FormOk slack s degree nodes weights fourier := by
  have h1 : 1 ≤ nodes.length := List.length_pos_iff.2 hg.dim_pos
  exact ⟨(usable_small s h1 h4 (by omega)).toSized, (usable_small s h1 h4 (by omega)).toSized,
    fun k hk hk' => usable_small s hk (by omega) (by omega), hg, hd, hw⟩

example : FormOk 0 .cross 6 [[-1, 0, 2], [0, 3]] [[1, 2, 1], [5, 5]] [0, 1] :=
  formOk_small (by simp) (by omega) ⟨by simp, by simp, by simp, by simp [gridPoints, cartesian]⟩ ⟨by simp, by simp, by simp⟩ (by simp)

/-- C35, partial: for every index set, the entry at `(I, J)` is the sum over the set for `2 * degree` of the coefficient of `f`
(replaced by zero when it is below the tolerance) times the mean of `φ_m φ_I φ_J`. Missing: that this is the quadrature of
`f φ_I φ_J`, which is false for some sets, see `C35_cross_false`, `C35_C36_fourier_false` and `C35_rectangle_false`; it is `C35_exact` in the other cases. -/
theorem C35_entries_partial (slack : Nat) (s : IndexSet) (degree : Nat) (nodes weights : List (List ℝ)) (fourier : List Nat)
    (h : FormOk slack s degree nodes weights fourier) (L L2 : List (List Nat)) (hL : s.s_list nodes.length degree = .ok L)
    (hL2 : s.s_list nodes.length (2 * degree) = .ok L2) (f : List ℝ) (hf : f.length = (gridPoints nodes).length) :
    ∃ R : T, varf slack s degree f nodes weights fourier = .ok R ∧ IsMat R L.length L.length (fun i j =>
      ∑ t ∈ Finset.range L2.length, kept (dropTol L2 (fcoef nodes weights fourier f)) (fcoef nodes weights fourier f (L2.getD t [])) *
        tripleProd nodes.length fourier (L2.getD t []) (L.getD i []) (L.getD j [])) :=
  varf_ok h.sized h.sized2 h.usable h.grid h.degree h.weights (IterOk.of_list h.sized.fits' hL)
    (IterOk.of_list h.sized2.fits' hL2) hf

/-- C35. When products of two basis functions of the set are combinations of basis functions of the set for `2 * degree`, and no
coefficient of `f` other than zero is dropped, the entry at `(I, J)` is the quadrature of `f φ_I φ_J`. -/
theorem C35_exact (slack : Nat) (s : IndexSet) (degree : Nat) (nodes weights : List (List ℝ)) (fourier : List Nat)
    (h : FormOk slack s degree nodes weights fourier) (hcl : Closed s nodes.length degree fourier) (L L2 : List (List Nat))
    (hL : s.s_list nodes.length degree = .ok L) (hL2 : s.s_list nodes.length (2 * degree) = .ok L2) (f : List ℝ)
    (hf : f.length = (gridPoints nodes).length) (hdrop : NoDrop L2 (fcoef nodes weights fourier f)) :
    ∃ R : T, varf slack s degree f nodes weights fourier = .ok R ∧ IsMat R L.length L.length (fun i j =>
      quadrature nodes weights fun k p => f.getD k 0 * (basis nodes.length fourier (L.getD i []) p *
        basis nodes.length fourier (L.getD j []) p)) := by
  obtain ⟨R, e, hR⟩ := C35_entries_partial (T := T) slack s degree nodes weights fourier h L L2 hL hL2 f hf
  have ok := IterOk.of_list h.sized.fits' hL
  have ok2 := IterOk.of_list h.sized2.fits' hL2
  refine ⟨R, e, LawfulMat.congr hR fun i j hi hj => ?_⟩
  have mi : InSet s nodes.length degree (L.getD i []) := (ok.mem _).1 (by simp [hi])
  have mj : InSet s nodes.length degree (L.getD j []) := (ok.mem _).1 (by simp [hj])
  simp only [basis_mul h.degree.cross hcl ok2 mi mj]
  rw [quadrature_comb fourier f L2 fun m => tripleProd nodes.length fourier m (L.getD i []) (L.getD j [])]
  apply Finset.sum_congr rfl
  intro t ht
  rw [kept_noDrop hdrop (by simp [Finset.mem_range.1 ht])]

/-- C35. Whatever is dropped, the error is at most the tolerance times the sum of the means of `φ_m φ_I φ_J` in absolute value. -/
theorem C35_error (slack : Nat) (s : IndexSet) (degree : Nat) (nodes weights : List (List ℝ)) (fourier : List Nat)
    (h : FormOk slack s degree nodes weights fourier) (hcl : Closed s nodes.length degree fourier) (L L2 : List (List Nat))
    (hL : s.s_list nodes.length degree = .ok L) (hL2 : s.s_list nodes.length (2 * degree) = .ok L2) (f : List ℝ)
    (hf : f.length = (gridPoints nodes).length) :
    ∃ (R : T) (g : Nat → Nat → ℝ), varf slack s degree f nodes weights fourier = .ok R ∧ IsMat R L.length L.length g ∧
      ∀ i j, i < L.length → j < L.length →
        |g i j - quadrature nodes weights fun k p => f.getD k 0 * (basis nodes.length fourier (L.getD i []) p *
          basis nodes.length fourier (L.getD j []) p)| ≤
        dropTol L2 (fcoef nodes weights fourier f) *
          ∑ t ∈ Finset.range L2.length, |tripleProd nodes.length fourier (L2.getD t []) (L.getD i []) (L.getD j [])| := by
  obtain ⟨R, e, hR⟩ := C35_entries_partial (T := T) slack s degree nodes weights fourier h L L2 hL hL2 f hf
  have ok := IterOk.of_list h.sized.fits' hL
  have ok2 := IterOk.of_list h.sized2.fits' hL2
  refine ⟨R, _, e, hR, fun i j hi hj => ?_⟩
  have mi : InSet s nodes.length degree (L.getD i []) := (ok.mem _).1 (by simp [hi])
  have mj : InSet s nodes.length degree (L.getD j []) := (ok.mem _).1 (by simp [hj])
  simp only [basis_mul h.degree.cross hcl ok2 mi mj]
  rw [quadrature_comb fourier f L2 fun m => tripleProd nodes.length fourier m (L.getD i []) (L.getD j []),
    ← Finset.sum_sub_distrib, Finset.mul_sum]
  refine (Finset.abs_sum_le_sum_abs _ _).trans (Finset.sum_le_sum fun t _ => ?_)
  rw [← sub_mul, abs_mul]
  exact mul_le_mul_of_nonneg_right (kept_error L2 _ _) (abs_nonneg _)

/-- C35: the sets and directions for which products are represented exactly. Every set in one dimension; the cube always; the
rectangle when `degree / 2` is even or no direction but the first is of Fourier type; the triangle with Hermite directions. -/
theorem C35_closed (s : IndexSet) (dim degree : Nat) (fourier : List Nat) (hl : fourier.length = dim)
    (he : 1 ∈ fourier → degree % 2 = 0) (hc : s = .cross ∨ s = .cross_nc → 1 ≤ degree)
    (h : dim = 1 ∨ s = .cube ∨ (s = .rectangle ∧ (degree / 2 % 2 = 0 ∨ ∀ d, 1 ≤ d → fourier.getD d 0 ≠ 1)) ∨
      (s = .triangle ∧ 1 ∉ fourier)) : Closed s dim degree fourier := by
  rcases h with rfl | rfl | ⟨rfl, h⟩ | ⟨rfl, h⟩
  · exact closed_line hc he hl
  · exact closed_cube he hl
  · refine closed_rectangle he (fun d h1 _ hf => ?_) hl
    rcases h with h | h
    · exact h
    · exact absurd hf (h d h1)
  · refine closed_triangle fun d hd hf => h ?_
    rw [← hf]
    have : d < fourier.length := by omega
    simp [this]

/-- The hypotheses of the exact case hold, for example, for the cube with a Fourier direction. -/
example : FormOk 0 .cube 4 [[-1, 0, 2], [0, 3]] [[1, 2, 1], [5, 5]] [0, 1] ∧ Closed .cube 2 4 [0, 1] ∧
    Closed .triangle 3 7 [0, 0, 0] :=
  ⟨formOk_small (by simp) (by omega) ⟨by simp, by simp, by simp, by simp [gridPoints, cartesian]⟩ ⟨by simp, by simp, by simp⟩ (by simp),
    C35_closed _ _ _ _ rfl (by simp) (by simp) (by simp), C35_closed _ _ _ _ rfl (by simp) (by simp) (by simp)⟩

/-- C35 fails for the crosses with two Hermite directions: for every `n` of at least 3, every function and every grid, the entry at
`((n, 0), (0, n))` is 0, because `(n, n)` is not in the set for `2 * n`. -/
theorem C35_cross_zero (slack : Nat) (s : IndexSet) (hs : s = .cross ∨ s = .cross_nc) (n : Nat) (hn : 3 ≤ n)
    (nodes weights : List (List ℝ)) (hdim : nodes.length = 2) (h : FormOk slack s n nodes weights [0, 0]) (L : List (List Nat))
    (hL : s.s_list 2 n = .ok L) (f : List ℝ) (hf : f.length = (gridPoints nodes).length) :
    ∃ (R : T) (g : Nat → Nat → ℝ) (i j : Nat), varf slack s n f nodes weights [0, 0] = .ok R ∧ IsMat R L.length L.length g ∧
      L[i]? = some [n, 0] ∧ L[j]? = some [0, n] ∧ g i j = 0 := by
  rw [← hdim] at hL
  obtain ⟨L2, hL2⟩ := list_exists s h.sized2
  have ok := IterOk.of_list h.sized.fits' hL
  have ok2 := IterOk.of_list h.sized2.fits' hL2
  obtain ⟨R, e, hR⟩ := C35_entries_partial (T := T) slack s n nodes weights [0, 0] h L L2 hL hL2 f hf
  have hin : ∀ m : List Nat, m.length = 2 → (m.map (max 1)).prod ≤ n → m ∈ L := by
    intro m h1 h2
    rw [ok.mem, hdim]
    rcases hs with rfl | rfl <;> exact ⟨h1, by omega⟩
  have m1 : [n, 0] ∈ L := hin _ rfl (by simp; omega)
  have m2 : [0, n] ∈ L := hin _ rfl (by simp; omega)
  obtain ⟨i, hi, ei⟩ := List.mem_iff_getElem.1 m1
  obtain ⟨j, hj, ej⟩ := List.mem_iff_getElem.1 m2
  have gi : L.getD i [] = [n, 0] := by simp [hi, ei]
  have gj : L.getD j [] = [0, n] := by simp [hj, ej]
  refine ⟨R, _, i, j, e, hR, by rw [List.getElem?_eq_getElem hi, ei], by rw [List.getElem?_eq_getElem hj, ej], ?_⟩
  rw [gi, gj, hdim]
  apply Finset.sum_eq_zero
  intro t ht
  have hm : L2.getD t [] ∈ L2 := by simp [Finset.mem_range.1 ht]
  have hms := (ok2.mem _).1 hm
  rw [hdim] at hms
  have hml := inSet_length hms
  by_cases h0 : tripleProd 2 [0, 0] (L2.getD t []) [n, 0] [0, n] = 0
  · rw [h0, mul_zero]
  · exfalso
    obtain ⟨a, b, hab⟩ : ∃ a b, L2.getD t [] = [a, b] := by
      match L2.getD t [], hml with
      | [a, b], _ => exact ⟨a, b, rfl⟩
    rw [hab] at h0 hms
    obtain ⟨ha, hb⟩ := tripleProd_axes h0
    rw [ha, hb] at hms
    have hp : ([n, n].map (max 1)).prod ≤ max 1 (2 * n) := by rcases hs with rfl | rfl <;> exact hms.2
    simp only [List.map_cons, List.map_nil, List.prod_cons, List.prod_nil, mul_one] at hp
    rw [max_eq_right (by omega : 1 ≤ n), max_eq_right (by omega : 1 ≤ 2 * n)] at hp
    nlinarith

/-- C35 fails for the crosses: with one point at `(1, 1)`, weight 1 and `f = 1`, the quadrature of `f φ_I φ_J` for the entry of
`C35_cross_zero` is `2 / 3`. -/
theorem C35_cross_false (s : IndexSet) (hs : s = .cross ∨ s = .cross_nc) :
    ∃ (R : T) (g : Nat → Nat → ℝ) (i j : Nat) (L : List (List Nat)), s.s_list 2 3 = .ok L ∧
      varf 0 s 3 [1] [[1], [1]] [[1], [1]] [0, 0] = .ok R ∧ IsMat R L.length L.length g ∧ i < L.length ∧ j < L.length ∧
      g i j = 0 ∧ quadrature [[1], [1]] [[1], [1]] (fun k p => ([1] : List ℝ).getD k 0 *
        (basis 2 [0, 0] (L.getD i []) p * basis 2 [0, 0] (L.getD j []) p)) = 2 / 3 := by
  have hF : FormOk 0 s 3 [[1], [1]] [[1], [1]] [0, 0] := formOk_small (by simp) (by omega)
    ⟨by simp, by simp, by simp, by simp [gridPoints, cartesian]⟩ ⟨by simp, by simp, by simp⟩ (by simp)
  obtain ⟨L, hL⟩ := list_exists s hF.sized
  obtain ⟨R, g, i, j, e, hR, hi, hj, h0⟩ := C35_cross_zero (T := T) 0 s hs 3 le_rfl [[1], [1]] [[1], [1]] rfl hF L hL [1]
    (by simp [gridPoints, cartesian])
  obtain ⟨hi', ei⟩ := List.getElem?_eq_some_iff.1 hi
  obtain ⟨hj', ej⟩ := List.getElem?_eq_some_iff.1 hj
  refine ⟨R, g, i, j, L, hL, e, hR, hi', hj', h0, ?_⟩
  have gi : L.getD i [] = [3, 0] := by simp [hi', ei]
  have gj : L.getD j [] = [0, 3] := by simp [hj', ej]
  rw [gi, gj, quadrature_point, basis_two, basis_two]
  simp only [List.getD_cons_zero, List.getD_cons_succ, phi, if_neg (show ¬(0 = 1) by omega), herm_zero]
  have h3 : herm 3 1 * herm 3 1 = 2 / 3 := by
    have h2 : herm 2 1 = 0 := by
      have hr := herm_rec 0 1
      rw [herm_one, herm_zero] at hr
      rw [hr]
      simp
    have hr := herm_rec 1 1
    rw [herm_one, h2] at hr
    rw [show (3 : Nat) = 1 + 2 by rfl, hr]
    have s2 : √((1 : Nat) + 1 : ℝ) * √((1 : Nat) + 1 : ℝ) = 2 := by
      rw [Real.mul_self_sqrt (by positivity)]; norm_num
    have s3 : √((1 : Nat) + 2 : ℝ) * √((1 : Nat) + 2 : ℝ) = 3 := by
      rw [Real.mul_self_sqrt (by positivity)]; norm_num
    have e : ∀ x y : ℝ, (1 / y * 1 * 0 - x / y * 1) * (1 / y * 1 * 0 - x / y * 1) = (x * x) / (y * y) := by
      intro x y; ring
    rw [e, s2, s3]
  linarith

/-- C35 and C36 fail with Fourier directions, for the triangle and the crosses: with two Fourier directions, one point at the origin,
weight 1 and `f = 1`, the quadrature of `f φ_I φ_I` for `I = (1, 1)` is 0, and the matrix has a negative entry on the diagonal. -/
theorem C35_C36_fourier_false (s : IndexSet) (hs : s = .triangle ∨ s = .cross ∨ s = .cross_nc) :
    ∃ (R : T) (g : Nat → Nat → ℝ) (i : Nat) (L : List (List Nat)), s.s_list 2 2 = .ok L ∧
      varf 0 s 2 [1] [[0], [0]] [[1], [1]] [1, 1] = .ok R ∧ IsMat R L.length L.length g ∧ i < L.length ∧
      g i i = -(1 / (4 * Real.pi ^ 2)) ∧ quadrature [[0], [0]] [[1], [1]] (fun k p => ([1] : List ℝ).getD k 0 *
        (basis 2 [1, 1] (L.getD i []) p * basis 2 [1, 1] (L.getD i []) p)) = 0 := by
  have hF : FormOk 0 s 2 [[0], [0]] [[1], [1]] [1, 1] := formOk_small (by simp) (by omega)
    ⟨by simp, by simp, by simp, by simp [gridPoints, cartesian]⟩ ⟨by simp, by simp, by simp⟩ (by simp)
  obtain ⟨L, hL⟩ := list_exists s hF.sized
  obtain ⟨L2, hL2⟩ := list_exists s hF.sized2
  have ok := IterOk.of_list hF.sized.fits' hL
  have ok2 := IterOk.of_list hF.sized2.fits' hL2
  obtain ⟨R, e, hR⟩ := C35_entries_partial (T := T) 0 s 2 [[0], [0]] [[1], [1]] [1, 1] hF L L2 hL hL2 [1]
    (by simp [gridPoints, cartesian])
  have mi : [1, 1] ∈ L := by
    rw [ok.mem]
    rcases hs with rfl | rfl | rfl <;> exact ⟨rfl, by simp⟩
  obtain ⟨i, hi, ei⟩ := List.mem_iff_getElem.1 mi
  have gi : L.getD i [] = [1, 1] := by simp [hi, ei]
  refine ⟨R, _, i, L, hL, e, hR, hi, ?_, ?_⟩
  · rw [gi]
    have hlen := small_listing ok2
    refine origin_sum ok2.nodup hlen (fun m hm => inSet_length ((ok2.mem m).1 hm)) ?_ ?_ ?_ ?_
    all_goals rw [ok2.mem]
    · rcases hs with rfl | rfl | rfl <;> exact ⟨rfl, by simp⟩
    · rcases hs with rfl | rfl | rfl <;> exact ⟨rfl, by simp⟩
    · rcases hs with rfl | rfl | rfl <;> exact ⟨rfl, by simp⟩
    · rcases hs with rfl | rfl | rfl <;> simp [InSet, InTriangle, InCross]
  · rw [gi, quadrature_point, basis_two]
    simp [phi, trig_one_zero]

/-- C35 fails for the rectangle with a Fourier direction after the first when `degree / 2` is odd: same grid, entry at `(0, 1)`. -/
theorem C35_rectangle_false :
    ∃ (R : T) (g : Nat → Nat → ℝ) (i : Nat) (L : List (List Nat)), IndexSet.rectangle.s_list 2 2 = .ok L ∧
      varf 0 .rectangle 2 [1] [[0], [0]] [[1], [1]] [1, 1] = .ok R ∧ IsMat R L.length L.length g ∧ i < L.length ∧
      g i i = 1 / (4 * Real.pi ^ 2) ∧ quadrature [[0], [0]] [[1], [1]] (fun k p => ([1] : List ℝ).getD k 0 *
        (basis 2 [1, 1] (L.getD i []) p * basis 2 [1, 1] (L.getD i []) p)) = 0 := by
  have hF : FormOk 0 .rectangle 2 [[0], [0]] [[1], [1]] [1, 1] := formOk_small (by simp) (by omega)
    ⟨by simp, by simp, by simp, by simp [gridPoints, cartesian]⟩ ⟨by simp, by simp, by simp⟩ (by simp)
  obtain ⟨L, hL⟩ := list_exists _ hF.sized
  obtain ⟨L2, hL2⟩ := list_exists _ hF.sized2
  have ok := IterOk.of_list hF.sized.fits' hL
  have ok2 := IterOk.of_list hF.sized2.fits' hL2
  obtain ⟨R, e, hR⟩ := C35_entries_partial (T := T) 0 .rectangle 2 [[0], [0]] [[1], [1]] [1, 1] hF L L2 hL hL2 [1]
    (by simp [gridPoints, cartesian])
  have two : ∀ (n a b : Nat), InSet .rectangle 2 n [a, b] ↔ a ≤ n ∧ b ≤ n / 2 := by
    intro n a b
    constructor
    · intro h
      have h0 := h.2 0 (by simp)
      have h1 := h.2 1 (by simp)
      simpa using And.intro h0 h1
    · rintro ⟨h0, h1⟩
      refine ⟨rfl, fun k hk => ?_⟩
      have hk : k < 2 := hk
      have : k = 0 ∨ k = 1 := by omega
      rcases this with rfl | rfl <;> simpa
  have mi : [0, 1] ∈ L := by
    rw [ok.mem]
    exact (two 2 0 1).2 (by omega)
  obtain ⟨i, hi, ei⟩ := List.mem_iff_getElem.1 mi
  have gi : L.getD i [] = [0, 1] := by simp [hi, ei]
  refine ⟨R, _, i, L, hL, e, hR, hi, ?_, ?_⟩
  · rw [gi]
    have hlen := small_listing ok2
    refine origin_sum_rect ok2.nodup hlen (fun m hm => inSet_length ((ok2.mem m).1 hm)) ?_ ?_
    · rw [ok2.mem]; exact (two 4 0 0).2 (by omega)
    · rw [ok2.mem]
      intro h
      have := (two 4 0 4).1 h
      omega
  · rw [gi, quadrature_point, basis_two]
    simp [phi, trig_one_zero]

/-- C36. The matrix is symmetric, for every index set, every function and every grid. -/
theorem C36_symmetric (slack : Nat) (s : IndexSet) (degree : Nat) (nodes weights : List (List ℝ)) (fourier : List Nat)
    (h : FormOk slack s degree nodes weights fourier) (L : List (List Nat)) (hL : s.s_list nodes.length degree = .ok L)
    (f : List ℝ) (hf : f.length = (gridPoints nodes).length) :
    ∃ (R : T) (g : Nat → Nat → ℝ), varf slack s degree f nodes weights fourier = .ok R ∧ IsMat R L.length L.length g ∧
      ∀ i j, g i j = g j i := by
  obtain ⟨L2, hL2⟩ := list_exists s h.sized2
  obtain ⟨R, e, hR⟩ := C35_entries_partial (T := T) slack s degree nodes weights fourier h L L2 hL hL2 f hf
  exact ⟨R, _, e, hR, fun i j => Finset.sum_congr rfl fun t _ => by rw [tripleProd_symm]⟩

/-- C36, partial: for non-negative function values and weights the quadratic form of the matrix is non-negative, when products are
represented exactly and nothing is dropped. Missing: the other sets, for which this is false, see `C35_C36_fourier_false`. -/
theorem C36_nonneg_partial (slack : Nat) (s : IndexSet) (degree : Nat) (nodes weights : List (List ℝ)) (fourier : List Nat)
    (h : FormOk slack s degree nodes weights fourier) (hcl : Closed s nodes.length degree fourier) (L L2 : List (List Nat))
    (hL : s.s_list nodes.length degree = .ok L) (hL2 : s.s_list nodes.length (2 * degree) = .ok L2) (f : List ℝ)
    (hf : f.length = (gridPoints nodes).length) (hdrop : NoDrop L2 (fcoef nodes weights fourier f)) (hpos : ∀ x ∈ f, 0 ≤ x)
    (hwpos : ∀ w ∈ weights, ∀ x ∈ w, 0 ≤ x) :
    ∃ (R : T) (g : Nat → Nat → ℝ), varf slack s degree f nodes weights fourier = .ok R ∧ IsMat R L.length L.length g ∧
      ∀ x : Nat → ℝ, 0 ≤ ∑ i ∈ Finset.range L.length, ∑ j ∈ Finset.range L.length, x i * x j * g i j := by
  obtain ⟨R, e, hR⟩ := C35_exact (T := T) slack s degree nodes weights fourier h hcl L L2 hL hL2 f hf hdrop
  refine ⟨R, _, e, hR, fun x => ?_⟩
  have e1 : ∑ i ∈ Finset.range L.length, ∑ j ∈ Finset.range L.length, x i * x j * quadrature nodes weights (fun k p =>
      f.getD k 0 * (basis nodes.length fourier (L.getD i []) p * basis nodes.length fourier (L.getD j []) p)) =
      quadrature nodes weights fun k p => f.getD k 0 *
        ((∑ i ∈ Finset.range L.length, x i * basis nodes.length fourier (L.getD i []) p) *
          (∑ i ∈ Finset.range L.length, x i * basis nodes.length fourier (L.getD i []) p)) := by
    simp only [← quadrature_smul]
    simp only [← quadrature_sum (Finset.range L.length) (fun j => _)]
    congr 1
    funext k p
    rw [Finset.sum_mul_sum, Finset.mul_sum]
    apply Finset.sum_congr rfl
    intro i _
    rw [Finset.mul_sum]
    exact Finset.sum_congr rfl fun j _ => by ring
  rw [e1, quadrature]
  apply Finset.sum_nonneg
  intro k hk
  apply mul_nonneg
  · rw [List.getD_eq_getElem?_getD]
    cases hq : (gridWeights weights)[k]? with
    | none => simp
    | some y =>
      have hy := List.mem_of_getElem? hq
      obtain ⟨p, hp, rfl⟩ := List.mem_map.1 hy
      apply List.prod_nonneg
      intro a ha
      obtain ⟨w, hw, haw⟩ : ∃ w ∈ weights, a ∈ w := by
        clear hq hy e1 e hR hdrop hwpos h hcl
        induction weights generalizing p with
        | nil => simp [cartesian] at hp; subst hp; simp at ha
        | cons w ws ih =>
          simp only [cartesian, List.mem_flatMap, List.mem_map] at hp
          obtain ⟨x, hx, q, hq, rfl⟩ := hp
          rcases List.mem_cons.1 ha with rfl | ha
          · exact ⟨w, by simp, hx⟩
          · obtain ⟨w', h1, h2⟩ := ih q hq ha
            exact ⟨w', by simp [h1], h2⟩
      exact hwpos w hw a haw
  · apply mul_nonneg
    · have : k < f.length := by rw [hf]; exact Finset.mem_range.1 hk
      apply hpos
      simp [this]
    · exact mul_self_nonneg _

/-- C38 for `varf`: nested vectors, dense ublas and compressed matrices get the same entries. -/
theorem C38_varf (slack : Nat) (s : IndexSet) (degree : Nat) (nodes weights : List (List ℝ)) (fourier : List Nat)
    (h : FormOk slack s degree nodes weights fourier) (L : List (List Nat)) (hL : s.s_list nodes.length degree = .ok L)
    (f : List ℝ) (hf : f.length = (gridPoints nodes).length) :
    ∃ (D : DMat ℝ) (B : BMat ℝ) (S : SpMat ℝ) (g : Nat → Nat → ℝ), varf slack s degree f nodes weights fourier = .ok D ∧
      varf slack s degree f nodes weights fourier = .ok B ∧ varf slack s degree f nodes weights fourier = .ok S ∧
      IsMat D L.length L.length g ∧ IsMat B L.length L.length g ∧ IsMat S L.length L.length g := by
  obtain ⟨L2, hL2⟩ := list_exists s h.sized2
  obtain ⟨D, e1, h1⟩ := C35_entries_partial (T := DMat ℝ) slack s degree nodes weights fourier h L L2 hL hL2 f hf
  obtain ⟨B, e2, h2⟩ := C35_entries_partial (T := BMat ℝ) slack s degree nodes weights fourier h L L2 hL hL2 f hf
  obtain ⟨S, e3, h3⟩ := C35_entries_partial (T := SpMat ℝ) slack s degree nodes weights fourier h L L2 hL hL2 f hf
  exact ⟨D, B, S, _, e1, e2, e3, h1, h2, h3⟩

end Hermipy.Props
