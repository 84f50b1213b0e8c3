import Verif.Lemmas.VarfRounded
import Verif.Lemmas.RoundedVarfExact
import Verif.Props.Varf

/-!
# Property C95: rounding errors of variational forms

The tables of triple products and the matrix of `varf` over floating-point numbers. `Spec.AccurateD` is the standard model of rounding with unit
roundoff `u`, and `err u n` is `(1 + u)^n - 1`. -/

namespace Hermipy.Props

open Hermipy.Spec

variable {α : Type} [Doubles α]

/-- C95. Without rounding the functions are those of the other properties. -/
theorem C95_exact : @AccurateD ℝ realDoubles id 0 ∧ @triple_products_1dF ℝ realDoubles = triple_products_1d ∧
    @triple_products_fourierF ℝ realDoubles = triple_products_fourier ∧
    (∀ {T : Type} [MatOps T ℝ] [MatArith T ℝ] [Convert (SpMat ℝ) T], @varfF ℝ realDoubles T _ _ _ = varf (T := T)) ∧
    ∀ K L c S, dropTolAbs 0 K L c S = dropTol L c :=
  ⟨realDoubles_accurate, triple_products_1dF_real, triple_products_fourierF_real, varfF_real, fun K L c S => by
    simp [dropTolAbs, dropTol, err]⟩

/-- C95. The numbers with 53 binary digits, where every operation gives a nearest number, meet the assumptions with `u = 2^-53`. -/
theorem C95_binary : AccurateD Binary Binary.val (2 ^ (-53 : ℤ)) := binary_accurateD

/-- C95. The table for Hermite polynomials: the entry `(k, i, j)` is the triple product up to `19 min(i, j)` rounding errors, it is exactly zero
where one of `k`, `i`, `j` is larger than the two others together or their sum is odd, and the table is exactly symmetric. -/
theorem C95_hermite_table (val : α → ℝ) (u : ℝ) (A : AccurateD α val u) (n : ℕ) (hn : n < 2 ^ 31) :
    ∃ P : List (List (List α)), triple_products_1dF n = .ok P ∧ ∀ k i j, k ≤ 2 * n → i ≤ n → j ≤ n →
      ∃ x, rd3 P k i j = .ok x ∧ rd3 P k j i = .ok x ∧ |val x - triple 0 k i j| ≤ err u (19 * min i j) * tripleAbs 0 k i j ∧
        (i + j < k ∨ k + i < j ∨ k + j < i ∨ (k + i + j) % 2 = 1 → x = 0) := by
  refine ⟨_, triple_products_1dF_eq n, fun k i j hk hi hj => ⟨tauF k i j, rd3_cubeOf (by omega) (by omega) (by omega), ?_, ?_, ?_⟩⟩
  · rw [tauF_symm]
    exact rd3_cubeOf (by omega) (by omega) (by omega)
  · exact (tauF_approx A (n := n) hn hi hj (f := 0) (by omega)).err
  · rintro (h | h | h | h)
    · exact tauF_zero (by omega)
    · exact tauF_zero (by omega)
    · exact tauF_zero (by omega)
    · exact tauF_odd h

/-- C95. The table for trigonometric functions: each entry has a relative error of at most 16 rounding errors; in particular entries which should be
zero are. An odd degree ends the program. -/
theorem C95_fourier_table (val : α → ℝ) (u : ℝ) (A : AccurateD α val u) (n : ℕ) :
    (n % 2 = 0 → ∃ P : List (List (List α)), triple_products_fourierF n = .ok P ∧ ∀ k i j, k ≤ 2 * n → i ≤ n → j ≤ n →
      ∃ x, rd3 P k i j = .ok x ∧ |val x - triple 1 k i j| ≤ err u 16 * |triple 1 k i j|) ∧
    (n % 2 = 1 → (triple_products_fourierF n : Out (List (List (List α)))) = .exit 1) := by
  refine ⟨fun hn => ?_, fun hn => ?_⟩
  · obtain ⟨g, e, hg⟩ := triple_products_fourierF_ok A hn
    refine ⟨_, e, fun k i j hk hi hj => ⟨g k i j, rd3_cubeOf (by omega) (by omega) (by omega), ?_⟩⟩
    exact (hg k i j hk hi hj).err
  · rw [triple_products_fourierF]
    exact if_pos hn

variable {T : Type} [Meaning T α] [Convert (SpMat α) T] [LawfulConvert (SpMat α) T α] [MatOps T α] [LawfulMat T α] [MatArith T α] [LawfulArith T α]

/-- The storages of the library satisfy the laws over any floating-point numbers. -/
example : LawfulArith (DMat α) α ∧ LawfulArith (SpMat α) α ∧ LawfulArith (BMat α) α ∧ LawfulConvert (SpMat α) (DMat α) α ∧
    LawfulConvert (SpMat α) (SpMat α) α ∧ LawfulConvert (SpMat α) (BMat α) α :=
  ⟨inferInstance, inferInstance, inferInstance, inferInstance, inferInstance, inferInstance⟩

/-- C95. The matrix: the entry at `(I, J)` is the sum over the set for `2 * degree` of the coefficient of `f` times the mean of `φ_m φ_I φ_J`, up to
rounding errors relative to the sum of the absolute values of the terms, and up to the tolerance for the coefficients which are dropped. -/
theorem C95_varf (val : α → ℝ) (u : ℝ) (A : AccurateD α val u) (slack : ℕ) (s : IndexSet) (degree : ℕ) (nodes weights : List (List α))
    (fourier : List ℕ) (h : FormOk slack s degree (reals val nodes) (reals val weights) fourier) (L L2 : List (List ℕ))
    (hL : s.s_list nodes.length degree = .ok L) (hL2 : s.s_list nodes.length (2 * degree) = .ok L2) (f : List α)
    (hf : f.length = (gridPoints (reals val nodes)).length) :
    ∃ (R : T) (c : ℕ → ℕ → α), varfF slack s degree f nodes weights fourier = .ok R ∧ IsMat R L.length L.length c ∧
      ∀ i j, i < L.length → j < L.length →
        |val (c i j) - ∑ t ∈ Finset.range L2.length, fcoef (reals val nodes) (reals val weights) fourier (f.map val) (L2.getD t []) *
            tripleProd nodes.length fourier (L2.getD t []) (L.getD i []) (L.getD j [])| ≤
          err u (coefOps nodes.length degree f.length + nodes.length * (19 * degree + 17) + 1 + L2.length) *
            (∑ t ∈ Finset.range L2.length, fcoefAbs (reals val nodes) (reals val weights) fourier (f.map val) (L2.getD t []) *
              tripleProdAbs nodes.length fourier (L2.getD t []) (L.getD i []) (L.getD j [])) +
          dropTolAbs u (coefOps nodes.length degree f.length) L2 (fcoef (reals val nodes) (reals val weights) fourier (f.map val))
              (fcoefAbs (reals val nodes) (reals val weights) fourier (f.map val)) *
            ∑ t ∈ Finset.range L2.length, |tripleProd nodes.length fourier (L2.getD t []) (L.getD i []) (L.getD j [])| := by
  obtain ⟨hz, hz2, hu, hg, hd, hw⟩ := h
  rw [reals_length] at hz hz2 hu
  rw [reals_lengths, reals_lengths] at hw
  obtain ⟨R, c, e, hR, -, hc⟩ := varfF_ok (T := T) A hz hz2 hu hg hd hw (IterOk.of_list hz.fits' hL) (IterOk.of_list hz2.fits' hL2) hf
  exact ⟨R, c, e, hR, hc⟩

/-- C95. When products of two basis functions of the set are combinations of basis functions of the set for `2 * degree`, the entry is the quadrature
of `f φ_I φ_J` with the same error. -/
theorem C95_quadrature (val : α → ℝ) (u : ℝ) (A : AccurateD α val u) (slack : ℕ) (s : IndexSet) (degree : ℕ) (nodes weights : List (List α))
    (fourier : List ℕ) (h : FormOk slack s degree (reals val nodes) (reals val weights) fourier) (hcl : Closed s nodes.length degree fourier)
    (L L2 : List (List ℕ)) (hL : s.s_list nodes.length degree = .ok L) (hL2 : s.s_list nodes.length (2 * degree) = .ok L2) (f : List α)
    (hf : f.length = (gridPoints (reals val nodes)).length) :
    ∃ (R : T) (c : ℕ → ℕ → α), varfF slack s degree f nodes weights fourier = .ok R ∧ IsMat R L.length L.length c ∧
      ∀ i j, i < L.length → j < L.length →
        |val (c i j) - quadrature (reals val nodes) (reals val weights) fun k p => (f.map val).getD k 0 *
            (basis nodes.length fourier (L.getD i []) p * basis nodes.length fourier (L.getD j []) p)| ≤
          err u (coefOps nodes.length degree f.length + nodes.length * (19 * degree + 17) + 1 + L2.length) *
            (∑ t ∈ Finset.range L2.length, fcoefAbs (reals val nodes) (reals val weights) fourier (f.map val) (L2.getD t []) *
              tripleProdAbs nodes.length fourier (L2.getD t []) (L.getD i []) (L.getD j [])) +
          dropTolAbs u (coefOps nodes.length degree f.length) L2 (fcoef (reals val nodes) (reals val weights) fourier (f.map val))
              (fcoefAbs (reals val nodes) (reals val weights) fourier (f.map val)) *
            ∑ t ∈ Finset.range L2.length, |tripleProd nodes.length fourier (L2.getD t []) (L.getD i []) (L.getD j [])| := by
  obtain ⟨R, c, e, hR, hc⟩ := C95_varf (T := T) val u A slack s degree nodes weights fourier h L L2 hL hL2 f hf
  have e0 := reals_length (val := val) nodes
  have ok := IterOk.of_list h.sized.fits' (e0.symm ▸ hL)
  have ok2 := IterOk.of_list h.sized2.fits' (e0.symm ▸ hL2)
  refine ⟨R, c, e, hR, fun i j hi hj => ?_⟩
  have mi : InSet s nodes.length degree (L.getD i []) := e0 ▸ (ok.mem _).1 (by simp [hi])
  have mj : InSet s nodes.length degree (L.getD j []) := e0 ▸ (ok.mem _).1 (by simp [hj])
  rw [e0] at ok2
  have e2 : (quadrature (reals val nodes) (reals val weights) fun k p => (f.map val).getD k 0 *
      (basis nodes.length fourier (L.getD i []) p * basis nodes.length fourier (L.getD j []) p)) =
      ∑ t ∈ Finset.range L2.length, fcoef (reals val nodes) (reals val weights) fourier (f.map val) (L2.getD t []) *
            tripleProd nodes.length fourier (L2.getD t []) (L.getD i []) (L.getD j []) := by
    simp only [basis_mul h.degree.cross hcl ok2 mi mj]
    rw [← e0, quadrature_comb fourier (f.map val) L2 fun m => tripleProd (reals val nodes).length fourier m (L.getD i []) (L.getD j [])]
  rw [e2]
  exact hc i j hi hj

/-- C95. With Hermite directions only, the computed matrix is exactly symmetric, whatever the rounding. -/
theorem C95_symmetric (val : α → ℝ) (u : ℝ) (A : AccurateD α val u) (slack : ℕ) (s : IndexSet) (degree : ℕ) (nodes weights : List (List α))
    (fourier : List ℕ) (h : FormOk slack s degree (reals val nodes) (reals val weights) fourier) (h1 : 1 ∉ fourier) (L : List (List ℕ))
    (hL : s.s_list nodes.length degree = .ok L) (f : List α) (hf : f.length = (gridPoints (reals val nodes)).length) :
    ∃ (R : T) (c : ℕ → ℕ → α), varfF slack s degree f nodes weights fourier = .ok R ∧ IsMat R L.length L.length c ∧ ∀ i j, c i j = c j i := by
  obtain ⟨hz, hz2, hu, hg, hd, hw⟩ := h
  rw [reals_length] at hz hz2 hu
  rw [reals_lengths, reals_lengths] at hw
  obtain ⟨L2, hL2⟩ := iterOk_exists hz2.fits'
  obtain ⟨R, c, e, hR, hc, -⟩ := varfF_ok (T := T) A hz hz2 hu hg hd hw (IterOk.of_list hz.fits' hL) hL2 hf
  exact ⟨R, c, e, hR, hc h1⟩

/-- The hypotheses hold for grids of binary numbers with a Fourier direction and without. -/
example : FormOk 0 .cube 4 (reals Binary.val [[rnd (-1), rnd 0, rnd 2], [rnd 0, rnd 3]])
      (reals Binary.val [[rnd 1, rnd (1 / 3), rnd 1], [rnd 5, rnd 5]]) [0, 1] ∧ Closed .cube 2 4 [0, 1] ∧
    FormOk 0 .triangle 5 (reals Binary.val [[rnd (-1), rnd 0, rnd 2], [rnd 0, rnd 3]])
      (reals Binary.val [[rnd 1, rnd (1 / 3), rnd 1], [rnd 5, rnd 5]]) [0, 0] ∧ Closed .triangle 2 5 [0, 0] :=
  ⟨formOk_small (by simp [reals]) (by omega) ⟨by simp [reals], by simp [reals], by simp [reals], by simp [reals, gridPoints, cartesian]⟩
      ⟨by simp, by simp, by simp⟩ (by simp [reals]),
    C35_closed _ _ _ _ rfl (by simp) (by simp) (by simp),
    formOk_small (by simp [reals]) (by omega) ⟨by simp [reals], by simp [reals], by simp [reals], by simp [reals, gridPoints, cartesian]⟩
      ⟨by simp, by simp, by simp⟩ (by simp [reals]),
    C35_closed _ _ _ _ rfl (by simp) (by simp) (by simp)⟩

end Hermipy.Props
