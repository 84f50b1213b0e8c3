import Verif.Lemmas.Rules
import Verif.Spec.Correlated
import Mathlib.MeasureTheory.Integral.IntervalIntegral.TrapezoidalRule
import Mathlib.MeasureTheory.Integral.Prod
import Mathlib.MeasureTheory.Constructions.Pi

/-! # Products of trapezoidal rules -/

namespace Hermipy
open Spec MeasureTheory

theorem cartesian_length {β : Type} : ∀ ls : List (List β), (cartesian ls).length = (ls.map List.length).prod
  | [] => rfl
  | l :: ls => by
    rw [cartesian, List.length_flatMap]
    simp [cartesian_length ls]

theorem quadrature_zip {nodes weights : List (List ℝ)} (hw : weights.map List.length = nodes.map List.length) (G : List ℝ → ℝ) :
    quadrature nodes weights (fun _ p => G p) = (List.zipWith (fun w p => w * G p) (gridWeights weights) (gridPoints nodes)).sum := by
  have hl : (gridWeights weights).length = (gridPoints nodes).length := by
    rw [gridWeights, List.length_map, gridPoints, cartesian_length, cartesian_length, hw]
  rw [quadrature, Finset.sum_range, ← List.sum_ofFn]
  congr 1
  apply List.ext_getElem
  · simp [hl]
  · intro i h1 h2
    simp at h1 h2
    simp [hl, h1]

theorem quadrature_cons {l w : List ℝ} {nodes weights : List (List ℝ)} (hlw : w.length = l.length)
    (hw : weights.map List.length = nodes.map List.length) (G : List ℝ → ℝ) :
    quadrature (l :: nodes) (w :: weights) (fun _ p => G p) =
      ∑ j ∈ Finset.range l.length, w.getD j 0 * quadrature nodes weights (fun _ p => G (l.getD j 0 :: p)) := by
  rw [quadrature_zip (by simp [hlw, hw])]
  simp only [quadrature_zip hw]
  have hl : (gridWeights weights).length = (gridPoints nodes).length := by
    rw [gridWeights, List.length_map, gridPoints, cartesian_length, cartesian_length, hw]
  have e1 : gridWeights (w :: weights) = w.flatMap fun x => (gridWeights weights).map fun y => x * y := by
    simp [gridWeights, cartesian, List.map_flatMap, Function.comp_def]
  have e2 : gridPoints (l :: nodes) = l.flatMap fun x => (gridPoints nodes).map fun p => x :: p := rfl
  rw [e1, e2]
  clear e1 e2
  generalize gridWeights weights = ws at *
  generalize gridPoints nodes = ps at *
  induction l generalizing w with
  | nil =>
    obtain rfl : w = [] := by simpa using hlw
    simp
  | cons x l ih =>
    obtain ⟨a, w, rfl⟩ : ∃ a w', w = a :: w' := by
      cases w with
      | nil => simp at hlw
      | cons a w => exact ⟨a, w, rfl⟩
    rw [List.flatMap_cons, List.flatMap_cons, List.zipWith_append (by simp [hl]), List.sum_append,
      ih (by simpa using hlw), List.length_cons, Finset.sum_range_succ']
    rw [add_comm]
    congr 1
    simp only [List.getD_cons_zero]
    rw [List.zipWith_map, ← smul_eq_mul a, List.smul_sum, List.map_zipWith]
    simp only [mul_assoc, smul_eq_mul]

theorem normalDensity_pos (y : ℝ) : 0 < normalDensity 0 1 y := by
  rw [normalDensity]
  positivity

theorem linspace_mem {e : ℝ} (he : 0 ≤ e) {n : ℕ} (hn : 2 ≤ n) {j : ℕ} (hj : j < n) : (linspace e n).getD j 0 ∈ Set.Icc (-e) e := by
  have hx : (linspace e n).getD j 0 = -e + j * (2 * e / ((n : ℝ) - 1)) := by simp [linspace, hj]
  rw [hx]
  have h1 : (0 : ℝ) < (n : ℝ) - 1 := by
    have : (2 : ℝ) ≤ n := by exact_mod_cast hn
    linarith
  have h2 : (j : ℝ) ≤ (n : ℝ) - 1 := by
    have : ((j + 1 : ℕ) : ℝ) ≤ n := by exact_mod_cast hj
    push_cast at this
    linarith
  constructor
  · have : 0 ≤ (j : ℝ) * (2 * e / ((n : ℝ) - 1)) := by positivity
    linarith
  · have : (j : ℝ) * (2 * e / ((n : ℝ) - 1)) ≤ 2 * e := by
      rw [← mul_div_assoc, div_le_iff₀ h1]
      nlinarith
    linarith

/-- The weight of a node without the density. -/
noncomputable def plainWeight (e : ℝ) (n j : ℕ) : ℝ := (trapezoidWeights e n).getD j 0 / normalDensity 0 1 ((linspace e n).getD j 0)

theorem plainWeight_nonneg {e : ℝ} (he : 0 ≤ e) {n : ℕ} (hn : 2 ≤ n) {j : ℕ} (hj : j < n) : 0 ≤ plainWeight e n j := by
  have h1 : (0 : ℝ) < (n : ℝ) - 1 := by
    have : (2 : ℝ) ≤ n := by exact_mod_cast hn
    linarith
  refine div_nonneg ?_ (normalDensity_pos _).le
  have : (trapezoidWeights e n).getD j 0 = (if j = 0 ∨ j = n - 1 then 1 / 2 else 1) *
      (1 / √(2 * Real.pi) * Real.exp (-((linspace e n).getD j 0) ^ 2 / 2)) * (2 * e / ((n : ℝ) - 1)) := by
    simp [trapezoidWeights, hj]
  rw [this]
  refine mul_nonneg (mul_nonneg ?_ (by positivity)) (by positivity)
  split <;> norm_num

theorem plainWeight_sum {n : ℕ} (hn : 2 ≤ n) (e : ℝ) (φ : ℝ → ℝ) :
    ∑ j ∈ Finset.range n, plainWeight e n j * φ ((linspace e n).getD j 0) = trapezoidal_integral φ (n - 1) (-e) e := by
  have := trapezoid_direction hn e (fun y => φ y / normalDensity 0 1 y)
  simp only [div_mul_cancel₀ _ (normalDensity_pos _).ne'] at this
  rw [← this]
  refine Finset.sum_congr rfl fun j _ => ?_
  rw [plainWeight, div_mul_eq_mul_div, mul_div_assoc]

theorem plainWeight_total {n : ℕ} (hn : 2 ≤ n) (e : ℝ) : ∑ j ∈ Finset.range n, plainWeight e n j = 2 * e := by
  have := plainWeight_sum hn e fun _ => 1
  simp only [mul_one] at this
  obtain ⟨N, rfl⟩ : ∃ N, n = N + 2 := ⟨n - 2, by omega⟩
  rw [this, trapezoidal_integral]
  have hN : ((N : ℝ) + 1) ≠ 0 := by positivity
  rw [show N + 2 - 1 = N + 1 by omega, show N + 1 - 1 = N by omega]
  simp
  field_simp
  ring

theorem box_zero_mem {d : ℕ} {e : Fin d → ℝ} {x : ℝ} {a : ℝ} (hx : x ∈ Set.Icc (-a) a) {z : Fin d → ℝ} (hz : z ∈ Set.Icc (-e) e) :
    (Fin.cons x z : Fin (d + 1) → ℝ) ∈ Set.Icc (-(Fin.cons a e : Fin (d + 1) → ℝ)) (Fin.cons a e) := by
  constructor
  · intro i
    refine Fin.cases ?_ (fun k => ?_) i
    · exact hx.1
    · exact hz.1 k
  · intro i
    refine Fin.cases ?_ (fun k => ?_) i
    · exact hx.2
    · exact hz.2 k

theorem integral_box_cons {d : ℕ} (a : ℝ) (e : Fin d → ℝ) (G : (Fin (d + 1) → ℝ) → ℝ) :
    ∫ z in Set.Icc (-(Fin.cons a e : Fin (d + 1) → ℝ)) (Fin.cons a e), G z =
      ∫ p, G (Fin.cons p.1 p.2) ∂((volume.restrict (Set.Icc (-a) a)).prod (volume.restrict (Set.Icc (-e) e))) := by
  have h := (volume_preserving_piFinSuccAbove (fun _ : Fin (d + 1) => ℝ) 0).symm
  rw [← h.setIntegral_preimage_emb (MeasurableEquiv.measurableEmbedding _), Measure.prod_restrict]
  have hf : ∀ p : ℝ × (Fin d → ℝ), (MeasurableEquiv.piFinSuccAbove (fun _ : Fin (d + 1) => ℝ) 0).symm p = (Fin.cons p.1 p.2 : Fin (d + 1) → ℝ) := by
    intro p
    funext i
    refine Fin.cases ?_ (fun k => ?_) i
    · simp [MeasurableEquiv.piFinSuccAbove]
    · simp [MeasurableEquiv.piFinSuccAbove]
  have hs : (MeasurableEquiv.piFinSuccAbove (fun _ : Fin (d + 1) => ℝ) 0).symm ⁻¹' Set.Icc (-(Fin.cons a e : Fin (d + 1) → ℝ)) (Fin.cons a e) =
      Set.Icc (-a) a ×ˢ Set.Icc (-e) e := by
    ext ⟨x, z⟩
    rw [Set.mem_preimage, hf]
    constructor
    · rintro ⟨h1, h2⟩
      exact ⟨⟨h1 0, h2 0⟩, fun k => h1 k.succ, fun k => h2 k.succ⟩
    · rintro ⟨h1, h2⟩
      exact box_zero_mem h1 h2
  rw [hs]
  simp only [hf]
  rfl

/-- The error of the product of trapezoidal rules. -/
theorem trapezoid_box {n : ℕ} (hn : 2 ≤ n) : ∀ {d : ℕ} (e : Fin d → ℝ) (_ : ∀ i, 0 ≤ e i) (g : (Fin d → ℝ) → ℝ) (ζ : Fin d → ℝ)
    (G : (Fin d → ℝ) → ℝ) (_ : ∀ z, G z = g z * ∏ i, normalDensity 0 1 (z i)) (_ : ContinuousOn G (Set.Icc (-e) e))
    (_ : ∀ i, ∀ z ∈ Set.Icc (-e) e, ContDiffOn ℝ 2 (fun y => G (Function.update z i y)) (Set.uIcc (-(e i)) (e i)))
    (_ : ∀ i, ∀ z ∈ Set.Icc (-e) e, ∀ y, |iteratedDerivWithin 2 (fun y => G (Function.update z i y)) (Set.uIcc (-(e i)) (e i)) y| ≤ ζ i),
    |quadrature (List.ofFn fun i => linspace (e i) n) (List.ofFn fun i => trapezoidWeights (e i) n) (fun _ p => g (node d p)) -
      ∫ z in Set.Icc (-e) e, G z| ≤ (∏ i, 2 * e i) * ∑ i, (2 * e i) ^ 2 * ζ i / (12 * ((n : ℝ) - 1) ^ 2) := by
  intro d
  induction d with
  | zero =>
    intro e _ g ζ G hG _ _ _
    have h1 : Set.Icc (-e) e = Set.univ := by
      ext z
      simp only [Set.mem_Icc, Set.mem_univ, iff_true]
      exact ⟨fun i => i.elim0, fun i => i.elim0⟩
    have h2 : ∫ z, G z = G default := by
      rw [volume_pi, Measure.pi_of_empty _ default, integral_dirac]
    rw [h1, Measure.restrict_univ, h2, hG]
    simp [quadrature, gridPoints, gridWeights, cartesian, Subsingleton.elim (node 0 []) default]
  | succ d ih =>
    intro e he g ζ G hG hcont hC hζ
    obtain ⟨a, e, rfl⟩ : ∃ a e', e = Fin.cons a e' := ⟨e 0, Fin.tail e, (Fin.cons_self_tail e).symm⟩
    have ha : 0 ≤ a := he 0
    have he' : ∀ i, 0 ≤ e i := fun i => he i.succ
    have h0 : (0 : ℝ) ∈ Set.Icc (-a) a := ⟨by linarith, ha⟩
    have hn1 : (0 : ℝ) < (n : ℝ) - 1 := by
      have : (2 : ℝ) ≤ n := by exact_mod_cast hn
      linarith
    set C := (2 * a) ^ 3 * ζ 0 / (12 * ((n : ℝ) - 1) ^ 2) with hCdef
    set B := (∏ i, 2 * e i) * ∑ i : Fin d, (2 * e i) ^ 2 * ζ i.succ / (12 * ((n : ℝ) - 1) ^ 2) with hBdef
    -- one direction
    have one : ∀ z ∈ Set.Icc (-e) e, |∑ j ∈ Finset.range n, plainWeight a n j * G (Fin.cons ((linspace a n).getD j 0) z) -
        ∫ y in Set.Icc (-a) a, G (Fin.cons y z)| ≤ C := by
      intro z hz
      have hm := box_zero_mem h0 hz
      have c := hC 0 _ hm
      have b := hζ 0 _ hm
      simp only [Fin.update_cons_zero, Fin.cons_zero] at c b
      have := trapezoidal_error_le_of_c2 c b (N := n - 1) (by omega)
      rw [trapezoidal_error, show |a - -a| = 2 * a by rw [abs_of_nonneg (by linarith)]; ring, Nat.cast_sub (by omega), Nat.cast_one] at this
      rw [plainWeight_sum hn a fun y => G (Fin.cons y z), integral_Icc_eq_integral_Ioc, ← intervalIntegral.integral_of_le (by linarith)]
      exact this
    -- the other directions
    have rest : ∀ j ∈ Finset.range n, |quadrature (List.ofFn fun i => linspace (e i) n) (List.ofFn fun i => trapezoidWeights (e i) n)
        (fun _ p => normalDensity 0 1 ((linspace a n).getD j 0) * g (Fin.cons ((linspace a n).getD j 0) (node d p))) -
        ∫ z in Set.Icc (-e) e, G (Fin.cons ((linspace a n).getD j 0) z)| ≤ B := by
      intro j hj
      have hx := linspace_mem ha hn (Finset.mem_range.1 hj)
      generalize (linspace a n).getD j 0 = x at hx ⊢
      refine ih e he' (fun z => normalDensity 0 1 x * g (Fin.cons x z)) (fun i => ζ i.succ) (fun z => G (Fin.cons x z)) ?_ ?_ ?_ ?_
      · intro z
        rw [hG, Fin.prod_univ_succ]
        simp only [Fin.cons_zero, Fin.cons_succ]
        ring
      · refine hcont.comp (Continuous.continuousOn ?_) fun z hz => box_zero_mem hx hz
        exact continuous_pi fun i => Fin.cases (by simpa using continuous_const) (fun k => by simpa using continuous_apply k) i
      · intro i z hz
        have := hC i.succ _ (box_zero_mem hx hz)
        simpa only [← Fin.cons_update, Fin.cons_succ] using this
      · intro i z hz
        have := hζ i.succ _ (box_zero_mem hx hz)
        simpa only [← Fin.cons_update, Fin.cons_succ] using this
    -- integrability
    have hcont2 : ContinuousOn (fun p : ℝ × (Fin d → ℝ) => G (Fin.cons p.1 p.2)) (Set.Icc (-a) a ×ˢ Set.Icc (-e) e) := by
      refine hcont.comp (Continuous.continuousOn ?_) fun p hp => box_zero_mem hp.1 hp.2
      refine continuous_pi fun i => Fin.cases ?_ (fun k => ?_) i
      · simpa using continuous_fst
      · simp only [Fin.cons_succ]
        fun_prop
    have hint : Integrable (fun p : ℝ × (Fin d → ℝ) => G (Fin.cons p.1 p.2)) ((volume.restrict (Set.Icc (-a) a)).prod (volume.restrict (Set.Icc (-e) e))) := by
      rw [Measure.prod_restrict]
      exact hcont2.integrableOn_compact (isCompact_Icc.prod isCompact_Icc)
    have hint1 : ∀ j ∈ Finset.range n, Integrable (fun z => plainWeight a n j * G (Fin.cons ((linspace a n).getD j 0) z)) (volume.restrict (Set.Icc (-e) e)) := by
      intro j hj
      have hx := linspace_mem ha hn (Finset.mem_range.1 hj)
      refine Integrable.const_mul ?_ _
      refine ContinuousOn.integrableOn_compact isCompact_Icc ?_
      exact hcont2.comp (f := fun z => ((linspace a n).getD j 0, z)) (Continuous.continuousOn (by fun_prop)) fun z hz => ⟨hx, hz⟩
    rw [integral_box_cons, integral_prod_symm _ hint]
    have second : |(∑ j ∈ Finset.range n, plainWeight a n j * ∫ z in Set.Icc (-e) e, G (Fin.cons ((linspace a n).getD j 0) z)) -
        ∫ z in Set.Icc (-e) e, ∫ y in Set.Icc (-a) a, G (Fin.cons y z)| ≤ C * ∏ i, 2 * e i := by
      simp only [← integral_const_mul]
      rw [← integral_finsetSum _ hint1, ← integral_sub (integrable_finsetSum _ hint1) hint.integral_prod_right]
      have hv : (volume.restrict (Set.Icc (-e) e)).real Set.univ = ∏ i, 2 * e i := by
        rw [measureReal_restrict_apply_univ, measureReal_def, Real.volume_Icc_pi, ENNReal.toReal_prod]
        refine Finset.prod_congr rfl fun i _ => ?_
        simp only [Pi.neg_apply]
        rw [ENNReal.toReal_ofReal (by linarith [he' i])]
        ring
      have : IsFiniteMeasure (volume.restrict (Set.Icc (-e) e)) := ⟨by
        rw [Measure.restrict_apply_univ]
        exact isCompact_Icc.measure_lt_top⟩
      have := norm_integral_le_of_norm_le_const (μ := volume.restrict (Set.Icc (-e) e)) (C := C) (f := fun z =>
        ∑ j ∈ Finset.range n, plainWeight a n j * G (Fin.cons ((linspace a n).getD j 0) z) - ∫ y in Set.Icc (-a) a, G (Fin.cons y z))
        ((ae_restrict_iff' measurableSet_Icc).2 (Filter.Eventually.of_forall one))
      rwa [hv] at this
    have first : |quadrature (List.ofFn fun i : Fin (d + 1) => linspace ((Fin.cons a e : Fin (d + 1) → ℝ) i) n)
          (List.ofFn fun i : Fin (d + 1) => trapezoidWeights ((Fin.cons a e : Fin (d + 1) → ℝ) i) n) (fun _ p => g (node (d + 1) p)) -
        ∑ j ∈ Finset.range n, plainWeight a n j * ∫ z in Set.Icc (-e) e, G (Fin.cons ((linspace a n).getD j 0) z)| ≤ 2 * a * B := by
      rw [List.ofFn_succ, List.ofFn_succ]
      simp only [Fin.cons_zero, Fin.cons_succ]
      rw [quadrature_cons (by simp [linspace, trapezoidWeights]) (by simp [linspace, trapezoidWeights, Function.comp_def]),
        show (linspace a n).length = n by simp [linspace], ← Finset.sum_sub_distrib]
      refine (Finset.abs_sum_le_sum_abs _ _).trans ?_
      rw [← plainWeight_total hn a, Finset.sum_mul]
      refine Finset.sum_le_sum fun j hj => ?_
      have hp := plainWeight_nonneg ha hn (Finset.mem_range.1 hj)
      have hne := (normalDensity_pos ((linspace a n).getD j 0)).ne'
      have hnode : ∀ p : List ℝ, node (d + 1) ((linspace a n).getD j 0 :: p) = Fin.cons ((linspace a n).getD j 0) (node d p) := by
        intro p
        funext i
        refine Fin.cases ?_ (fun k => ?_) i
        · simp [node]
        · simp [node]
      have r := rest j hj
      rw [quadrature_smul] at r
      simp only [hnode]
      have e1 : (trapezoidWeights a n).getD j 0 = plainWeight a n j * normalDensity 0 1 ((linspace a n).getD j 0) := by
        rw [plainWeight, div_mul_cancel₀ _ hne]
      rw [e1, mul_assoc, ← mul_sub, abs_mul, abs_of_nonneg hp]
      exact mul_le_mul_of_nonneg_left r hp
    refine (abs_sub_le _ _ _).trans ((add_le_add first second).trans (le_of_eq ?_))
    rw [Fin.prod_univ_succ, Fin.sum_univ_succ]
    simp only [Fin.cons_zero, Fin.cons_succ, hCdef, hBdef]
    ring

end Hermipy
