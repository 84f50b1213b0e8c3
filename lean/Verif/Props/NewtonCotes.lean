import Verif.Lemmas.Trapezoid
import Verif.Props.QuadConstructors

/-! # C78: the error of `newton_cotes` in several directions -/

namespace Hermipy.Props
open Hermipy Hermipy.Spec MeasureTheory
variable {F : Type}

/-- C78. `Quad.newton_cotes` with the same number `n ≥ 2` of points in each direction, for any function: the result differs from the integral
over the box with the sides `[-eᵢ, eᵢ]`, in the coordinates centred at the mean and scaled by the standard deviation, of the function times the
standard normal density by at most the volume of the box times the sum of `(2eᵢ)² ζᵢ / (12 (n-1)²)`, where `ζᵢ` bounds the second derivative of
the integrand in direction `i`. -/
theorem C78_newton_cotes_box [Interp F] {n d : ℕ} (hn : 2 ≤ n) {extrema : List ℝ} (he : extrema.length = d) (hpos : ∀ e ∈ extrema, 0 ≤ e)
    (hs : n ^ d < 2 ^ 32) {mean : Option (List ℝ)} {cov : Option (List (List ℝ))} {dirs : Option (List ℕ)} {factor : FactorArg F}
    (hk : Keywords d mean cov dirs factor) :
    ∃ q, quad_newton_cotes (List.replicate d n) extrema none factor mean cov dirs none = .ok q ∧ Built q d n mean cov dirs none factor ∧
      ∀ (slack : ℕ) (eig : Eig) (f : SFn F), 1 ≤ slack → EigDiag eig → SFnOk f → f.dirs = q.position.dirs →
        ∀ (e ζ : Fin q.position.dirs.length → ℝ) (G : (Fin q.position.dirs.length → ℝ) → ℝ), (∀ i, extrema[i.1]? = some (e i)) →
        (∀ z, G z = f.value (place q.position.dirs fun i => q.position.mean.getD i 0 + √(entryOf q.position.cov i i) * z i) *
          ∏ i, normalDensity 0 1 (z i)) →
        ContinuousOn G (Set.Icc (-e) e) →
        (∀ i, ∀ z ∈ Set.Icc (-e) e, ContDiffOn ℝ 2 (fun y => G (Function.update z i y)) (Set.uIcc (-(e i)) (e i))) →
        (∀ i, ∀ z ∈ Set.Icc (-e) e, ∀ y, |iteratedDerivWithin 2 (fun y => G (Function.update z i y)) (Set.uIcc (-(e i)) (e i)) y| ≤ ζ i) →
        ∃ I, quad_integrate slack eig q f = .ok I ∧
          |I - ∫ z in Set.Icc (-e) e, G z| ≤ (∏ i, 2 * e i) * ∑ i, (2 * e i) ^ 2 * ζ i / (12 * ((n : ℝ) - 1) ^ 2) := by
  obtain ⟨q, eq, hb, hN, hW⟩ := newton_cotes_built (F := F) hn he hs hk
  refine ⟨q, eq, hb, ?_⟩
  intro slack eig f hsl heig hf hfd e ζ G hE hG hcont hC hζ
  rw [quad_integrate_ok heig hb.ok (fun _ => hsl) hfd hf.vars]
  refine ⟨_, rfl, ?_⟩
  have hl : extrema.length = q.position.dirs.length := by rw [he, hb.ok.pos.dirs, hb.dim]
  have hof : ∀ h : ℝ → List ℝ, extrema.map h = List.ofFn fun i => h (e i) := by
    intro h
    apply List.ext_getElem
    · simp [hl]
    · intro i h1 h2
      have := hE ⟨i, by simpa using h2⟩
      rw [List.getElem?_eq_getElem (by simpa using h1), Option.some.injEq] at this
      simp [this]
  have hpos' : ∀ i, 0 ≤ e i := fun i => hpos _ (List.mem_of_getElem? (hE i))
  have key := trapezoid_box hn e hpos' (fun z => f.value (place q.position.dirs fun i => q.position.mean.getD i 0 + √(entryOf q.position.cov i i) * z i))
    ζ G hG hcont hC hζ
  rw [hN, hW, hof, hof]
  have hval : (fun (_ : ℕ) (p : List ℝ) => f.value (gridPoint q.position p)) = fun _ p => f.value (place q.position.dirs fun i =>
      q.position.mean.getD i 0 + √(entryOf q.position.cov i i) * node _ p i) := by
    funext _ p
    refine SFn.value_congr fun t ht a ha k hk => ?_
    have hk' : k ∈ q.position.dirs := hfd ▸ hf.vars t ht a ha k hk
    rw [gridPoint, place, dif_pos (List.idxOf_lt_length_of_mem hk')]
    rfl
  rw [hval]
  exact key

/-- Products of smooth functions have bounds of this kind. -/
example {d : ℕ} (e : Fin d → ℝ) (he : ∀ i, 0 < e i) (h : Fin d → ℝ → ℝ) (hc : ∀ i, ContDiff ℝ 2 (h i)) :
    ContinuousOn (fun z : Fin d → ℝ => ∏ i, h i (z i)) (Set.Icc (-e) e) ∧
    (∀ i, ∀ z ∈ Set.Icc (-e) e, ContDiffOn ℝ 2 (fun y => ∏ k, h k (Function.update z i y k)) (Set.uIcc (-(e i)) (e i))) ∧
    ∃ ζ : Fin d → ℝ, ∀ i, ∀ z ∈ Set.Icc (-e) e, ∀ y,
      |iteratedDerivWithin 2 (fun y => ∏ k, h k (Function.update z i y k)) (Set.uIcc (-(e i)) (e i)) y| ≤ ζ i := by
  have split : ∀ i (z : Fin d → ℝ), (fun y => ∏ k, h k (Function.update z i y k)) = fun y => (∏ k ∈ Finset.univ.erase i, h k (z k)) * h i y := by
    intro i z
    funext y
    rw [← Finset.prod_erase_mul _ _ (Finset.mem_univ i), Function.update_self]
    congr 1
    refine Finset.prod_congr rfl fun k hk => ?_
    rw [Function.update_of_ne (Finset.ne_of_mem_erase hk)]
  refine ⟨?_, ?_, ?_⟩
  · have : ∀ i, Continuous (h i) := fun i => (hc i).continuous
    fun_prop
  · intro i z _
    rw [split]
    exact (contDiff_const.mul (hc i)).contDiffOn
  · have bound : ∀ i, ∃ ζ, ∀ y, |iteratedDerivWithin 2 (h i) (Set.uIcc (-(e i)) (e i)) y| ≤ ζ := by
      intro i
      have hi := he i
      rw [Set.uIcc_of_le (by linarith)]
      have hu := uniqueDiffOn_Icc (show -e i < e i by linarith)
      obtain ⟨ζ, hζ⟩ := isCompact_Icc.exists_bound_of_continuousOn ((hc i).contDiffOn.continuousOn_iteratedDerivWithin (m := 2) le_rfl hu)
      refine ⟨max ζ 0, fun x => ?_⟩
      by_cases hx : x ∈ Set.Icc (-(e i)) (e i)
      · exact le_max_of_le_left (hζ x hx)
      · rw [iteratedDerivWithin_succ, derivWithin_zero_of_notMem_closure (by rwa [isClosed_Icc.closure_eq])]
        simp
    choose ζ hζ using bound
    have hK : ∀ i, ∃ K, ∀ z ∈ Set.Icc (-e) e, |∏ k ∈ Finset.univ.erase i, h k (z k)| ≤ K := by
      intro i
      have hcont : ContinuousOn (fun z : Fin d → ℝ => ∏ k ∈ Finset.univ.erase i, h k (z k)) (Set.Icc (-e) e) := by
        have : ∀ i, Continuous (h i) := fun i => (hc i).continuous
        fun_prop
      exact isCompact_Icc.exists_bound_of_continuousOn hcont
    choose K hK using hK
    refine ⟨fun i => K i * ζ i, fun i z hz y => ?_⟩
    have hζ0 : 0 ≤ ζ i := (abs_nonneg _).trans (hζ i 0)
    rw [split]
    by_cases hy : y ∈ Set.uIcc (-(e i)) (e i)
    · have hi := he i
      have hu : UniqueDiffOn ℝ (Set.uIcc (-(e i)) (e i)) := by
        rw [Set.uIcc_of_le (by linarith)]
        exact uniqueDiffOn_Icc (by linarith)
      rw [iteratedDerivWithin_const_mul hy hu _ ((hc i).contDiffOn y hy), abs_mul]
      exact mul_le_mul (hK i z hz) (hζ i y) (abs_nonneg _) ((abs_nonneg _).trans (hK i z hz))
    · have hcl : IsClosed (Set.uIcc (-(e i)) (e i)) := isClosed_Icc
      rw [iteratedDerivWithin_succ, derivWithin_zero_of_notMem_closure (by rwa [hcl.closure_eq]), abs_zero]
      exact mul_nonneg ((abs_nonneg _).trans (hK i z hz)) hζ0

end Hermipy.Props
