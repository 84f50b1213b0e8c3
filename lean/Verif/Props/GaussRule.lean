import Verif.Lemmas.GaussRule
import Verif.Props.CompQuad

/-! # C83: the Gauss rule -/

namespace Hermipy.Props
open Hermipy Hermipy.Spec Polynomial
variable {F : Type}

/-- **C83.** The nodes of a Gauss rule are the `n` zeros of the Hermite polynomial, each of them once. -/
theorem C83_nodes {n : ℕ} {r : List ℝ × List ℝ} (h : GaussRule n r) : r.1.length = n ∧ r.1.Nodup ∧ ∀ x, x ∈ r.1 ↔ aeval x (hermite n) = 0 := by
  refine ⟨h.nodes, rule_nodup h, fun x => ?_⟩
  rw [← Multiset.mem_coe, ← rule_roots h, mem_roots (monic_He n).ne_zero, IsRoot.def, He, eval_map, aeval_def]
  rfl

/-- The weight of the zero `x` of the `n`-th Hermite polynomial. -/
noncomputable def gaussWeight (n : ℕ) (x : ℝ) : ℝ := √(2 * Real.pi) * n.factorial / (n * aeval x (hermite (n - 1))) ^ 2

theorem gaussWeight_eq {n : ℕ} (h : 0 < n) (x : ℝ) : gaussWeight n x = √(2 * Real.pi) / (n * herm (n - 1) x ^ 2) := by
  obtain ⟨m, rfl⟩ : ∃ m, n = m + 1 := ⟨n - 1, by omega⟩
  rw [gaussWeight, herm, Nat.add_sub_cancel, div_pow, Real.sq_sqrt (by positivity), Nat.factorial_succ]
  have : (m.factorial : ℝ) ≠ 0 := by positivity
  by_cases h0 : aeval x (hermite m) = 0
  · rw [h0]; simp
  · push_cast
    have : (m : ℝ) + 1 ≠ 0 := by positivity
    field_simp

/-- **C83.** The weights are positive, with sum √(2π), and given by the well-known formula. -/
theorem C83_weights {n : ℕ} {r : List ℝ × List ℝ} (h : GaussRule n r) :
    r.2 = r.1.map (gaussWeight n) ∧ (∀ w ∈ r.2, 0 < w) ∧ (0 < n → r.2.sum = √(2 * Real.pi)) := by
  have h1 : r.2 = r.1.map (gaussWeight n) := by
    rw [rule_weights h]
    refine List.map_congr_left fun x hx => ?_
    have : 0 < n := by rw [← h.nodes]; exact List.length_pos_of_mem hx
    rw [gaussWeight_eq this]
  refine ⟨h1, ?_, fun hn => ?_⟩
  · intro w hw
    obtain ⟨t, ht, rfl⟩ := List.mem_iff_getElem.1 hw
    have htn : t < n := by rw [← h.weights]; exact ht
    have := rule_weight_eq h htn
    rw [List.getD_eq_getElem _ _ ht] at this
    rw [this.2]
    have h2 := this.1
    have h3 : 0 < √(2 * Real.pi) := Real.sqrt_pos.2 (by have := Real.pi_pos; positivity)
    have : (0 : ℝ) < n := by exact_mod_cast (by omega : 0 < n)
    positivity
  · have := rule_gE h (P := 1) (by simpa using hn)
    rw [gE_one, mul_one] at this
    rw [← this, ← h.weights, ← Fin.sum_univ_eq_sum_range (fun t => r.2.getD t 0 * eval (r.1.getD t 0) (1 : ℝ[X])), ← Fin.sum_univ_getElem]
    refine Finset.sum_congr rfl fun t _ => ?_
    simp

/-- **C83.** Conversely, the zeros of the Hermite polynomial, in any order, with these weights are a Gauss rule. -/
theorem C83_iff {n : ℕ} {r : List ℝ × List ℝ} : GaussRule n r ↔
    r.1.length = n ∧ r.1.Nodup ∧ (∀ x ∈ r.1, aeval x (hermite n) = 0) ∧ r.2 = r.1.map (gaussWeight n) := by
  constructor
  · intro h
    obtain ⟨h1, h2, h3⟩ := C83_nodes h
    exact ⟨h1, h2, fun x hx => (h3 x).1 hx, (C83_weights h).1⟩
  · rintro ⟨h1, h2, h3, h4⟩
    obtain ⟨s, hs⟩ := rule_exists n
    obtain ⟨s1, s2, s3⟩ := C83_nodes hs
    have hp : s.1.Perm r.1 := by
      refine ((List.subperm_of_subset h2 fun x hx => (s3 x).2 (h3 x hx)).perm_of_length_le ?_).symm
      rw [h1, s1]
    have hs' : GaussRule n (s.1, s.1.map (gaussWeight n)) := by
      rw [← (C83_weights hs).1]
      exact hs
    have := rule_of_perm hs' hp
    rw [← h4] at this
    exact this

/-- **C83.** For each number of nodes there is exactly one Gauss rule with increasing nodes. -/
theorem C83_exists_unique (n : ℕ) : ∃! r, GaussRule n r ∧ r.1.Pairwise (· < ·) := by
  obtain ⟨s, hs⟩ := rule_exists n
  have hs' : GaussRule n (s.1, s.1.map (gaussWeight n)) := by
    rw [← (C83_weights hs).1]
    exact hs
  have hperm : s.1.Perm (s.1.mergeSort (· ≤ ·)) := (List.mergeSort_perm _ _).symm
  have hsort : (s.1.mergeSort (· ≤ ·)).Pairwise (· ≤ ·) := by
    have := List.pairwise_mergeSort (le := fun a b : ℝ => decide (a ≤ b)) (fun a b c h1 h2 => by simp at *; linarith)
      (fun a b => by simp; exact le_total a b) s.1
    simpa using this
  refine ⟨(s.1.mergeSort (· ≤ ·), (s.1.mergeSort (· ≤ ·)).map (gaussWeight n)), ⟨rule_of_perm hs' hperm, ?_⟩, ?_⟩
  · have hnd : (s.1.mergeSort (· ≤ ·)).Nodup := hperm.nodup_iff.1 (rule_nodup hs)
    exact hsort.imp₂ (fun a b h1 h2 => lt_of_le_of_ne h1 h2) hnd
  · rintro r ⟨hr, hlt⟩
    have hpr : r.1.Perm (s.1.mergeSort (· ≤ ·)) := by
      refine List.Perm.trans ?_ hperm
      rw [← Multiset.coe_eq_coe, ← rule_roots hr, ← rule_roots hs]
    have e1 : r.1 = s.1.mergeSort (· ≤ ·) := hpr.eq_of_pairwise (fun a b _ _ h1 h2 => le_antisymm h1 h2) (hlt.imp le_of_lt) hsort
    refine Prod.ext e1 ?_
    rw [(C83_weights hr).1, e1]

theorem zip_map_self {α β : Type} (f : α → β) (l : List α) : l.zip (l.map f) = l.map fun x => (x, f x) := by
  induction l with
  | nil => rfl
  | cons a l ih => rw [List.map_cons, List.zip_cons_cons, List.map_cons, ih]

/-- **C83.** Two Gauss rules have the same nodes with the same weights, up to the order. -/
theorem C83_unique {n : ℕ} {r s : List ℝ × List ℝ} (hr : GaussRule n r) (hs : GaussRule n s) : (r.1.zip r.2).Perm (s.1.zip s.2) := by
  have e : ∀ {r : List ℝ × List ℝ}, GaussRule n r → r.1.zip r.2 = r.1.map fun x => (x, gaussWeight n x) := by
    intro r hr
    rw [(C83_weights hr).1, zip_map_self]
  rw [e hr, e hs]
  refine List.Perm.map _ ?_
  rw [← Multiset.coe_eq_coe, ← rule_roots hr, ← rule_roots hs]

theorem herm_neg (n : ℕ) (x : ℝ) : herm n (-x) = (-1) ^ n * herm n x := by
  induction n using Nat.twoStepInduction with
  | zero => simp [herm_zero]
  | one => simp [herm_one]
  | more n h1 h2 =>
    rw [herm_rec, herm_rec, h1, h2]
    ring

/-- **C83.** The rule is symmetric: with `x`, also `-x` is a node, with the same weight. -/
theorem C83_symmetric {n : ℕ} {r : List ℝ × List ℝ} (h : GaussRule n r) {x w : ℝ} (hx : (x, w) ∈ r.1.zip r.2) : (-x, w) ∈ r.1.zip r.2 := by
  have e : r.1.zip r.2 = r.1.map fun x => (x, gaussWeight n x) := by
    rw [(C83_weights h).1, zip_map_self]
  rw [e, List.mem_map] at hx ⊢
  obtain ⟨y, hy, hyx⟩ := hx
  obtain ⟨rfl, rfl⟩ : y = x ∧ gaussWeight n y = w := by simpa using hyx
  have hn : 0 < n := by rw [← h.nodes]; exact List.length_pos_of_mem hy
  have hz : ∀ x, aeval x (hermite n) = 0 ↔ herm n x = 0 := fun x => by
    rw [herm, div_eq_zero_iff]
    have : √(n.factorial : ℝ) ≠ 0 := by positivity
    simp [this]
  refine ⟨-y, ?_, ?_⟩
  · rw [(C83_nodes h).2.2, hz, herm_neg, (hz y).1 (((C83_nodes h).2.2 y).1 hy), mul_zero]
  · rw [gaussWeight_eq hn, gaussWeight_eq hn, herm_neg, mul_pow, ← pow_mul, mul_comm (n - 1) 2, pow_mul]
    simp

/-- **C83.** The bound on the degree is sharp: no rule with `n` nodes is exact for all polynomials of degree `2n`. -/
theorem C83_sharp {n : ℕ} (r : List ℝ × List ℝ) : ∃ P : ℝ[X], P.natDegree = 2 * n ∧
    ∑ t ∈ Finset.range n, r.2.getD t 0 * P.eval (r.1.getD t 0) ≠ ∫ x : ℝ, P.eval x * Real.exp (-(x ^ 2) / 2) := by
  set p := ∏ t ∈ Finset.range n, (X - C (r.1.getD t 0)) with hp
  have hm : p.Monic := monic_nodes _ _
  refine ⟨p * p, ?_, ?_⟩
  · rw [hm.natDegree_mul hm, hp, natDegree_nodes, Finset.card_range]
    ring
  · rw [integral_gE, Finset.sum_eq_zero]
    · have h3 : 0 < √(2 * Real.pi) := Real.sqrt_pos.2 (by have := Real.pi_pos; positivity)
      exact (mul_pos h3 (gE_sq_pos hm.ne_zero)).ne
    · intro t ht
      rw [eval_mul, hp, prod_eval_zero (x := fun t => r.1.getD t 0) ht, zero_mul, mul_zero]

theorem cartesian_weights_nonneg {weights : List (List ℝ)} (h : ∀ l ∈ weights, ∀ w ∈ l, 0 ≤ w) : ∀ w ∈ gridWeights weights, 0 ≤ w := by
  intro w hw
  rw [gridWeights, List.mem_map] at hw
  obtain ⟨l, hl, rfl⟩ := hw
  have : ∀ x ∈ l, 0 ≤ x := by
    induction weights generalizing l with
    | nil => simp [cartesian] at hl; simp [hl]
    | cons a weights ih =>
      rw [cartesian, List.mem_flatMap] at hl
      obtain ⟨x, hx, hl⟩ := hl
      obtain ⟨p, hp, rfl⟩ := List.mem_map.1 hl
      intro y hy
      rcases List.mem_cons.1 hy with rfl | hy
      · exact h a (by simp) y hx
      · exact ih (fun l hl => h l (by simp [hl])) p hp y hy
  exact List.prod_nonneg this

theorem quadrature_mono {nodes weights : List (List ℝ)} (h : ∀ l ∈ weights, ∀ w ∈ l, 0 ≤ w) {g g' : ℕ → List ℝ → ℝ}
    (hg : ∀ i p, g i p ≤ g' i p) : quadrature nodes weights g ≤ quadrature nodes weights g' := by
  rw [quadrature, quadrature]
  refine Finset.sum_le_sum fun i _ => mul_le_mul_of_nonneg_left (hg _ _) ?_
  rcases Nat.lt_or_ge i (gridWeights weights).length with hi | hi
  · rw [List.getD_eq_getElem _ _ hi]
    exact cartesian_weights_nonneg h _ (List.getElem_mem hi)
  · rw [List.getD_eq_default _ _ hi]

/-- **C83.** The integral of a function by a quadrature made by `gauss_hermite` lies between the bounds of the function. -/
theorem C83_bounds [Interp F] {hermegauss : ℕ → List ℝ × List ℝ} {n d : ℕ} (hg : GaussRule n (hermegauss n)) (hn : 0 < n)
    {n_points : Points} {dim : Option ℕ} {dirs : Option (List ℕ)} (hdim : dirs = none → ∀ k, dim = some k → k = d)
    (hpts : (n_points = .one n ∧ (dirs = none → dim = none → d = 1)) ∨ n_points = .each (List.replicate d n)) (hs : n ^ d < 2 ^ 32)
    {mean : Option (List ℝ)} {cov : Option (List (List ℝ))} {factor : FactorArg F} (hk : Keywords d mean cov dirs factor) :
    ∃ q, quad_gauss_hermite hermegauss n_points dim dirs none factor mean cov none = .ok q ∧
      ∀ (slack : ℕ) (eig : Eig) (f : SFn F) (a b : ℝ), 1 ≤ slack → EigDiag eig → SFnOk f → f.dirs = q.position.dirs →
        (∀ x, a ≤ f.value x ∧ f.value x ≤ b) → ∃ v, quad_integrate slack eig q f = .ok v ∧ a ≤ v ∧ v ≤ b := by
  obtain ⟨q, e, hb, -, -, hW, -⟩ := gauss_hermite_built hg hn hdim hpts hs hk
  obtain ⟨q', e', -, -, hrule⟩ := gauss_hermite_rule hg hn hdim hpts hs hk
  obtain rfl : q = q' := Out.ok.inj (e.symm.trans e')
  refine ⟨q, e, ?_⟩
  intro slack eig f a b hsl he hf hfd hab
  refine ⟨_, quad_integrate_ok he hb.ok (fun _ => hsl) hfd hf.vars, ?_⟩
  have hnn : ∀ l ∈ q.weights, ∀ w ∈ l, 0 ≤ w := by
    rw [hW]
    intro l hl w hw
    rw [List.eq_of_mem_replicate hl, List.mem_map] at hw
    obtain ⟨w, hw, rfl⟩ := hw
    exact div_nonneg ((C83_weights hg).2.1 w hw).le (Real.sqrt_nonneg _)
  have hconst : ∀ c : ℝ, quadrature q.nodes q.weights (fun _ _ => c) = c := by
    intro c
    have := hrule (fun _ => c) ⟨MvPolynomial.C c, fun i => by rw [MvPolynomial.degreeOf_C]; omega, fun x => by simp⟩
    rw [this]
    have : MeasureTheory.IsProbabilityMeasure (normal q.position) := by unfold normal; infer_instance
    simp
  constructor
  · rw [← hconst a]
    exact quadrature_mono hnn fun i p => (hab _).1
  · conv_rhs => rw [← hconst b]
    exact quadrature_mono hnn fun i p => (hab _).2

/-! ## The hypotheses can be met -/

/-- Gauss rules for all numbers of nodes at once, as assumed in C78, C80 and C82. -/
example : ∃ hermegauss : ℕ → List ℝ × List ℝ, ∀ n, GaussRule n (hermegauss n) := by
  obtain ⟨r, hr⟩ := Classical.axiom_of_choice fun n => rule_exists n
  exact ⟨r, hr⟩

/-- The rule with three nodes: `-√3, 0, √3` with the weights 1/6, 2/3, 1/6 times √(2π). -/
theorem gauss3_ok : GaussRule 3 ([-√3, 0, √3], [√(2 * Real.pi) / 6, √(2 * Real.pi) * (2 / 3), √(2 * Real.pi) / 6]) := by
  have h3 : √3 * √3 = (3 : ℝ) := Real.mul_self_sqrt (by norm_num)
  have h3' : √3 ^ 2 = (3 : ℝ) := by rw [pow_two, h3]
  have hpos : 0 < √(3 : ℝ) := by positivity
  have hH2 : hermite 2 = X ^ 2 - 1 := by simp [hermite_succ, hermite_zero]; ring
  have hH3 : hermite 3 = X ^ 3 - (X + X + X) := by
    rw [hermite_succ, hH2]
    simp
    ring
  refine C83_iff.2 ⟨rfl, ?_, ?_, ?_⟩
  · simp only [List.nodup_cons, List.mem_cons, List.not_mem_nil, or_false, not_or]
    refine ⟨⟨by linarith, by linarith⟩, by linarith, not_false, List.nodup_nil⟩
  · intro x hx
    simp only [List.mem_cons, List.not_mem_nil, or_false] at hx
    rw [hH3]
    rcases hx with rfl | rfl | rfl <;> simp
    · linear_combination (-√3) * h3'
    · linear_combination (√3) * h3'
  · have e : ∀ x : ℝ, gaussWeight 3 x = √(2 * Real.pi) * 6 / (3 * (x ^ 2 - 1)) ^ 2 := by
      intro x
      rw [gaussWeight, hH2]
      simp [Nat.factorial]
    simp only [List.map_cons, List.map_nil, e, neg_sq, h3']
    norm_num
    exact ⟨by ring, by ring, by ring⟩

/-- The hypotheses of `C82_gauss` with two and three nodes. -/
example : ∃ hermegauss : ℕ → List ℝ × List ℝ, (hermegauss 2).1 = [-1, 1] ∧ (hermegauss 3).1 = [-√3, 0, √3] ∧
    (∀ n ∈ [2, 3], GaussRule n (hermegauss n)) ∧ ∀ n ∈ [2, 3], 0 < n ∧ 2 ≤ n ∧ n ^ 2 < 2 ^ 32 := by
  refine ⟨fun n => if n = 2 then gauss2 else ([-√3, 0, √3], [√(2 * Real.pi) / 6, √(2 * Real.pi) * (2 / 3), √(2 * Real.pi) / 6]), ?_, ?_, ?_, by simp⟩
  · simp [gauss2]
  · simp
  · intro n hn
    simp only [List.mem_cons, List.not_mem_nil, or_false] at hn
    rcases hn with rfl | rfl
    · exact gauss2_ok
    · exact gauss3_ok

end Hermipy.Props
