import Verif.Lemmas.Rules
import Mathlib.Analysis.Matrix.Spectrum
import Mathlib.Algebra.Polynomial.Roots
import Mathlib.Data.List.GetD

/-! # The Gauss rule: existence, uniqueness, nodes and weights -/

namespace Hermipy
open Spec Polynomial MeasureTheory Matrix

/-- Hermite polynomials with norm one. -/
noncomputable def hn (n : ℕ) : ℝ[X] := C (1 / √(n.factorial : ℝ)) * He n

theorem gE_zero : gE 0 = 0 := by simp [gE]

theorem gE_sum {ι : Type} (s : Finset ι) (p : ι → ℝ[X]) : gE (∑ i ∈ s, p i) = ∑ i ∈ s, gE (p i) := by
  classical
  induction s using Finset.induction_on with
  | empty => simp [gE_zero]
  | insert a s h ih => rw [Finset.sum_insert h, Finset.sum_insert h, gE_add, ih]

theorem gE_hn (i j : ℕ) : gE (hn i * hn j) = if i = j then 1 else 0 := by
  rw [← gaussMean_herm, gaussMean, gE]
  congr 1
  funext x
  rw [herm_eq, herm_eq, hn, hn, eval_mul, eval_mul, eval_mul, eval_C, eval_C, gw]
  ring

theorem monic_He (n : ℕ) : (He n).Monic := (hermite_monic n).map _

theorem degree_hn (n : ℕ) : (hn n).degree = n := by
  rw [hn, degree_C_mul (by positivity), degree_eq_natDegree (monic_He n).ne_zero, natDegree_He]

theorem exists_expansion : ∀ (n : ℕ) (p : ℝ[X]), p.degree < n → ∃ a : ℕ → ℝ, p = ∑ i ∈ Finset.range n, C (a i) * hn i := by
  intro n
  induction n with
  | zero =>
    intro p hp
    refine ⟨fun _ => 0, ?_⟩
    rw [Finset.range_zero, Finset.sum_empty]
    exact degree_eq_bot.1 (by simpa using hp)
  | succ n ih =>
    intro p hp
    obtain ⟨a, ha⟩ := ih (p - C (p.coeff n) * He n) (by
      rw [degree_lt_iff_coeff_zero]
      intro m hm
      rw [coeff_sub, coeff_C_mul]
      rcases hm.eq_or_lt with rfl | hm
      · have := (monic_He n).coeff_natDegree
        rw [natDegree_He] at this
        rw [this, mul_one, sub_self]
      · rw [coeff_eq_zero_of_natDegree_lt (p := He n) (by rw [natDegree_He]; exact hm), mul_zero, sub_zero]
        exact (degree_lt_iff_coeff_zero p (n + 1)).1 hp m hm)
    refine ⟨fun i => if i = n then p.coeff n * √(n.factorial : ℝ) else a i, ?_⟩
    rw [Finset.sum_range_succ]
    dsimp only
    rw [if_pos rfl]
    have e : ∑ i ∈ Finset.range n, C (if i = n then p.coeff n * √(n.factorial : ℝ) else a i) * hn i = p - C (p.coeff n) * He n := by
      rw [ha]
      refine Finset.sum_congr rfl fun i hi => ?_
      rw [if_neg (Finset.mem_range.1 hi).ne]
    rw [e, hn, ← mul_assoc, ← C_mul]
    have : p.coeff n * √(n.factorial : ℝ) * (1 / √(n.factorial : ℝ)) = p.coeff n := by
      have : √(n.factorial : ℝ) ≠ 0 := by positivity
      field_simp
    rw [this]
    ring

/-- A polynomial of degree less than `n` is the sum of its components. -/
theorem expansion {n : ℕ} {p : ℝ[X]} (hp : p.degree < n) : p = ∑ i ∈ Finset.range n, C (gE (p * hn i)) * hn i := by
  obtain ⟨a, ha⟩ := exists_expansion n p hp
  have : ∀ i ∈ Finset.range n, gE (p * hn i) = a i := by
    intro i hi
    conv_lhs => rw [ha, Finset.sum_mul, gE_sum]
    rw [Finset.sum_eq_single i]
    · rw [mul_assoc, gE_C_mul, gE_hn, if_pos rfl, mul_one]
    · intro j _ hj
      rw [mul_assoc, gE_C_mul, gE_hn, if_neg hj, mul_zero]
    · exact fun h => absurd hi h
  conv_lhs => rw [ha]
  exact Finset.sum_congr rfl fun i hi => by rw [this i hi]

/-- Parseval. -/
theorem gE_mul {n : ℕ} {p : ℝ[X]} (hp : p.degree < n) (q : ℝ[X]) : gE (p * q) = ∑ i ∈ Finset.range n, gE (p * hn i) * gE (q * hn i) := by
  conv_lhs => rw [expansion hp, Finset.sum_mul, gE_sum]
  refine Finset.sum_congr rfl fun i _ => ?_
  rw [mul_assoc, gE_C_mul, mul_comm (hn i)]

theorem gE_sq_pos {p : ℝ[X]} (hp : p ≠ 0) : 0 < gE (p * p) := by
  have hd : p.degree < ((p.natDegree + 1 : ℕ) : WithBot ℕ) := by
    rw [degree_eq_natDegree hp]
    exact_mod_cast Nat.lt_succ_self _
  rw [gE_mul hd]
  refine lt_of_le_of_ne (Finset.sum_nonneg fun i _ => mul_self_nonneg _) fun h => hp ?_
  have := (Finset.sum_eq_zero_iff_of_nonneg fun i _ => mul_self_nonneg (gE (p * hn i))).1 h.symm
  rw [expansion hd]
  refine Finset.sum_eq_zero fun i hi => ?_
  rw [mul_self_eq_zero.1 (this i hi), C_0, zero_mul]

/-! ## Existence -/

/-- The matrix of the multiplication by `x` on polynomials of degree less than `n`. -/
noncomputable def jacobi (n : ℕ) : Matrix (Fin n) (Fin n) ℝ := Matrix.of fun i j => gE (X * hn i * hn j)

/-- The components of a polynomial. -/
noncomputable def comps (n : ℕ) (p : ℝ[X]) : Fin n → ℝ := fun i => gE (p * hn i)

theorem jacobi_symm (n : ℕ) : (jacobi n)ᵀ = jacobi n := by
  ext i j
  simp only [jacobi, transpose_apply, of_apply]
  congr 1
  ring

theorem jacobi_mulVec {n : ℕ} {p : ℝ[X]} (hp : p.degree < n) : jacobi n *ᵥ comps n p = comps n (X * p) := by
  ext i
  rw [mulVec, dotProduct]
  simp only [jacobi, of_apply, comps]
  rw [Fin.sum_univ_eq_sum_range fun j => gE (X * hn i * hn j) * gE (p * hn j), show X * p * hn i = p * (X * hn i) by ring, gE_mul hp]
  exact Finset.sum_congr rfl fun j _ => mul_comm _ _

theorem jacobi_pow {n : ℕ} : ∀ {k : ℕ}, k ≤ n → (jacobi n) ^ k *ᵥ comps n 1 = comps n (X ^ k) := by
  intro k
  induction k with
  | zero => intro _; simp
  | succ k ih =>
    intro hk
    rw [pow_succ', ← mulVec_mulVec, ih (by omega), jacobi_mulVec (by rw [degree_X_pow]; exact_mod_cast hk), ← pow_succ']

theorem jacobi_moment {n m : ℕ} (hm : m < 2 * n) : comps n 1 ⬝ᵥ ((jacobi n) ^ m *ᵥ comps n 1) = gE (X ^ m) := by
  obtain ⟨a, b, ha, hb, rfl⟩ : ∃ a b, a < n ∧ b ≤ n ∧ m = a + b := by
    rcases Nat.lt_or_ge m n with h | h
    · exact ⟨m, 0, h, by omega, by omega⟩
    · exact ⟨m - n, n, by omega, le_refl n, by omega⟩
  have hs : ((jacobi n) ^ a)ᵀ = (jacobi n) ^ a := by rw [transpose_pow, jacobi_symm]
  rw [pow_add, ← mulVec_mulVec, dotProduct_mulVec, ← mulVec_transpose, hs, jacobi_pow ha.le, jacobi_pow hb, pow_add,
    gE_mul (n := n) (by rw [degree_X_pow]; exact_mod_cast ha), dotProduct]
  exact Fin.sum_univ_eq_sum_range (fun j => gE (X ^ a * hn j) * gE (X ^ b * hn j)) n

/-- Nodes and weights with respect to the density. -/
theorem exists_rule (n : ℕ) : ∃ x w : Fin n → ℝ, ∀ P : ℝ[X], P.natDegree < 2 * n → ∑ i, w i * P.eval (x i) = gE P := by
  have hA : (jacobi n).IsHermitian := by
    rw [IsHermitian, conjTranspose_eq_transpose_of_trivial, jacobi_symm]
  set U : Matrix (Fin n) (Fin n) ℝ := hA.eigenvectorUnitary.1 with hU
  have hUU : U * star U = 1 := Unitary.coe_mul_star_self _
  have hsU : star U * U = 1 := Unitary.coe_star_mul_self _
  have hspec : jacobi n = U * diagonal hA.eigenvalues * star U := by
    have := hA.spectral_theorem
    rw [Unitary.conjStarAlgAut_apply] at this
    exact this
  have hpow : ∀ m, (jacobi n) ^ m = U * diagonal (fun i => hA.eigenvalues i ^ m) * star U := by
    intro m
    induction m with
    | zero => simp [hUU]
    | succ m ih =>
      have e : (jacobi n) ^ (m + 1) = U * diagonal (fun i => hA.eigenvalues i ^ m) * star U * (U * diagonal hA.eigenvalues * star U) := by
        rw [pow_succ, ih, ← hspec]
      rw [e, show U * diagonal (fun i => hA.eigenvalues i ^ m) * star U * (U * diagonal hA.eigenvalues * star U) =
        U * diagonal (fun i => hA.eigenvalues i ^ m) * (star U * U) * diagonal hA.eigenvalues * star U by simp only [Matrix.mul_assoc], hsU,
        Matrix.mul_one, Matrix.mul_assoc U, diagonal_mul_diagonal]
      rfl
  set v := star U *ᵥ comps n 1 with hv
  refine ⟨hA.eigenvalues, fun i => v i ^ 2, fun P hP => ?_⟩
  have hm : ∀ m, m < 2 * n → ∑ i, v i ^ 2 * hA.eigenvalues i ^ m = gE (X ^ m) := by
    intro m hm
    rw [← jacobi_moment hm, hpow, ← mulVec_mulVec, ← mulVec_mulVec, ← hv, dotProduct_mulVec, ← mulVec_transpose]
    have : Uᵀ = star U := by rw [star_eq_conjTranspose, conjTranspose_eq_transpose_of_trivial]
    rw [this, ← hv, dotProduct]
    refine Finset.sum_congr rfl fun i _ => ?_
    rw [mulVec_diagonal]
    ring
  have hP' := as_sum_range_C_mul_X_pow' P hP
  conv_rhs => rw [hP', gE_sum]
  simp only [gE_C_mul]
  have : ∀ i, P.eval (hA.eigenvalues i) = ∑ m ∈ Finset.range (2 * n), P.coeff m * hA.eigenvalues i ^ m := by
    intro i
    conv_lhs => rw [hP', eval_finsetSum]
    simp
  simp only [this, Finset.mul_sum]
  rw [Finset.sum_comm]
  refine Finset.sum_congr rfl fun m hmm => ?_
  rw [← hm m (Finset.mem_range.1 hmm), Finset.mul_sum]
  exact Finset.sum_congr rfl fun i _ => by ring

theorem integral_gE (P : ℝ[X]) : ∫ x : ℝ, P.eval x * Real.exp (-(x ^ 2) / 2) = √(2 * Real.pi) * gE P := by
  have hs : √(2 * Real.pi) ≠ 0 := (Real.sqrt_pos.2 (by have := Real.pi_pos; positivity)).ne'
  rw [gE, ← integral_const_mul]
  congr 1
  funext x
  rw [gw]
  field_simp

/-! ## Uniqueness -/

theorem natDegree_nodes (x : ℕ → ℝ) (s : Finset ℕ) : (∏ t ∈ s, (X - C (x t))).natDegree = s.card := by
  rw [natDegree_prod_of_monic _ _ fun t _ => monic_X_sub_C _]
  simp

section
variable {n : ℕ} {r : List ℝ × List ℝ}

theorem rule_gE (h : GaussRule n r) {P : ℝ[X]} (hP : P.natDegree < 2 * n) :
    ∑ t ∈ Finset.range n, r.2.getD t 0 * P.eval (r.1.getD t 0) = √(2 * Real.pi) * gE P := by
  rw [h.exact P hP, integral_gE]

/-- A polynomial of degree less than `2n` which vanishes at the nodes has mean zero. -/
theorem rule_vanish (h : GaussRule n r) {P : ℝ[X]} (hP : P.natDegree < 2 * n) (h0 : ∀ t < n, P.eval (r.1.getD t 0) = 0) : gE P = 0 := by
  have := rule_gE h hP
  rw [Finset.sum_eq_zero fun t ht => by rw [h0 t (Finset.mem_range.1 ht), mul_zero]] at this
  have hs : √(2 * Real.pi) ≠ 0 := (Real.sqrt_pos.2 (by have := Real.pi_pos; positivity)).ne'
  exact (mul_eq_zero.1 this.symm).resolve_left hs

theorem prod_eval_zero {x : ℕ → ℝ} {s : Finset ℕ} {t : ℕ} (ht : t ∈ s) : (∏ u ∈ s, (X - C (x u))).eval (x t) = 0 := by
  rw [eval_prod]
  exact Finset.prod_eq_zero ht (by simp)

theorem monic_nodes (x : ℕ → ℝ) (s : Finset ℕ) : (∏ t ∈ s, (X - C (x t))).Monic := monic_prod_of_monic _ _ fun t _ => monic_X_sub_C _

theorem gE_He_lt {n : ℕ} {p : ℝ[X]} (hp : p.degree < n) : gE (He n * p) = 0 := by
  rw [expansion hp, Finset.mul_sum, gE_sum]
  refine Finset.sum_eq_zero fun i hi => ?_
  rw [hn, show He n * (C (gE (p * (C (1 / √(i.factorial : ℝ)) * He i))) * (C (1 / √(i.factorial : ℝ)) * He i)) =
    C (gE (p * (C (1 / √(i.factorial : ℝ)) * He i))) * (C (1 / √(i.factorial : ℝ)) * (He n * He i)) by ring, gE_C_mul, gE_C_mul,
    gE_He_ne (Finset.mem_range.1 hi)]
  ring

/-- The nodes are the zeros of the Hermite polynomial. -/
theorem rule_He (h : GaussRule n r) : ∏ t ∈ Finset.range n, (X - C (r.1.getD t 0)) = He n := by
  set ω := ∏ t ∈ Finset.range n, (X - C (r.1.getD t 0)) with hω
  have hm : ω.Monic := monic_nodes _ _
  have hdeg : ω.natDegree = n := by rw [hω, natDegree_nodes, Finset.card_range]
  rcases Nat.eq_zero_or_pos n with h0 | hpos
  · subst h0
    simp [hω, He_zero]
  by_contra hne
  have hlt : (ω - He n).degree < n := by
    have := degree_sub_lt (p := ω) (q := He n) (by rw [degree_eq_natDegree hm.ne_zero, degree_eq_natDegree (monic_He n).ne_zero, hdeg, natDegree_He])
      hm.ne_zero (by rw [hm.leadingCoeff, (monic_He n).leadingCoeff])
    rwa [degree_eq_natDegree hm.ne_zero, hdeg] at this
  have hd0 : ω - He n ≠ 0 := sub_ne_zero.2 hne
  have hltn : (ω - He n).natDegree < n := by
    rw [degree_eq_natDegree hd0] at hlt
    exact_mod_cast hlt
  have h1 : gE (ω * (ω - He n)) = 0 := rule_vanish h (by
    refine lt_of_le_of_lt natDegree_mul_le ?_
    omega) fun t ht => by rw [eval_mul, hω, prod_eval_zero (x := fun t => r.1.getD t 0) (Finset.mem_range.2 ht), zero_mul]
  have h2 : gE (He n * (ω - He n)) = 0 := gE_He_lt hlt
  have h3 := gE_sq_pos hd0
  rw [sub_mul, gE_sub, h1, h2] at h3
  simp at h3

theorem rule_range (h : GaussRule n r) : r.1 = (List.range n).map fun t => r.1.getD t 0 := by
  refine List.ext_getElem (by simp [h.nodes]) fun t h1 h2 => ?_
  rw [List.getElem_map, List.getElem_range, List.getD_eq_getElem _ _ h1]

theorem rule_roots (h : GaussRule n r) : (He n).roots = (r.1 : Multiset ℝ) := by
  rw [← rule_He h, Finset.prod, show (Finset.range n).val.map (fun t => X - C (r.1.getD t 0)) =
    ((Finset.range n).val.map fun t => r.1.getD t 0).map fun a => X - C a by rw [Multiset.map_map]; rfl, roots_multiset_prod_X_sub_C]
  conv_rhs => rw [rule_range h]
  rfl

theorem rule_distinct (h : GaussRule n r) {s t : ℕ} (hs : s < n) (ht : t < n) (e : r.1.getD s 0 = r.1.getD t 0) : s = t := by
  by_contra hne
  set p := ∏ u ∈ (Finset.range n).erase s, (X - C (r.1.getD u 0)) with hp
  have hm : p.Monic := monic_nodes _ _
  have hdeg : p.natDegree = n - 1 := by
    rw [hp, natDegree_nodes, Finset.card_erase_of_mem (Finset.mem_range.2 hs), Finset.card_range]
  have := rule_vanish h (P := p * p) (by rw [hm.natDegree_mul hm, hdeg]; omega) fun u hu => by
    have : p.eval (r.1.getD u 0) = 0 := by
      by_cases hus : u = s
      · rw [hus, e, hp]
        exact prod_eval_zero (x := fun t => r.1.getD t 0) (Finset.mem_erase.2 ⟨fun h => hne h.symm, Finset.mem_range.2 ht⟩)
      · rw [hp]
        exact prod_eval_zero (x := fun t => r.1.getD t 0) (Finset.mem_erase.2 ⟨hus, Finset.mem_range.2 hu⟩)
    rw [eval_mul, this, zero_mul]
  exact absurd this (gE_sq_pos hm.ne_zero).ne'

theorem rule_nodup (h : GaussRule n r) : r.1.Nodup := by
  rw [rule_range h]
  refine List.Nodup.map_on ?_ List.nodup_range
  exact fun s hs t ht e => rule_distinct h (List.mem_range.1 hs) (List.mem_range.1 ht) e

/-- The weight of a node in terms of the values of the polynomials with norm one. -/
theorem rule_weight (h : GaussRule n r) {t : ℕ} (ht : t < n) :
    r.2.getD t 0 * ∑ i ∈ Finset.range n, (hn i).eval (r.1.getD t 0) ^ 2 = √(2 * Real.pi) := by
  set p := ∏ u ∈ (Finset.range n).erase t, (X - C (r.1.getD u 0)) with hp
  have hm : p.Monic := monic_nodes _ _
  have hdeg : p.natDegree = n - 1 := by
    rw [hp, natDegree_nodes, Finset.card_erase_of_mem (Finset.mem_range.2 ht), Finset.card_range]
  have hpd : p.degree < n := by
    rw [degree_eq_natDegree hm.ne_zero, hdeg]
    exact_mod_cast (by omega : n - 1 < n)
  have hz : ∀ u < n, u ≠ t → p.eval (r.1.getD u 0) = 0 := fun u hu hut => by
    rw [hp]
    exact prod_eval_zero (x := fun t => r.1.getD t 0) (Finset.mem_erase.2 ⟨hut, Finset.mem_range.2 hu⟩)
  have hne : p.eval (r.1.getD t 0) ≠ 0 := by
    rw [hp, eval_prod]
    refine Finset.prod_ne_zero_iff.2 fun u hu => ?_
    rw [Finset.mem_erase, Finset.mem_range] at hu
    rw [eval_sub, eval_X, eval_C, sub_ne_zero]
    exact fun e => hu.1 (rule_distinct h hu.2 ht e.symm)
  have key : ∀ q : ℝ[X], q.natDegree ≤ n → r.2.getD t 0 * (p.eval (r.1.getD t 0) * q.eval (r.1.getD t 0)) = √(2 * Real.pi) * gE (p * q) := by
    intro q hq
    rw [← rule_gE h (lt_of_le_of_lt natDegree_mul_le (by omega)), Finset.sum_eq_single t]
    · rw [eval_mul]
    · intro u hu hut
      rw [eval_mul, hz u (Finset.mem_range.1 hu) hut, zero_mul, mul_zero]
    · exact fun h => absurd (Finset.mem_range.2 ht) h
  have hsum : p.eval (r.1.getD t 0) = ∑ i ∈ Finset.range n, gE (p * hn i) * (hn i).eval (r.1.getD t 0) := by
    conv_lhs => rw [expansion hpd, eval_finsetSum]
    simp
  have : p.eval (r.1.getD t 0) * (r.2.getD t 0 * ∑ i ∈ Finset.range n, (hn i).eval (r.1.getD t 0) ^ 2) =
      p.eval (r.1.getD t 0) * √(2 * Real.pi) := by
    conv_rhs => rw [hsum]
    rw [Finset.mul_sum, Finset.mul_sum, Finset.sum_mul]
    refine Finset.sum_congr rfl fun i hi => ?_
    have k := key (hn i) (by
      have := degree_hn i
      rw [natDegree_eq_of_degree_eq_some this]
      exact (Finset.mem_range.1 hi).le)
    calc _ = r.2.getD t 0 * (p.eval (r.1.getD t 0) * (hn i).eval (r.1.getD t 0)) * (hn i).eval (r.1.getD t 0) := by ring
      _ = _ := by rw [k]; ring
  exact mul_left_cancel₀ hne this

end

theorem herm_up (n : ℕ) (x : ℝ) : √(n + 1 : ℝ) * herm (n + 1) x = x * herm n x - √(n : ℝ) * herm (n - 1) x := by
  cases n with
  | zero => simp [herm_zero, herm_one]
  | succ n =>
    rw [herm_rec n x, Nat.add_sub_cancel]
    have : √((n : ℝ) + 2) ≠ 0 := by positivity
    push_cast
    rw [show (n : ℝ) + 1 + 1 = n + 2 by ring]
    field_simp

/-- The formula of Christoffel and Darboux. -/
theorem christoffel (n : ℕ) (x : ℝ) : ∑ i ∈ Finset.range (n + 1), herm i x ^ 2 =
    (n + 1) * herm n x ^ 2 - √(n + 1 : ℝ) * herm (n + 1) x * (√(n : ℝ) * herm (n - 1) x) := by
  induction n with
  | zero => simp [herm_zero]
  | succ n ih =>
    rw [Finset.sum_range_succ, ih]
    have h1 := herm_up n x
    have h2 := herm_up (n + 1) x
    have h3 : √(n + 1 : ℝ) * √(n + 1 : ℝ) = n + 1 := Real.mul_self_sqrt (by positivity)
    push_cast at h2 ⊢
    have h4 : √(n : ℝ) * herm (n - 1) x = x * herm n x - √(n + 1 : ℝ) * herm (n + 1) x := by rw [h1]; ring
    rw [h2, h4]
    linear_combination (herm (n + 1) x ^ 2 - herm n x ^ 2) * h3

theorem eval_hn (n : ℕ) (x : ℝ) : (hn n).eval x = herm n x := by
  rw [hn, herm_eq, eval_mul, eval_C]
  ring

section
variable {n : ℕ} {r : List ℝ × List ℝ}

theorem rule_root (h : GaussRule n r) {t : ℕ} (ht : t < n) : herm n (r.1.getD t 0) = 0 := by
  rw [herm_eq, ← rule_He h, prod_eval_zero (x := fun t => r.1.getD t 0) (Finset.mem_range.2 ht), zero_div]

/-- The weight of a node. -/
theorem rule_weight_eq (h : GaussRule n r) {t : ℕ} (ht : t < n) :
    herm (n - 1) (r.1.getD t 0) ≠ 0 ∧ r.2.getD t 0 = √(2 * Real.pi) / (n * herm (n - 1) (r.1.getD t 0) ^ 2) := by
  obtain ⟨m, rfl⟩ : ∃ m, n = m + 1 := ⟨n - 1, by omega⟩
  have h1 := rule_weight h ht
  have h2 := christoffel m (r.1.getD t 0)
  rw [rule_root h ht, mul_zero, zero_mul, sub_zero] at h2
  simp only [eval_hn] at h1
  rw [h2] at h1
  rw [Nat.add_sub_cancel]
  have hs : √(2 * Real.pi) ≠ 0 := (Real.sqrt_pos.2 (by have := Real.pi_pos; positivity)).ne'
  have hne : ((m : ℝ) + 1) * herm m (r.1.getD t 0) ^ 2 ≠ 0 := fun e => by
    rw [e, mul_zero] at h1
    exact hs h1.symm
  refine ⟨fun e => hne (by rw [e]; ring), ?_⟩
  push_cast
  exact eq_div_of_mul_eq hne h1

theorem rule_weights (h : GaussRule n r) : r.2 = r.1.map fun x => √(2 * Real.pi) / (n * herm (n - 1) x ^ 2) := by
  refine List.ext_getElem (by rw [List.length_map, h.nodes, h.weights]) fun t h1 h2 => ?_
  rw [List.length_map] at h2
  have := (rule_weight_eq h (t := t) (by rw [← h.nodes]; exact h2)).2
  rw [List.getD_eq_getElem _ _ h1, List.getD_eq_getElem _ _ h2] at this
  rw [List.getElem_map, this]

end

/-- Reordering the nodes together with their weights. -/
theorem rule_of_perm {n : ℕ} {xs : List ℝ} {w : ℝ → ℝ} (h : GaussRule n (xs, xs.map w)) {ys : List ℝ} (hp : xs.Perm ys) :
    GaussRule n (ys, ys.map w) := by
  have key : ∀ (l : List ℝ) (P : ℝ[X]), l.length = n →
      ∑ t ∈ Finset.range n, (l.map w).getD t 0 * P.eval (l.getD t 0) = (l.map fun x => w x * P.eval x).sum := by
    intro l P hl
    rw [← hl, ← Fin.sum_univ_eq_sum_range fun t => (l.map w).getD t 0 * P.eval (l.getD t 0), ← Fin.sum_univ_getElem]
    have e : (l.map fun x => w x * P.eval x).length = l.length := by simp
    refine (Fintype.sum_equiv (finCongr e) _ _ fun t => ?_).symm
    have : t.1 < l.length := by have := t.2; simpa using this
    simp [this]
  refine ⟨hp.length_eq.symm.trans h.nodes, by rw [List.length_map]; exact hp.length_eq.symm.trans h.nodes, fun P hP => ?_⟩
  rw [← h.exact P hP]
  dsimp only
  rw [key ys P (hp.length_eq.symm.trans h.nodes), key xs P h.nodes]
  exact (hp.map _).sum_eq.symm

theorem rule_exists (n : ℕ) : ∃ r, GaussRule n r := by
  obtain ⟨x, w, h⟩ := exists_rule n
  refine ⟨(List.ofFn x, List.ofFn fun i => √(2 * Real.pi) * w i), by simp, by simp, fun P hP => ?_⟩
  rw [integral_gE, ← h P hP, Finset.mul_sum, ← Fin.sum_univ_eq_sum_range fun t =>
    (List.ofFn fun i => √(2 * Real.pi) * w i).getD t 0 * P.eval ((List.ofFn x).getD t 0)]
  refine Finset.sum_congr rfl fun i _ => ?_
  rw [List.getD_eq_getElem _ _ (by simp), List.getD_eq_getElem _ _ (by simp)]
  simp [mul_assoc]

end Hermipy
