import Verif.Lemmas.VarfOk
import Verif.Lemmas.TransformLaws

/-! # Products of basis functions, and the variational matrix as a quadrature -/

namespace Hermipy

open Spec

theorem sum_listing {L : List IVec} (hn : L.Nodup) (F : IVec → ℝ) :
    ∑ t ∈ Finset.range L.length, F (L.getD t []) = ∑ m ∈ L.toFinset, F m := by
  rw [List.sum_toFinset _ hn, Finset.sum_range, ← List.sum_ofFn]
  congr 1
  apply List.ext_getElem
  · simp
  · intro i h1 h2
    simp

theorem sum_box_prod {dim : Nat} (N : Nat) (g : Nat → Nat → ℝ) :
    ∑ m ∈ boxSet (List.replicate dim N), ∏ d ∈ Finset.range dim, g d (m.getD d 0) =
      ∏ d ∈ Finset.range dim, ∑ k ∈ Finset.range N, g d k := by
  have h := sum_blocks (singles dim) (ub := List.replicate dim N) (by simp) (fun b q => g b (q.getD 0 0))
  simp only [List.length_map, List.length_range] at h
  have e : ∀ b ∈ Finset.range dim, ((List.range dim).map fun k => [k]).getD b [] = [b] := by
    intro b hb
    simp [Finset.mem_range.1 hb]
  have e1 : ∀ m : IVec, ∏ b ∈ Finset.range dim, g b ((restrict (((List.range dim).map fun k => [k]).getD b []) m).getD 0 0) =
      ∏ d ∈ Finset.range dim, g d (m.getD d 0) := by
    intro m
    apply Finset.prod_congr rfl
    intro b hb
    rw [e b hb]
    simp [restrict]
  simp only [e1] at h
  rw [h]
  apply Finset.prod_congr rfl
  intro b hb
  have e2 : restrict [b] (List.replicate dim N) = [N] := by simp [restrict, Finset.mem_range.1 hb]
  rw [e b hb, e2]
  refine Finset.sum_bij (fun q _ => q.getD 0 0) ?_ ?_ ?_ ?_
  · intro q hq
    have := (mem_boxSet.1 hq).2 0 (by simp)
    simpa using this
  · intro q hq q' hq' h
    obtain ⟨a, rfl⟩ := List.length_eq_one_iff.1 (mem_boxSet.1 hq).1
    obtain ⟨a', rfl⟩ := List.length_eq_one_iff.1 (mem_boxSet.1 hq').1
    simpa using h
  · intro k hk
    refine ⟨[k], mem_boxSet.2 ⟨rfl, ?_⟩, rfl⟩
    intro i hi
    obtain rfl : i = 0 := by simpa using hi
    simpa using hk
  · intros; rfl

/-- A product of two basis functions is a combination of basis functions. -/
theorem basis_mul_box {dim degree : Nat} {fourier I J : List Nat} (hI : ∀ d, I.getD d 0 ≤ degree) (hJ : ∀ d, J.getD d 0 ≤ degree)
    (p : List ℝ) : basis dim fourier I p * basis dim fourier J p =
      ∑ m ∈ boxSet (List.replicate dim (2 * degree + 3)), tripleProd dim fourier m I J * basis dim fourier m p := by
  have h := sum_box_prod (dim := dim) (2 * degree + 3) (fun d k =>
    triple (fourier.getD d 0) k (I.getD d 0) (J.getD d 0) * phi (fourier.getD d 0) k (p.getD d 0))
  simp only [Finset.prod_mul_distrib] at h
  rw [basis, basis, ← Finset.prod_mul_distrib]
  simp only [tripleProd, basis]
  rw [h]
  apply Finset.prod_congr rfl
  intro d _
  exact phi_mul (by have := hI d; have := hJ d; omega) _

theorem getD_le {m : IVec} {n : Nat} (h : ∀ x ∈ m, x ≤ n) (d : Nat) : m.getD d 0 ≤ n := by
  by_cases hd : d < m.length
  · apply h
    simp [hd]
  · simp [hd]

theorem tripleProd_symm (dim : Nat) (fourier m I J : List Nat) : tripleProd dim fourier m I J = tripleProd dim fourier m J I := by
  rw [tripleProd, tripleProd]
  exact Finset.prod_congr rfl fun d _ => triple_symm _ _ _ _

theorem tripleProd_ne {dim : Nat} {fourier m I J : List Nat} (h : tripleProd dim fourier m I J ≠ 0) {d : Nat} (hd : d < dim) :
    triple (fourier.getD d 0) (m.getD d 0) (I.getD d 0) (J.getD d 0) ≠ 0 := by
  rw [tripleProd, Finset.prod_ne_zero_iff] at h
  exact h d (Finset.mem_range.2 hd)

/-- In a closed situation the listing for `2 * degree` suffices. -/
theorem basis_mul {s : IndexSet} {dim degree : Nat} {fourier : List Nat} (hc : s = .cross ∨ s = .cross_nc → 1 ≤ degree)
    (hcl : Closed s dim degree fourier) {L2 : List IVec} (hL2 : IterOk s dim (2 * degree) L2) {I J : IVec}
    (hI : InSet s dim degree I) (hJ : InSet s dim degree J) (p : List ℝ) :
    basis dim fourier I p * basis dim fourier J p =
      ∑ t ∈ Finset.range L2.length, tripleProd dim fourier (L2.getD t []) I J * basis dim fourier (L2.getD t []) p := by
  rw [basis_mul_box (getD_le (inSet_le hc hI)) (getD_le (inSet_le hc hJ)),
    sum_listing hL2.nodup (fun m => tripleProd dim fourier m I J * basis dim fourier m p)]
  symm
  apply Finset.sum_subset
  · intro m hm
    have hm := (hL2.mem m).1 (List.mem_toFinset.1 hm)
    have hml := inSet_length hm
    rw [mem_boxSet]
    refine ⟨by simpa using hml, fun k hk => ?_⟩
    have h2 := getD_le (inSet_le (fun h => by have := hc h; omega) hm) k
    have : (List.replicate dim (2 * degree + 3)).getD k 0 = 2 * degree + 3 := by
      simp only [List.length_replicate] at hk
      simp [hk]
    omega
  · intro m hm hm'
    by_cases h0 : tripleProd dim fourier m I J = 0
    · rw [h0, zero_mul]
    · exfalso
      apply hm'
      rw [List.mem_toFinset, hL2.mem]
      exact hcl I J m hI hJ (by simpa using (mem_boxSet.1 hm).1) h0

/-- Quadrature of the values times a combination of basis functions. -/
theorem quadrature_comb {nodes weights : List (List ℝ)} (fourier : List Nat) (f : List ℝ) (L2 : List IVec) (a : IVec → ℝ) :
    quadrature nodes weights (fun i p => f.getD i 0 *
      ∑ t ∈ Finset.range L2.length, a (L2.getD t []) * basis nodes.length fourier (L2.getD t []) p) =
      ∑ t ∈ Finset.range L2.length, fcoef nodes weights fourier f (L2.getD t []) * a (L2.getD t []) := by
  have e : (fun i p => f.getD i 0 * ∑ t ∈ Finset.range L2.length, a (L2.getD t []) * basis nodes.length fourier (L2.getD t []) p) =
      fun (i : Nat) p => ∑ t ∈ Finset.range L2.length, a (L2.getD t []) * (f.getD i 0 * basis nodes.length fourier (L2.getD t []) p) := by
    funext i p
    rw [Finset.mul_sum]
    exact Finset.sum_congr rfl fun t _ => by ring
  rw [e, quadrature_sum]
  apply Finset.sum_congr rfl
  intro t _
  rw [quadrature_smul, fcoef, mul_comm]

theorem kept_noDrop {L : List IVec} {c : List Nat → ℝ} (h : NoDrop L c) {m : IVec} (hm : m ∈ L) : kept (dropTol L c) (c m) = c m := by
  rw [kept]
  rcases h m hm with h0 | h1
  · rw [h0, ite_self]
  · rw [if_neg (not_lt.2 h1)]

theorem dropTol_pos (L : List IVec) (c : List Nat → ℝ) : 0 < dropTol L c := by
  rw [dropTol]
  have : 0 < max 1 (√(∑ i ∈ Finset.range L.length, c (L.getD i []) ^ 2)) := lt_of_lt_of_le one_pos (le_max_left _ _)
  positivity

theorem kept_error (L : List IVec) (c : List Nat → ℝ) (x : ℝ) : |kept (dropTol L c) x - x| ≤ dropTol L c := by
  rw [kept]
  by_cases h : |x| < dropTol L c
  · rw [if_pos h, zero_sub, abs_neg]
    exact h.le
  · rw [if_neg h, sub_self, abs_zero]
    exact (dropTol_pos L c).le

/-! ## Closed situations -/

theorem closed_cube {dim degree : Nat} {fourier : List Nat} (he : 1 ∈ fourier → degree % 2 = 0)
    (hfl : fourier.length = dim) : Closed .cube dim degree fourier := by
  intro I J m hI hJ hm h
  refine ⟨hm, fun x hx => ?_⟩
  obtain ⟨d, hd, rfl⟩ := List.getElem_of_mem hx
  have h1 := tripleProd_ne h (d := d) (by omega)
  have i1 := getD_le hI.2 d
  have j1 := getD_le hJ.2 d
  have e : m.getD d 0 = m[d] := by simp [hd]
  rw [e] at h1
  by_cases hf : fourier.getD d 0 = 1
  · rw [hf] at h1
    have := triple_support_fourier h1
    have := he (by rw [← hf]; have : d < fourier.length := by omega
                   simp [this])
    omega
  · have := triple_support_hermite hf h1
    omega

theorem closed_triangle {dim degree : Nat} {fourier : List Nat} (hh : ∀ d < dim, fourier.getD d 0 ≠ 1) :
    Closed .triangle dim degree fourier := by
  intro I J m hI hJ hm h
  refine ⟨hm, ?_⟩
  have h1 : ∀ d ∈ Finset.range dim, m.getD d 0 ≤ I.getD d 0 + J.getD d 0 := fun d hd =>
    triple_support_hermite (hh d (Finset.mem_range.1 hd)) (tripleProd_ne h (Finset.mem_range.1 hd))
  have h2 := Finset.sum_le_sum h1
  rw [Finset.sum_add_distrib] at h2
  have e1 := sum_eq_range m
  have e2 := sum_eq_range I
  have e3 := sum_eq_range J
  rw [hm] at e1
  rw [hI.1] at e2
  rw [hJ.1] at e3
  have := hI.2
  have := hJ.2
  omega

theorem closed_rectangle {dim degree : Nat} {fourier : List Nat} (he : 1 ∈ fourier → degree % 2 = 0)
    (h4 : ∀ d, 1 ≤ d → d < dim → fourier.getD d 0 = 1 → degree / 2 % 2 = 0) (hfl : fourier.length = dim) :
    Closed .rectangle dim degree fourier := by
  intro I J m hI hJ hm h
  refine ⟨hm, fun d hd => ?_⟩
  have h1 := tripleProd_ne h (d := d) (by omega)
  have hdI : d < I.length := by rw [hI.1]; omega
  have hdJ : d < J.length := by rw [hJ.1]; omega
  have i1 := hI.2 d hdI
  have j1 := hJ.2 d hdJ
  have e1 : m.getD d 0 = m[d] := by simp [hd]
  have e2 : I.getD d 0 = I[d] := by simp [hdI]
  have e3 : J.getD d 0 = J[d] := by simp [hdJ]
  rw [e1, e2, e3] at h1
  by_cases hf : fourier.getD d 0 = 1
  · rw [hf] at h1
    have := triple_support_fourier h1
    have := he (by rw [← hf]; have : d < fourier.length := by omega
                   simp [this])
    by_cases hd0 : d = 0
    · rw [if_pos hd0] at i1 j1 ⊢; omega
    · rw [if_neg hd0] at i1 j1 ⊢
      have := h4 d (by omega) (by omega) hf
      omega
  · have := triple_support_hermite hf h1
    by_cases hd0 : d = 0
    · rw [if_pos hd0] at i1 j1 ⊢; omega
    · rw [if_neg hd0] at i1 j1 ⊢; omega

theorem closed_line {s : IndexSet} {degree : Nat} {fourier : List Nat} (hc : s = .cross ∨ s = .cross_nc → 1 ≤ degree)
    (he : 1 ∈ fourier → degree % 2 = 0) (hfl : fourier.length = 1) : Closed s 1 degree fourier := by
  intro I J m hI hJ hm h
  have key : ∀ n, (s = .cross ∨ s = .cross_nc → 1 ≤ n) → ∀ l : IVec, InSet s 1 n l ↔ InSet .cube 1 n l := by
    intro n hn l
    constructor
    · intro hl
      obtain ⟨a, rfl⟩ := List.length_eq_one_iff.1 (inSet_length hl)
      rw [inSet_one hn] at hl
      rw [inSet_one (by simp)]
      exact hl
    · intro hl
      obtain ⟨a, rfl⟩ := List.length_eq_one_iff.1 (inSet_length hl)
      rw [inSet_one (by simp)] at hl
      rw [inSet_one hn]
      exact hl
  rw [key _ (fun h => by have := hc h; omega)]
  exact closed_cube he hfl I J m ((key _ hc _).1 hI) ((key _ hc _).1 hJ) hm h

end Hermipy
