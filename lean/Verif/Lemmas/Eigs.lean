import Verif.Spec.Eigs
import Verif.Lemmas.Solve
import Verif.Lemmas.CacheError

/-! # Real and imaginary parts of eigenvectors -/

namespace Hermipy
open Hermipy.Spec Hermipy.Cache

theorem re_dot (r : List ℝ) (v : List ℂ) :
    (List.zipWith (fun (a : ℝ) (z : ℂ) => (a : ℂ) * z) r v).sum.re = dot r (v.map Complex.re) := by
  induction r generalizing v with
  | nil => simp [dot]
  | cons a r ih =>
    cases v with
    | nil => simp [dot]
    | cons z v => simpa [dot] using ih v

theorem im_dot (r : List ℝ) (v : List ℂ) :
    (List.zipWith (fun (a : ℝ) (z : ℂ) => (a : ℂ) * z) r v).sum.im = dot r (v.map Complex.im) := by
  induction r generalizing v with
  | nil => simp [dot]
  | cons a r ih =>
    cases v with
    | nil => simp [dot]
    | cons z v => simpa [dot] using ih v

/-- The real part of an eigenvector. -/
theorem mulVec_re {M : List (List ℝ)} {v : List ℂ} {l : ℂ} (h : mulVecC M v = v.map (l * ·)) :
    mulVec M (v.map Complex.re) = v.map fun z => l.re * z.re - l.im * z.im := by
  have := congrArg (List.map Complex.re) h
  simp only [mulVecC, List.map_map] at this
  rw [mulVec]
  refine Eq.trans (List.map_congr_left fun r _ => ?_) (this.trans (List.map_congr_left fun z _ => ?_))
  · exact (re_dot r v).symm
  · simp

/-- The imaginary part of an eigenvector. -/
theorem mulVec_im {M : List (List ℝ)} {v : List ℂ} {l : ℂ} (h : mulVecC M v = v.map (l * ·)) :
    mulVec M (v.map Complex.im) = v.map fun z => l.re * z.im + l.im * z.re := by
  have := congrArg (List.map Complex.im) h
  simp only [mulVecC, List.map_map] at this
  rw [mulVec]
  refine Eq.trans (List.map_congr_left fun r _ => ?_) (this.trans (List.map_congr_left fun z _ => ?_))
  · exact (im_dot r v).symm
  · simp

theorem dot_self_map (v : List ℂ) (f : ℂ → ℝ) : dot (v.map f) (v.map f) = (v.map fun z => f z ^ 2).sum := by
  rw [dot, List.zipWith_self, List.map_map]
  congr 1
  exact List.map_congr_left fun z _ => by simp [sq]

theorem vecNorm_sq (d : List ℝ) : vecNorm d ^ 2 = dot d d := by
  rw [vecNorm, Real.sq_sqrt (sq_sum_nonneg d), dot, List.zipWith_self]
  congr 1
  exact List.map_congr_left fun z _ => by simp [sq]

theorem normSq_sum (v : List ℂ) :
    (v.map Complex.normSq).sum = dot (v.map Complex.re) (v.map Complex.re) + dot (v.map Complex.im) (v.map Complex.im) := by
  rw [dot_self_map, dot_self_map, ← List.sum_map_add]
  congr 1
  exact List.map_congr_left fun z _ => by rw [Complex.normSq_apply]; ring

theorem distance_re (v : List ℂ) (l : ℂ) :
    distance (v.map fun z => l.re * z.re - l.im * z.im) ((v.map Complex.re).map (l.re * ·)) = |l.im| * vecNorm (v.map Complex.im) := by
  rw [distance, vecNorm, List.map_map, List.zipWith_map, List.zipWith_self, ← Real.sqrt_sq_eq_abs, ← Real.sqrt_mul (sq_nonneg _),
    List.map_map, ← List.sum_map_mul_left]
  congr 2
  exact List.map_congr_left fun z _ => by simp only [Function.comp]; ring

/-- The norm in the Euclidean space. -/
theorem vecNorm_eq_norm {n : ℕ} {d : List ℝ} (h : d.length = n) :
    vecNorm d = ‖(WithLp.toLp 2 fun i : Fin n => d.getD i 0 : EuclideanSpace ℝ (Fin n))‖ := by
  have e : d.map (· ^ 2) = List.ofFn fun k : Fin n => d.getD k 0 ^ 2 := by
    refine List.ext_getElem (by simp [h]) fun k h1 h2 => ?_
    rw [List.length_map] at h1
    simp [h1]
  rw [EuclideanSpace.norm_eq, vecNorm, e, List.sum_ofFn]
  simp

theorem dot_sq_le {a b : List ℝ} (h : a.length = b.length) : dot a b ^ 2 ≤ dot a a * dot b b := by
  rw [dot_fin a b rfl h.symm, dot_fin a a rfl rfl, dot_fin b b h.symm h.symm]
  have := Finset.sum_mul_sq_le_sq_mul_sq Finset.univ (fun i : Fin a.length => a.getD i 0) (fun i => b.getD i 0)
  simpa only [sq] using this

theorem vecNorm_mulVec {M : List (List ℝ)} {x : List ℝ} (h : ∀ r ∈ M, r.length = x.length) :
    vecNorm (mulVec M x) ≤ entriesNorm M * vecNorm x := by
  have h0 : 0 ≤ (M.map fun r => dot r r).sum := List.sum_nonneg fun y hy => by
    obtain ⟨r, -, rfl⟩ := List.mem_map.mp hy
    rw [← vecNorm_sq]
    positivity
  rw [entriesNorm, vecNorm, vecNorm, ← Real.sqrt_mul h0, mulVec, List.map_map]
  refine Real.sqrt_le_sqrt ?_
  rw [← List.sum_map_mul_right]
  refine List.sum_le_sum fun r hr => ?_
  have := dot_sq_le (h r hr)
  have e : dot x x = (x.map (· ^ 2)).sum := by
    rw [← vecNorm_sq, vecNorm, Real.sq_sqrt (sq_sum_nonneg x)]
  rwa [e] at this

/-- If the imaginary part of the eigenvector is small, so is that of the eigenvalue. -/
theorem im_small {M : List (List ℝ)} {v : List ℂ} {l : ℂ} (hM : Square M) (hv : v.length = M.length) (h : mulVecC M v = v.map (l * ·)) :
    |l.im| * vecNorm (v.map Complex.re) ≤ (entriesNorm M + |l.re|) * vecNorm (v.map Complex.im) := by
  have e := mulVec_im h
  have h1 := vecNorm_mulVec (M := M) (x := v.map Complex.im) (fun r hr => by rw [hM r hr, List.length_map, hv])
  rw [e, vecNorm_eq_norm (n := v.length) (by simp)] at h1
  have hi := vecNorm_eq_norm (n := v.length) (d := v.map Complex.im) (by simp)
  have hr := vecNorm_eq_norm (n := v.length) (d := v.map Complex.re) (by simp)
  set I : EuclideanSpace ℝ (Fin v.length) := WithLp.toLp 2 fun i : Fin v.length => (v.map Complex.im).getD i 0
  set R : EuclideanSpace ℝ (Fin v.length) := WithLp.toLp 2 fun i : Fin v.length => (v.map Complex.re).getD i 0
  have e2 : l.im • R = (WithLp.toLp 2 fun i : Fin v.length => (v.map fun z => l.re * z.im + l.im * z.re).getD i 0 :
      EuclideanSpace ℝ (Fin v.length)) - l.re • I := by
    ext i
    simp [R, I]
  have h2 := norm_sub_le (WithLp.toLp 2 fun i : Fin v.length => (v.map fun z => l.re * z.im + l.im * z.re).getD i 0 :
      EuclideanSpace ℝ (Fin v.length)) (l.re • I)
  rw [← e2, norm_smul, norm_smul, Real.norm_eq_abs, Real.norm_eq_abs] at h2
  rw [hr, hi]
  rw [hi] at h1
  linarith

end Hermipy
