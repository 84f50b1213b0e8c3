import Verif.Model.Equality
import Verif.Lemmas.Arithmetic
import Mathlib.Data.List.GetD
import Mathlib.Analysis.InnerProductSpace.PiL2
import Mathlib.Algebra.Order.BigOperators.Group.List

namespace Hermipy
open Spec

/-! ## Norms -/

theorem sumsq_nonneg (v : List ℝ) : 0 ≤ (v.map (· ^ 2)).sum :=
  List.sum_nonneg fun x hx => by obtain ⟨y, -, rfl⟩ := List.mem_map.1 hx; positivity

theorem abs_le_npNorm {v : List ℝ} {x : ℝ} (hx : x ∈ v) : |x| ≤ npNorm v := by
  rw [npNorm, ← Real.sqrt_sq_eq_abs]
  refine Real.sqrt_le_sqrt (List.single_le_sum ?_ _ (List.mem_map_of_mem (f := (· ^ 2)) hx))
  intro y hy
  obtain ⟨z, -, rfl⟩ := List.mem_map.1 hy
  positivity

theorem npNorm_neg (v : List ℝ) : npNorm (v.map fun x => -x) = npNorm v := by
  simp [npNorm, Function.comp_def]

theorem verySmall_neg (v : List ℝ) : verySmall (v.map fun x => -x) = verySmall v := by
  simp [verySmall, npNorm_neg]

theorem verySmall_iff (v : List ℝ) : verySmall v = true ↔ npNorm v < 1 / 10 ^ 10 := by simp [verySmall]

theorem npNorm_zero {v : List ℝ} (h : ∀ x ∈ v, x = 0) : npNorm v = 0 := by
  rw [npNorm, List.eq_replicate_iff.2 ⟨rfl, h⟩]
  simp

theorem verySmall_zero {v : List ℝ} (h : ∀ x ∈ v, x = 0) : verySmall v = true := by
  rw [verySmall_iff, npNorm_zero h]
  norm_num

theorem zipWith_sub_self (a : List ℝ) : ∀ x ∈ List.zipWith (· - ·) a a, x = 0 := by
  intro x hx
  obtain ⟨i, hi, rfl⟩ := List.getElem_of_mem hx
  simp

theorem zipWith_sub_swap (a b : List ℝ) : List.zipWith (· - ·) b a = (List.zipWith (· - ·) a b).map fun x => -x := by
  rw [List.map_zipWith, List.zipWith_comm]
  congr 1
  funext x y
  ring

theorem broadcast_swap (a b : List ℝ) :
    broadcast (· - ·) b a = broadcast (· - ·) a b >>= fun d => .ok (d.map fun x => -x) := by
  rw [broadcast, broadcast]
  by_cases h : a.length = b.length
  · rw [if_pos h.symm, if_pos h, Out.ok_bind, zipWith_sub_swap]
  · rw [if_neg (Ne.symm h), if_neg h]
    by_cases ha : a.length = 1
    · have hb : b.length ≠ 1 := by omega
      rw [if_pos ha, if_neg hb, if_pos ha, Out.ok_bind]
      simp
    · rw [if_neg ha]
      by_cases hb : b.length = 1
      · rw [if_pos hb, if_pos hb, Out.ok_bind]
        simp
      · rw [if_neg hb, if_neg hb, if_neg ha]
        rfl

theorem mapM_neg {β γ : Type} (l : List β) (f : β → Out γ) (φ : γ → γ) :
    (l.mapM fun x => f x >>= fun d => .ok (φ d)) = l.mapM f >>= fun r => .ok (r.map φ) := by
  induction l with
  | nil => rfl
  | cons x l ih =>
    rw [List.mapM_cons, List.mapM_cons, ih]
    cases h : f x with
    | stop s => rfl
    | diverge => rfl
    | ok d =>
      simp only [Out.ok_bind]
      cases h' : l.mapM f with
      | stop s => rfl
      | diverge => rfl
      | ok r => rfl

theorem broadcast2_swap (A B : List (List ℝ)) :
    broadcast2 (· - ·) B A = broadcast2 (· - ·) A B >>= fun D => .ok (D.map fun r => r.map fun x => -x) := by
  rw [broadcast2, broadcast2]
  by_cases h : A.length = B.length
  · rw [if_pos h.symm, if_pos h, ← mapM_neg]
    rw [← List.zip_swap A B, List.mapM_map]
    refine congrArg (fun f => (A.zip B).mapM f) ?_
    funext r
    exact broadcast_swap _ _
  · rw [if_neg (Ne.symm h), if_neg h]
    by_cases ha : A.length = 1
    · have hb : B.length ≠ 1 := by omega
      rw [if_pos ha, if_neg hb, if_pos ha, ← mapM_neg]
      refine congrArg (fun f => B.mapM f) ?_
      funext r
      exact broadcast_swap _ _
    · rw [if_neg ha]
      by_cases hb : B.length = 1
      · rw [if_pos hb, if_pos hb, ← mapM_neg]
        refine congrArg (fun f => A.mapM f) ?_
        funext r
        exact broadcast_swap _ _
      · rw [if_neg hb, if_neg hb, if_neg ha]
        rfl

theorem verySmall_flatten_neg (D : List (List ℝ)) : verySmall (D.map fun r => r.map fun x => -x).flatten = verySmall D.flatten := by
  rw [← List.map_flatten, verySmall_neg]

/-- Matrices of the same shape are subtracted entry by entry. -/
theorem broadcast2_same {A B : List (List ℝ)} (h : A.map List.length = B.map List.length) (φ : ℝ → ℝ → ℝ) :
    broadcast2 φ A B = .ok (List.zipWith (List.zipWith φ) A B) := by
  have hl : A.length = B.length := by simpa using congrArg List.length h
  rw [broadcast2, if_pos hl, mapM_ok (g := fun r => List.zipWith φ r.1 r.2)]
  · rw [List.zip, List.map_zipWith]
  · intro r hr
    obtain ⟨i, hi, rfl⟩ := List.getElem_of_mem hr
    rw [broadcast, if_pos]
    rw [List.getElem_zip]
    simp only [List.length_zip] at hi
    have := List.getElem_of_eq h (i := i) (by simp; omega)
    simpa using this

theorem zipWith2_sub_self (A : List (List ℝ)) : ∀ x ∈ (List.zipWith (List.zipWith (· - ·)) A A).flatten, x = 0 := by
  intro x hx
  obtain ⟨r, hr, hx⟩ := List.mem_flatten.1 hx
  obtain ⟨i, hi, rfl⟩ := List.getElem_of_mem hr
  rw [List.getElem_zipWith] at hx
  exact zipWith_sub_self _ x hx

/-! ## Positions -/

theorem pos_eq_symm {p q : Position} (hp : PosOk p) (hq : PosOk q) (h : pos_eq p q) : pos_eq q p := by
  have hdim := dim_of_dirs hp hq h.1
  obtain ⟨h1, h2, h3, h4⟩ := h
  refine ⟨h1.symm, ?_, ?_, h4.symm⟩
  · have : (List.zipWith (· - ·) q.mean p.mean).map (· ^ 2) = (List.zipWith (· - ·) p.mean q.mean).map (· ^ 2) := by
      rw [zipWith_sub_swap p.mean q.mean, List.map_map]
      refine List.map_congr_left fun x _ => ?_
      simp
    rw [this]
    exact h2
  · have key : ∀ n, n = p.dim → ‖Matrix.toEuclideanCLM (n := Fin n) (𝕜 := ℝ) (Matrix.of fun i j => entryOf q.cov i j - entryOf p.cov i j)‖
        < 1 / 10 ^ 10 := by
      rintro n rfl
      rw [show (Matrix.of fun (i j : Fin p.dim) => entryOf q.cov i j - entryOf p.cov i j) =
        -(Matrix.of fun (i j : Fin p.dim) => entryOf p.cov i j - entryOf q.cov i j) by ext i j; simp, map_neg, norm_neg]
      exact h3
    exact key _ hdim.symm

theorem pos_eq_comm {p q : Position} (hp : PosOk p) (hq : PosOk q) : pos_eq p q ↔ pos_eq q p :=
  ⟨pos_eq_symm hp hq, pos_eq_symm hq hp⟩

end Hermipy
