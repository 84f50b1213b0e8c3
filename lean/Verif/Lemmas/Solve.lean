import Verif.Spec.Solve
import Verif.Props.Arithmetic
import Mathlib.LinearAlgebra.Matrix.ToLin
import Mathlib.LinearAlgebra.FiniteDimensional.Lemmas
import Mathlib.Data.Matrix.Mul

/-! # Lemmas on linear systems -/

namespace Hermipy
open Spec

theorem dot_append {a b : List ℝ} (h : a.length = b.length) (c d : ℝ) : dot (a ++ [c]) (b ++ [d]) = dot a b + c * d := by
  rw [dot, dot, List.zipWith_append h]
  simp

theorem dot_comm (a b : List ℝ) : dot a b = dot b a := by
  rw [dot, dot, List.zipWith_comm]
  simp only [mul_comm]

theorem dot_fin {n : ℕ} (a b : List ℝ) (ha : a.length = n) (hb : b.length = n) : dot a b = ∑ i : Fin n, a.getD i 0 * b.getD i 0 := by
  have h : List.zipWith (· * ·) a b = List.ofFn fun i : Fin n => a.getD i 0 * b.getD i 0 := by
    apply List.ext_getElem
    · simp [ha, hb]
    · intro i h1 h2
      have hi : i < n := by simpa using h2
      simp [ha, hb, hi]
  rw [dot, h, List.sum_ofFn]

theorem dot_ofFn {n : ℕ} (a : List ℝ) (ha : a.length = n) (y : Fin n → ℝ) : dot a (List.ofFn y) = ∑ i : Fin n, a.getD i 0 * y i := by
  rw [dot_fin a _ ha (by simp)]
  apply Finset.sum_congr rfl
  intro i _
  simp

/-- A nonsingular square system has a solution. -/
theorem exists_solution {M : List (List ℝ)} {b : List ℝ} (hM : Square M) (hb : b.length = M.length) (hn : Nonsingular M) :
    ∃ x : List ℝ, x.length = M.length ∧ mulVec M x = b := by
  let T : Matrix (Fin M.length) (Fin M.length) ℝ := Matrix.of fun i j => (M.getD i []).getD j 0
  have hT : ∀ (y : Fin M.length → ℝ) (i : Fin M.length), T.mulVec y i = dot (M[(i : ℕ)]'i.2) (List.ofFn y) := by
    intro y i
    rw [dot_ofFn _ (hM _ (List.getElem_mem i.2))]
    simp [T, Matrix.mulVec, dotProduct]
  have hinj : Function.Injective T.mulVecLin := by
    rw [injective_iff_map_eq_zero]
    intro y hy
    have := hn (List.ofFn y) (by simp) (by
      intro r hr
      obtain ⟨i, hi, rfl⟩ := List.getElem_of_mem hr
      have := congrFun hy ⟨i, hi⟩
      rw [Matrix.mulVecLin_apply, hT] at this
      exact this)
    funext i
    exact this _ (by simp)
  obtain ⟨y, hy⟩ := LinearMap.injective_iff_surjective.1 hinj fun i => b.getD i 0
  refine ⟨List.ofFn y, by simp, ?_⟩
  apply List.ext_getElem
  · simp [mulVec, hb]
  · intro i h1 h2
    have hi : i < M.length := by simpa [mulVec] using h1
    have := congrFun hy ⟨i, hi⟩
    rw [Matrix.mulVecLin_apply, hT] at this
    simp only [mulVec, List.getElem_map]
    simpa [h2] using this

/-- ExactSolver solvers exist. -/
theorem exists_exact : ∃ solve, ExactSolver solve := by
  classical
  refine ⟨fun M b => if h : ∃ x : List ℝ, x.length = M.length ∧ mulVec M x = b then .ok h.choose else .throws, ?_⟩
  intro M b hM hb hn
  have h := exists_solution hM hb hn
  exact ⟨h.choose, dif_pos h, h.choose_spec⟩

/-- A nonsingular matrix maps different vectors to different ones. -/
theorem solution_unique {M : List (List ℝ)} (hM : Square M) (hn : Nonsingular M) {x y : List ℝ} (hx : x.length = M.length)
    (hy : y.length = M.length) (h : mulVec M x = mulVec M y) : x = y := by
  have := hn (List.zipWith (· - ·) x y) (by simp [hx, hy]) (by
    intro r hr
    have e : dot r x = dot r y := by
      obtain ⟨i, hi, rfl⟩ := List.getElem_of_mem hr
      have := congrArg (fun l => l.getD i 0) h
      simpa [mulVec, hi] using this
    rw [dot_fin r _ (hM r hr) (by simp [hx, hy])]
    rw [dot_fin r _ (hM r hr) hx, dot_fin r _ (hM r hr) hy, ← sub_eq_zero, ← Finset.sum_sub_distrib] at e
    refine (Finset.sum_congr rfl ?_).trans e
    intro i _
    simp [hx, hy, mul_sub])
  apply List.ext_getElem (by rw [hx, hy])
  intro i h1 h2
  have := this (x[i] - y[i]) (List.mem_iff_getElem.2 ⟨i, by simp [h1, h2], by simp⟩)
  linarith

theorem matDot_ok {M : List (List ℝ)} {x : List ℝ} (h : ∀ r ∈ M, r.length = x.length) : matDot M x = .ok (mulVec M x) :=
  mapM_ok fun r hr => by rw [if_pos (h r hr)]; rfl

/-! ## The bordered system -/

theorem border_ok {M : List (List ℝ)} {w : List ℝ} (hM : Square M) (hw : w.length = M.length) :
    border M w = .ok (bordered M w) := by
  rw [border, if_neg, List.zipWith_append hw.symm]
  · rfl
  · rintro (⟨r, hr, h⟩ | h)
    · exact h (by rw [hM r hr, hw])
    · exact h hw.symm

theorem border_square {M : List (List ℝ)} {w : List ℝ} (hM : Square M) (hw : w.length = M.length) :
    Square (bordered M w) := by
  intro r hr
  have hl : (bordered M w).length = M.length + 1 := by simp [bordered, hw]
  rw [hl]
  rw [bordered] at hr
  rcases List.mem_append.1 hr with hr | hr
  · obtain ⟨i, hi, rfl⟩ := List.getElem_of_mem hr
    have hiM : i < M.length := by simp at hi; omega
    simp [hM _ (List.getElem_mem hiM)]
  · rw [List.mem_singleton.1 hr]
    simp [hw]

theorem border_mulVec {M : List (List ℝ)} {w : List ℝ} (hM : Square M) (hw : w.length = M.length) {x : List ℝ} (hx : x.length = M.length)
    (l : ℝ) : mulVec (bordered M w) (x ++ [l]) =
      List.zipWith (fun a c => a + c * l) (mulVec M x) w ++ [dot w x] := by
  rw [mulVec, bordered, List.map_append, List.map_singleton, dot_append (by rw [hw, hx]), zero_mul, add_zero]
  congr 1
  apply List.ext_getElem
  · simp [mulVec]
  · intro i h1 h2
    have hi : i < M.length := by simp at h1; omega
    simp only [List.getElem_map, List.getElem_zipWith, mulVec]
    rw [dot_append (by rw [hM _ (List.getElem_mem hi), hx])]

/-- The bordered matrix is nonsingular if the kernel of the matrix is spanned by `w`, and if there is a vector orthogonal to its image, but
not to `w`. -/
theorem border_nonsingular {M : List (List ℝ)} {w p : List ℝ} (hM : Square M) (hw : w.length = M.length)
    (hker : KernelIn M w) (hww : dot w w ≠ 0)
    (hp : p.length = M.length) (himg : Annihilates p M) (hpw : dot p w ≠ 0) :
    Nonsingular (bordered M w) := by
  intro y hy h0
  have hlen : y.length = M.length + 1 := by rw [hy]; simp [bordered, hw]
  obtain ⟨x, l, rfl⟩ : ∃ x l, y = x ++ [l] := by
    have : y ≠ [] := by rintro rfl; simp at hlen
    exact ⟨y.dropLast, y.getLast this, (List.dropLast_append_getLast this).symm⟩
  have hx : x.length = M.length := by simpa using hlen
  have hz : ∀ c ∈ mulVec (bordered M w) (x ++ [l]), c = 0 := by
    intro c hc
    obtain ⟨r, hr, rfl⟩ := List.mem_map.1 hc
    exact h0 r hr
  rw [border_mulVec hM hw hx] at hz
  have hwx : dot w x = 0 := hz _ (by simp)
  have hrow : ∀ i (hi : i < M.length), dot M[i] x + w.getD i 0 * l = 0 := by
    intro i hi
    refine hz _ (List.mem_append_left _ ?_)
    refine List.mem_iff_getElem.2 ⟨i, by simp [mulVec, hw, hi], ?_⟩
    simp [mulVec, hw, hi]
  have hl : l = 0 := by
    have e := himg x hx
    rw [dot_fin p _ hp (by simp [mulVec])] at e
    have e2 : dot p w * l = 0 := by
      rw [dot_fin p w hp hw, Finset.sum_mul]
      have : ∀ i : Fin M.length, p.getD i 0 * w.getD i 0 * l = -(p.getD i 0 * (mulVec M x).getD i 0) := by
        intro i
        have h1 := hrow i i.2
        have h2 : (mulVec M x).getD i 0 = dot (M[(i : ℕ)]'i.2) x := by simp [mulVec]
        rw [h2, show dot (M[(i : ℕ)]'i.2) x = -(w.getD i 0 * l) by linarith]
        ring
      rw [Finset.sum_congr rfl fun i _ => this i, Finset.sum_neg_distrib, e, neg_zero]
    rcases mul_eq_zero.1 e2 with h | h
    · exact absurd h hpw
    · exact h
  obtain ⟨t, ht⟩ := hker x hx (by
    intro r hr
    obtain ⟨i, hi, rfl⟩ := List.getElem_of_mem hr
    have := hrow i hi
    rw [hl] at this
    linarith)
  have ht0 : t = 0 := by
    have : dot w x = t * dot w w := by
      rw [ht, dot_fin w _ hw (by simp [hw]), dot_fin w w hw hw, Finset.mul_sum]
      apply Finset.sum_congr rfl
      intro i _
      simp [hw]
      ring
    rw [this] at hwx
    rcases mul_eq_zero.1 hwx with h | h
    · exact h
    · exact absurd h hww
  intro c hc
  rcases List.mem_append.1 hc with hc | hc
  · rw [ht, ht0] at hc
    obtain ⟨d, -, rfl⟩ := List.mem_map.1 hc
    simp
  · rw [List.mem_singleton.1 hc, hl]

end Hermipy
