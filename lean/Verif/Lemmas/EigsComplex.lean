import Verif.Lemmas.Eigs

/-! # Systems bordered by a complex vector -/

namespace Hermipy
open Hermipy.Spec

/-- The matrix with a complex vector appended as a row and as a column. -/
noncomputable def borderedC (M : List (List ℝ)) (v : List ℂ) : List (List ℂ) :=
  List.zipWith (fun r c => r.map Complex.ofReal ++ [c]) M v ++ [v ++ [0]]

theorem dotC_ofReal (r : List ℝ) (y : List ℂ) :
    dotC (r.map Complex.ofReal) y = (List.zipWith (fun (a : ℝ) (z : ℂ) => (a : ℂ) * z) r y).sum := by
  rw [dotC, List.zipWith_map_left]

theorem dotC_scale (r : List ℝ) (z : ℂ) (y : List ℂ) : dotC (r.map fun a : ℝ => z * (a : ℂ)) y = z * dotC (r.map Complex.ofReal) y := by
  induction r generalizing y with
  | nil => simp [dotC]
  | cons a r ih =>
    cases y with
    | nil => simp [dotC]
    | cons b y =>
      have := ih y
      simp only [dotC, List.map_cons, List.zipWith_cons_cons, List.sum_cons] at this ⊢
      rw [this]
      ring

theorem dotC_append {a b : List ℂ} (h : a.length = b.length) (c d : ℂ) : dotC (a ++ [c]) (b ++ [d]) = dotC a b + c * d := by
  rw [dotC, dotC, List.zipWith_append h]
  simp

theorem dotC_re (r : List ℝ) (y : List ℂ) : (dotC (r.map Complex.ofReal) y).re = dot r (y.map Complex.re) := by
  rw [dotC_ofReal, re_dot]

theorem dotC_im (r : List ℝ) (y : List ℂ) : (dotC (r.map Complex.ofReal) y).im = dot r (y.map Complex.im) := by
  rw [dotC_ofReal, im_dot]

theorem borderC_ok {M : List (List ℝ)} {v : List ℂ} (hM : Square M) (hv : v.length = M.length) : borderC M v = .ok (borderedC M v) := by
  rw [borderC, if_neg, List.zipWith_append (by simp [hv]), List.zipWith_map_left]
  · rfl
  · rintro (⟨r, hr, h⟩ | h)
    · exact h (by rw [hM r hr, hv])
    · exact h hv.symm

theorem borderedC_length {M : List (List ℝ)} {v : List ℂ} (hv : v.length = M.length) : (borderedC M v).length = M.length + 1 := by
  simp [borderedC, hv]

theorem borderedC_square {M : List (List ℝ)} {v : List ℂ} (hM : Square M) (hv : v.length = M.length) :
    ∀ r ∈ borderedC M v, r.length = (borderedC M v).length := by
  intro r hr
  rw [borderedC_length hv]
  rw [borderedC] at hr
  rcases List.mem_append.1 hr with hr | hr
  · obtain ⟨i, hi, rfl⟩ := List.getElem_of_mem hr
    have hiM : i < M.length := by simp at hi; omega
    simp [hM _ (List.getElem_mem hiM)]
  · rw [List.mem_singleton.1 hr]
    simp [hv]

/-- The product with the bordered matrix. -/
theorem borderedC_mulVec {M : List (List ℝ)} {v : List ℂ} (hM : Square M) (hv : v.length = M.length) {x : List ℂ} (hx : x.length = M.length)
    (l : ℂ) : (borderedC M v).map (dotC · (x ++ [l])) =
      List.zipWith (fun a c => a + c * l) (M.map fun r => dotC (r.map Complex.ofReal) x) v ++ [dotC v x] := by
  rw [borderedC, List.map_append, List.map_singleton, dotC_append (by rw [hv, hx]), zero_mul, add_zero]
  congr 1
  apply List.ext_getElem
  · simp
  · intro i h1 h2
    have hi : i < M.length := by simp at h1; omega
    simp only [List.getElem_map, List.getElem_zipWith]
    rw [dotC_append (by rw [List.length_map, hM _ (List.getElem_mem hi), hx])]

theorem split_last {α : Type} {y : List α} {n : ℕ} (h : y.length = n + 1) : ∃ x l, y = x ++ [l] ∧ x.length = n := by
  have : y ≠ [] := by rintro rfl; simp at h
  exact ⟨y.dropLast, y.getLast this, (List.dropLast_append_getLast this).symm, by simp [h]⟩

/-- If the vector is a complex multiple of a real one, the real and imaginary parts solve the real bordered systems. -/
theorem borderedC_parts {M : List (List ℝ)} {w : List ℝ} {z : ℂ} (hz : z ≠ 0) (hM : Square M) (hw : w.length = M.length) {x b : List ℂ}
    (hx : x.length = M.length) (hb : b.length = M.length) {l : ℂ}
    (h : (borderedC M (w.map fun a : ℝ => z * (a : ℂ))).map (dotC · (x ++ [l])) = b ++ [0]) :
    mulVec (bordered M w) (x.map Complex.re ++ [(z * l).re]) = b.map Complex.re ++ [0] ∧
      mulVec (bordered M w) (x.map Complex.im ++ [(z * l).im]) = b.map Complex.im ++ [0] := by
  rw [borderedC_mulVec hM (by simpa using hw) hx] at h
  obtain ⟨h1, h2⟩ := List.append_inj' h rfl
  have h3 : dotC (w.map Complex.ofReal) x = 0 := by
    simp only [List.cons.injEq, and_true] at h2
    rw [dotC_scale] at h2
    exact (mul_eq_zero.1 h2).resolve_left hz
  constructor
  · rw [border_mulVec hM hw (by simpa using hx), ← dotC_re, h3, Complex.zero_re, ← h1]
    congr 1
    apply List.ext_getElem
    · simp [mulVec]
    · intro i _ _
      simp only [mulVec, List.getElem_zipWith, List.getElem_map, ← dotC_re, Complex.add_re]
      simp [Complex.mul_re, Complex.mul_im]
      ring
  · rw [border_mulVec hM hw (by simpa using hx), ← dotC_im, h3, Complex.zero_im, ← h1]
    congr 1
    apply List.ext_getElem
    · simp [mulVec]
    · intro i _ _
      simp only [mulVec, List.getElem_zipWith, List.getElem_map, ← dotC_im, Complex.add_im]
      simp [Complex.mul_re, Complex.mul_im]
      ring

theorem borderedC_nonsingular {M : List (List ℝ)} {w : List ℝ} {z : ℂ} (hz : z ≠ 0) (hM : Square M) (hw : w.length = M.length)
    (hn : Nonsingular (bordered M w)) : NonsingularC (borderedC M (w.map fun a : ℝ => z * (a : ℂ))) := by
  intro y hy h0
  rw [borderedC_length (by simpa using hw)] at hy
  obtain ⟨x, l, rfl, hx⟩ := split_last hy
  have hl : (bordered M w).length = M.length + 1 := by simp [bordered, hw]
  have hm : (borderedC M (w.map fun a : ℝ => z * (a : ℂ))).map (dotC · (x ++ [l])) = List.replicate M.length 0 ++ [0] := by
    rw [← List.replicate_succ']
    refine List.eq_replicate_iff.2 ⟨by simp [borderedC_length, hw], fun c hc => ?_⟩
    obtain ⟨r, hr, rfl⟩ := List.mem_map.1 hc
    exact h0 r hr
  obtain ⟨h1, h2⟩ := borderedC_parts hz hM hw hx (by simp) hm
  have key : ∀ (g : ℂ → ℝ), g 0 = 0 → mulVec (bordered M w) (x.map g ++ [g (z * l)]) = (List.replicate M.length (0 : ℂ)).map g ++ [0] →
      ∀ c ∈ x.map g ++ [g (z * l)], c = 0 := by
    intro g g0 hg
    refine hn _ (by simp [hl, hx]) fun r hr => ?_
    have : dot r (x.map g ++ [g (z * l)]) ∈ (List.replicate M.length (0 : ℂ)).map g ++ [0] := by
      rw [← hg]
      exact List.mem_map.2 ⟨r, hr, rfl⟩
    rw [List.map_replicate, g0, ← List.replicate_succ'] at this
    exact (List.mem_replicate.1 this).2
  have k1 := key Complex.re rfl h1
  have k2 := key Complex.im rfl h2
  intro c hc
  rcases List.mem_append.1 hc with hc | hc
  · exact Complex.ext (k1 _ (List.mem_append_left _ (List.mem_map.2 ⟨c, hc, rfl⟩))) (k2 _ (List.mem_append_left _ (List.mem_map.2 ⟨c, hc, rfl⟩)))
  · rw [List.mem_singleton.1 hc]
    have : z * l = 0 := Complex.ext (k1 _ (by simp)) (k2 _ (by simp))
    exact (mul_eq_zero.1 this).resolve_left hz

/-- If the products of the eigenvector with itself sum to zero, the bordered matrix is singular. -/
theorem borderedC_singular {M : List (List ℝ)} {v : List ℂ} {l : ℂ} (hM : Square M) (hv : v.length = M.length)
    (he : mulVecC M v = v.map (l * ·)) (h0 : dotC v v = 0) (h1 : (v.map Complex.normSq).sum = 1) : ¬ NonsingularC (borderedC M v) := by
  intro hn
  have hm : (borderedC M v).map (dotC · (v ++ [-l])) = List.replicate (M.length + 1) 0 := by
    rw [borderedC_mulVec hM hv hv, h0, List.replicate_succ']
    congr 1
    have e : (M.map fun r => dotC (r.map Complex.ofReal) v) = v.map (l * ·) := by
      rw [← he, mulVecC]
      exact List.map_congr_left fun r _ => dotC_ofReal r v
    rw [e, List.zipWith_map_left, List.zipWith_self]
    refine List.eq_replicate_iff.2 ⟨by simp [hv], fun c hc => ?_⟩
    obtain ⟨a, -, rfl⟩ := List.mem_map.1 hc
    ring
  have := hn (v ++ [-l]) (by simp [borderedC_length hv, hv]) fun r hr => by
    have h : dotC r (v ++ [-l]) ∈ (borderedC M v).map (dotC · (v ++ [-l])) := List.mem_map.2 ⟨r, hr, rfl⟩
    rw [hm] at h
    exact (List.mem_replicate.1 h).2
  have hz : (v.map Complex.normSq).sum = 0 := by
    apply List.sum_eq_zero
    intro c hc
    obtain ⟨a, ha, rfl⟩ := List.mem_map.1 hc
    rw [this a (by simp [ha]), map_zero]
  rw [hz] at h1
  exact zero_ne_one h1

theorem dotC_fin {n : ℕ} (a b : List ℂ) (ha : a.length = n) (hb : b.length = n) : dotC a b = ∑ i : Fin n, a.getD i 0 * b.getD i 0 := by
  have h : List.zipWith (· * ·) a b = List.ofFn fun i : Fin n => a.getD i 0 * b.getD i 0 := by
    apply List.ext_getElem
    · simp [ha, hb]
    · intro i h1 h2
      have hi : i < n := by simpa using h2
      simp [ha, hb, hi]
  rw [dotC, h, List.sum_ofFn]

/-- An eigenvector of an antisymmetric matrix, with an eigenvalue that is not zero. -/
theorem antisymmetric_dotC {M : List (List ℝ)} {v : List ℂ} {l : ℂ} (hM : Square M) (hv : v.length = M.length)
    (ha : ∀ i j : Fin M.length, (M.getD i []).getD j 0 = -(M.getD j []).getD i 0) (he : mulVecC M v = v.map (l * ·)) (hl : l ≠ 0) :
    dotC v v = 0 := by
  have h1 : ∀ i : Fin M.length, l * v.getD i 0 = ∑ j : Fin M.length, ((M.getD i []).getD j 0 : ℂ) * v.getD j 0 := by
    intro i
    have e := congrArg (fun t => t.getD i 0) he
    have hi : (i : ℕ) < v.length := by rw [hv]; exact i.2
    simp only [mulVecC, List.getD_eq_getElem?_getD, List.getElem?_map, List.getElem?_eq_getElem i.2, List.getElem?_eq_getElem hi,
      Option.map_some, Option.getD_some] at e
    rw [← dotC_ofReal, dotC_fin (n := M.length) _ v (by simp [hM _ (List.getElem_mem i.2)]) hv] at e
    rw [List.getD_eq_getElem?_getD, List.getElem?_eq_getElem hi, Option.getD_some, ← e]
    refine Finset.sum_congr rfl fun j _ => ?_
    have hj : (j : ℕ) < (M[(i : ℕ)]'i.2).length := by rw [hM _ (List.getElem_mem i.2)]; exact j.2
    simp [hj]
  have h2 : l * dotC v v = -(l * dotC v v) := by
    have e : l * dotC v v = ∑ i : Fin M.length, ∑ j : Fin M.length, v.getD i 0 * (((M.getD i []).getD j 0 : ℂ) * v.getD j 0) := by
      rw [dotC_fin v v hv hv, Finset.mul_sum]
      refine Finset.sum_congr rfl fun i _ => ?_
      rw [← Finset.mul_sum, ← h1]
      ring
    rw [e]
    conv_lhs => rw [Finset.sum_comm]
    rw [← Finset.sum_neg_distrib]
    refine Finset.sum_congr rfl fun i _ => ?_
    rw [← Finset.sum_neg_distrib]
    refine Finset.sum_congr rfl fun j _ => ?_
    rw [ha i j]
    push_cast
    ring
  have h3 : l * dotC v v = 0 := by
    have := self_eq_neg.1 h2
    exact this
  exact (mul_eq_zero.1 h3).resolve_left hl

theorem dotC_self_parts (v : List ℂ) : (dotC v v).re = dot (v.map Complex.re) (v.map Complex.re) - dot (v.map Complex.im) (v.map Complex.im) := by
  induction v with
  | nil => simp [dotC, dot]
  | cons z v ih =>
    simp only [dotC, dot, List.map_cons, List.zipWith_cons_cons, List.sum_cons, Complex.add_re, Complex.mul_re] at ih ⊢
    rw [ih]
    ring

end Hermipy
