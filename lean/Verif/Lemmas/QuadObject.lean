import Verif.Spec.Quad
import Verif.Lemmas.Discretize
import Verif.Lemmas.Position
import Verif.Lemmas.TransformEdge

/-! # Quadratures with diagonal covariance -/

namespace Hermipy
open Spec
variable {F : Type}

theorem entryOf_diagMat (v : List ℝ) {i j : ℕ} (hi : i < v.length) (hj : j < v.length) :
    entryOf (diagMat v) i j = if i = j then v.getD i 0 else 0 := by
  simp [entryOf, diagMat, hi, hj]

theorem Spec.PosOk.cov_eq {p : Position} (hp : PosOk p) (hd : Diagonal p) :
    p.cov = diagMat ((List.range p.dim).map fun i => entryOf p.cov i i) := by
  apply List.ext_getElem
  · simp [diagMat, hp.cov]
  · intro i h1 h2
    have hi : i < p.dim := by rw [← hp.cov]; exact h1
    apply List.ext_getElem
    · rw [hp.rows _ (List.getElem_mem h1)]; simp [diagMat]
    · intro j h3 h4
      have hj : j < p.dim := by rw [← hp.rows _ (List.getElem_mem h1)]; exact h3
      by_cases hij : i = j
      · subst hij
        simp [diagMat, entryOf, h1, h3, hi]
      · rw [hd i j _ _ hij (List.getElem?_eq_getElem h1) (List.getElem?_eq_getElem h3)]
        simp [diagMat, hij]

theorem pos_factor_diag {eig : Eig} (he : EigDiag eig) {p : Position} (hp : PosOk p) (hd : Diagonal p) :
    pos_factor eig p = diagMat ((List.range p.dim).map fun i => √(entryOf p.cov i i)) := by
  obtain ⟨v, hv⟩ : ∃ v, v = (List.range p.dim).map fun i => entryOf p.cov i i := ⟨_, rfl⟩
  have hl : v.length = p.dim := by simp [hv]
  have hc : p.cov = diagMat v := by rw [hv]; exact hp.cov_eq hd
  have hvi : ∀ i < p.dim, v.getD i 0 = entryOf p.cov i i := fun i hi => by simp [hv, hi]
  rw [pos_factor]
  conv_lhs => rw [hc, he v]
  rw [matMul]
  conv_rhs => rw [diagMat]
  simp only [List.length_map, List.length_range]
  apply List.map_congr_left
  intro i hi
  have hi := List.mem_range.1 hi
  apply List.map_congr_left
  intro j hj
  have hj := List.mem_range.1 hj
  rw [Finset.sum_eq_single i]
  · rw [entryOf_diagMat _ (by simpa [hl]) (by simpa [hl])]
    have : entryOf ((diagMat v).map fun r => r.map fun x => √x) i j = √(entryOf (diagMat v) i j) := by
      simp [entryOf, diagMat, hl, hi, hj]
    rw [this, entryOf_diagMat _ (by omega) (by omega), hvi i hi]
    by_cases hij : i = j
    · simp [hij, hl, hj]
    · simp [hij]
  · intro k hk hki
    have hk := Finset.mem_range.1 hk
    rw [entryOf_diagMat _ (by simpa [hl]) (by simpa [hl]), if_neg (Ne.symm hki), zero_mul]
  · simp [hi]

theorem affine_diag {t v p : List ℝ} (hv : v.length = p.length) :
    affine t (diagMat v) p = (List.range p.length).map fun i => t.getD i 0 + v.getD i 0 * p.getD i 0 := by
  rw [affine]
  apply List.map_congr_left
  intro i hi
  have hi := List.mem_range.1 hi
  congr 1
  rw [Finset.sum_eq_single i]
  · rw [← entryOf, entryOf_diagMat _ (by omega) (by omega), if_pos rfl]
  · intro j hj hji
    have hj := Finset.mem_range.1 hj
    rw [← entryOf, entryOf_diagMat _ (by omega) (by omega), if_neg (Ne.symm hji), zero_mul]
  · simp [hi]

section
variable [Interp F]

theorem productValue_congr {p : Product F} {x y : ℕ → ℝ} (h : ∀ a ∈ p, ∀ d ∈ a.1, x d = y d) : productValue p x = productValue p y := by
  rw [productValue, productValue]
  congr 1
  exact Multiset.map_congr rfl fun a ha => Interp.val_local _ _ _ _ (h a ha)

theorem SFn.value_congr {f : SFn F} {x y : ℕ → ℝ} (h : ∀ p ∈ f.terms, ∀ a ∈ p, ∀ d ∈ a.1, x d = y d) : f.value x = f.value y := by
  rw [SFn.value, SFn.value]
  congr 1
  exact Multiset.map_congr rfl fun p hp => productValue_congr (h p hp)

theorem productValue_zero (x : ℕ → ℝ) : productValue (0 : Product F) x = 1 := by simp [productValue]

theorem productValue_add (p p' : Product F) (x : ℕ → ℝ) : productValue (p + p') x = productValue p x * productValue p' x := by
  simp [productValue]

theorem productValue_sum (l : List (Product F)) (x : ℕ → ℝ) : productValue l.sum x = (l.map fun p => productValue p x).prod := by
  induction l with
  | nil => simp [productValue]
  | cons p l ih => simp [productValue_add, ih]

theorem gridPoints_length {nodes : List (List ℝ)} {p : List ℝ} (h : p ∈ gridPoints nodes) : p.length = nodes.length := by
  rw [gridPoints] at h
  induction nodes generalizing p with
  | nil => simp [cartesian] at h; simp [h]
  | cons l ls ih =>
    simp only [cartesian, List.mem_flatMap, List.mem_map] at h
    obtain ⟨x, -, p', hp', rfl⟩ := h
    simp [ih hp']

/-- The values of a function at the points of the grid. -/
theorem quad_discretize_ok {eig : Eig} (he : EigDiag eig) {q : HQuad F} (hq : QuadOk q) {f : SFn F} (hd : f.dirs = q.position.dirs)
    (hv : ∀ p ∈ f.terms, ∀ a ∈ p, ∀ d ∈ a.1, d ∈ f.dirs) :
    quad_discretize eig q f = .ok ((gridPoints q.nodes).map fun p => f.value (gridPoint q.position p)) := by
  have hfac := pos_factor_diag he hq.pos hq.diag
  rw [quad_discretize, hfac, discretize_ok (g := fun v => f.value fun d => v.getD (f.dirs.idxOf d) 0) hq.grid.dim_pos hq.grid.small
    (by rw [hq.pos.mean, hq.dim]) (by simp [diagMat, hq.dim]) (by simp [diagMat, hq.dim])]
  · congr 1
    apply List.map_congr_left
    intro p hp
    have hl := gridPoints_length hp
    apply SFn.value_congr
    intro t ht a ha d hdd
    have hdm : d ∈ q.position.dirs := hd ▸ hv t ht a ha d hdd
    have hi : q.position.dirs.idxOf d < q.position.dim := by rw [← hq.pos.dirs]; exact List.idxOf_lt_length_iff.2 hdm
    rw [affine_diag (by simp [hl, hq.dim]), hd, gridPoint]
    simp [hl, hq.dim, hi]
  · intro p hp
    have hl := gridPoints_length hp
    rw [cfun, if_pos]
    intro t ht a ha d hdd
    have hdm := hv t ht a ha d hdd
    have := List.idxOf_lt_length_iff.2 hdm
    rw [affine]
    simp only [List.length_map, List.length_range]
    rw [hl, hq.dim, ← hq.pos.dirs, ← hd]
    exact this

end

end Hermipy
