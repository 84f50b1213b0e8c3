import Verif.Lemmas.Position

namespace Hermipy
open Spec

theorem density_prod (L : List ℕ) (m v t : ℕ → ℝ) (hv : ∀ i ∈ L, 0 < v i) :
    (L.map fun i => normalDensity (m i) (v i) (t i)).prod =
      1 / √((2 * Real.pi) ^ L.length * (L.map v).prod) * Real.exp (-(1 / 2 * (L.map fun i => (t i - m i) ^ 2 / v i).sum)) := by
  induction L with
  | nil => simp
  | cons a L ih =>
    rw [List.map_cons, List.prod_cons, ih fun i hi => hv i (by simp [hi]), List.map_cons, List.prod_cons, List.map_cons, List.sum_cons,
      List.length_cons, normalDensity]
    have ha := hv a (by simp)
    have e : (2 * Real.pi) ^ (L.length + 1) * (v a * (L.map v).prod) = (2 * Real.pi * v a) * ((2 * Real.pi) ^ L.length * (L.map v).prod) := by
      ring
    rw [e, Real.sqrt_mul (show 0 ≤ 2 * Real.pi * v a by positivity) ((2 * Real.pi) ^ L.length * (L.map v).prod), show -(1 / 2 * ((t a - m a) ^ 2 / v a + (L.map fun i => (t i - m i) ^ 2 / v i).sum)) =
      -((t a - m a) ^ 2 / (2 * v a)) + -(1 / 2 * (L.map fun i => (t i - m i) ^ 2 / v i).sum) by field_simp; ring, Real.exp_add]
    rw [mul_mul_mul_comm, one_div_mul_one_div]

theorem prod_filter_ite (L : List ℕ) (P : ℕ → Prop) [DecidablePred P] (f : ℕ → ℝ) :
    (L.map fun i => if P i then f i else 1).prod = ((L.filter fun i => P i).map f).prod := by
  induction L with
  | nil => rfl
  | cons a L ih =>
    by_cases h : P a
    · simp [h, ih]
    · simp [h, ih]

theorem pos_weight_eval {p : Position} (hp : PosOk p) (hd : Diagonal p) (h5 : ∀ d ∈ p.dirs, d < 5) (hv : PosVar p) (x : ℕ → ℝ) :
    pos_weight p x = .ok (if ((List.range p.types.length).filter fun i => p.types.getD i "" = "hermite").length = 0 then 1 else
      1 / √((2 * Real.pi) ^ p.dim * (((List.range p.types.length).filter fun i => p.types.getD i "" = "hermite").map fun i => entryOf p.cov i i).prod) *
      Real.exp (-(1 / 2 * (((List.range p.types.length).filter fun i => p.types.getD i "" = "hermite").map fun i =>
        (x (p.dirs.getD i 0) - p.mean.getD i 0) ^ 2 / entryOf p.cov i i).sum))) := by
  rw [pos_weight]
  have hmem : ∀ i ∈ (List.range p.types.length).filter fun i => p.types.getD i "" = "hermite", i < p.dim ∧ p.types.getD i "" = "hermite" := by
    intro i hi
    rw [List.mem_filter, List.mem_range, hp.types] at hi
    exact ⟨hi.1, by simpa using hi.2⟩
  have hnd : ((List.range p.types.length).filter fun i => p.types.getD i "" = "hermite").Nodup := List.nodup_range.filter _
  generalize (List.range p.types.length).filter (fun i => decide (p.types.getD i "" = "hermite")) = ind at hmem hnd ⊢
  by_cases h0 : ind.length = 0
  · rw [if_pos h0, if_pos h0]
  rw [if_neg h0, if_neg h0]
  have e1 : ind.mapM (fun i => pyget p.mean i) = .ok (ind.map fun i => p.mean.getD i 0) := by
    refine mapM_ok fun i hi => ?_
    have : i < p.mean.length := by rw [hp.mean]; exact (hmem i hi).1
    rw [pyget_some (List.getElem?_eq_getElem this)]
    simp [this]
  have e2 : (ind.mapM fun i => do
      let d ← pyget p.dirs i
      if d < 5 then .ok (x d) else .throws) = .ok (ind.map fun i => x (p.dirs.getD i 0)) := by
    refine mapM_ok fun i hi => ?_
    have : i < p.dirs.length := by rw [hp.dirs]; exact (hmem i hi).1
    rw [pyget_some (List.getElem?_eq_getElem this), Out.ok_bind, if_pos (h5 _ (List.getElem_mem this))]
    simp [this]
  have e3 : (ind.mapM fun i => do
      let r ← pyget p.cov i
      ind.mapM fun j => pyget r j) = .ok (ind.map fun i => ind.map fun j => entryOf p.cov i j) := by
    refine mapM_ok fun i hi => ?_
    have : i < p.cov.length := by rw [hp.cov]; exact (hmem i hi).1
    rw [pyget_some (List.getElem?_eq_getElem this), Out.ok_bind]
    refine mapM_ok fun j hj => ?_
    have hj' : j < (p.cov[i]).length := by rw [hp.rows _ (List.getElem_mem this)]; exact (hmem j hj).1
    rw [pyget_some (List.getElem?_eq_getElem hj')]
    simp [entryOf, this, hj']
  rw [e1, Out.ok_bind, e2, Out.ok_bind, e3, Out.ok_bind]
  have hM : (Matrix.of fun i j : Fin ind.length => entryOf (ind.map fun i => ind.map fun j => entryOf p.cov i j) i j) =
      Matrix.diagonal fun k : Fin ind.length => entryOf p.cov ind[k] ind[k] := by
    ext i j
    have hij : entryOf (ind.map fun i => ind.map fun j => entryOf p.cov i j) i j = entryOf p.cov ind[i] ind[j] := by
      simp [entryOf]
    rw [Matrix.of_apply, hij, Matrix.diagonal_apply]
    by_cases h : i = j
    · simp [h]
    · rw [if_neg h, entryOf_diagonal hd]
      intro e
      exact h (Fin.ext ((hnd.getElem_inj_iff).1 e))
  have hpos : ∀ k : Fin ind.length, 0 < entryOf p.cov ind[k] ind[k] := by
    intro k
    obtain ⟨a, b⟩ := hmem ind[k] (List.getElem_mem _)
    exact hv _ a b
  have hdet : (Matrix.diagonal fun k : Fin ind.length => entryOf p.cov ind[k] ind[k]).det = (ind.map fun i => entryOf p.cov i i).prod := by
    rw [Matrix.det_diagonal]
    exact Fin.prod_univ_fun_getElem ind fun i => entryOf p.cov i i
  have hdet0 : (Matrix.diagonal fun k : Fin ind.length => entryOf p.cov ind[k] ind[k]).det ≠ 0 := by
    rw [Matrix.det_diagonal]
    exact Finset.prod_ne_zero_iff.2 fun k _ => (hpos k).ne'
  have hinv : (Matrix.diagonal fun k : Fin ind.length => entryOf p.cov ind[k] ind[k])⁻¹ =
      Matrix.diagonal fun k : Fin ind.length => (entryOf p.cov ind[k] ind[k])⁻¹ := by
    refine Matrix.inv_eq_right_inv ?_
    rw [Matrix.diagonal_mul_diagonal, ← Matrix.diagonal_one]
    congr 1
    funext k
    exact mul_inv_cancel₀ (hpos k).ne'
  rw [hM, if_neg hdet0, hdet, hinv]
  dsimp only
  congr 5
  rw [dotProduct, ← Fin.sum_univ_fun_getElem (M := ℝ)]
  refine Finset.sum_congr rfl fun k _ => ?_
  rw [Matrix.mulVec_diagonal]
  simp
  field_simp

theorem weight1D_prod {p : Position} (hp : PosOk p) (x : ℕ → ℝ) :
    ((List.range p.dim).map (weight1D p x)).prod = (((List.range p.types.length).filter fun i => p.types.getD i "" = "hermite").map fun i =>
      normalDensity (p.mean.getD i 0) (entryOf p.cov i i) (x (p.dirs.getD i 0))).prod := by
  rw [hp.types, ← prod_filter_ite]
  rfl

theorem filter_range_length {α : Type} (l : List α) (dflt : α) (P : α → Bool) :
    ((List.range l.length).filter fun i => P (l.getD i dflt)).length = (l.filter P).length := by
  have : l = (List.range l.length).map fun i => l.getD i dflt := by
    refine List.ext_getElem (by simp) ?_
    intro i h h'
    simp [List.getElem?_eq_getElem h]
  conv_rhs => rw [this, List.filter_map, List.length_map]
  rfl

theorem hermite_count (p : Position) :
    ((List.range p.types.length).filter fun i => p.types.getD i "" = "hermite").length = hermiteDirs p :=
  filter_range_length p.types "" fun t => t = "hermite"

theorem hermite_add_other {p : Position} (hp : PosOk p) : hermiteDirs p + otherDirs p = p.dim := by
  rw [← hp.types, hermiteDirs, otherDirs, List.length_eq_length_filter_add (l := p.types) fun t => decide (t = "hermite")]
  simp

theorem weight1D_pos {p : Position} (hv : PosVar p) (x : ℕ → ℝ) {i : ℕ} (hi : i < p.dim) : 0 < weight1D p x i := by
  rw [weight1D]
  split
  · have := hv i hi (by assumption)
    rw [normalDensity]
    have := Real.pi_pos
    positivity
  · exact one_pos

theorem one_dir_weight {p : Position} (hp : PosOk p) (hd : p.is_diag) (h5 : ∀ d ∈ p.dirs, d < 5) (hv : PosVar p) (x : ℕ → ℝ) {i : ℕ}
    (hi : i < p.dirs.length) : (do let q ← pos_project p [p.dirs[i]]; pos_weight q x) = .ok (weight1D p x i) := by
  obtain ⟨g, hg, e⟩ := (pos_project_spec hp (ds := [p.dirs[i]]) hd (by simp)).1 (by simp)
  have hx := hg p.dirs[i] (by simp)
  obtain ⟨r, a1, a2, a3, a4⟩ := idxOf_has hp hx
  rw [hp.nodup.idxOf_getElem] at a1 a2 a3 a4
  rw [e, Out.ok_bind]
  generalize hgd : g p.dirs[i] = t at *
  have hq := assemble_ok (dirs := [p.dirs[i]]) (rs := [p.dirs[i]].map g) (by simp) (by simp)
  have ht : p.types.getD i "" = t.2.2 := by simp [a4]
  have hm : p.mean.getD i 0 = t.1 := by simp [a1]
  have hc : entryOf p.cov i i = t.2.1 := by simp [entryOf, a2, a3]
  have hdd : p.dirs.getD i 0 = p.dirs[i] := by simp [hi]
  have hi' : i < p.dim := by rw [← hp.dirs]; exact hi
  have hcov : entryOf (diagMat [t.2.1]) 0 0 = t.2.1 := by simp [entryOf, diagMat]
  rw [pos_weight_eval hq (assemble_diagonal _ _) (by simpa [assemble] using h5 _ (List.getElem_mem hi))]
  · by_cases hh : t.2.2 = "hermite"
    · have hpos : 0 < t.2.1 := by rw [← hc]; exact hv i hi' (ht.trans hh)
      simp only [assemble, List.map_cons, List.map_nil, hgd, List.length_singleton, List.range_one]
      rw [weight1D, ht, if_pos hh, hm, hc, hdd, normalDensity]
      simp [hh, hcov]
      left
      field_simp
    · simp only [assemble, List.map_cons, List.map_nil, hgd, List.length_singleton, List.range_one]
      rw [weight1D, ht, if_neg hh]
      simp [hh]
  · intro j hj hh
    have hj0 : j = 0 := by
      have : j < 1 := hj
      omega
    subst hj0
    simp only [assemble, List.map_cons, List.map_nil, hgd] at hh ⊢
    rw [hcov, ← hc]
    exact hv i hi' (ht.trans (by simpa using hh))

end Hermipy
