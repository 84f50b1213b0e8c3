import Verif.Lemmas.GridSum

/-! # Quadrature of products -/

namespace Hermipy

open Spec

theorem Spec.Partition.prod {dim : Nat} {blocks : List (List Nat)} (h : Partition dim blocks) (g : Nat → ℝ) :
    ∏ k ∈ Finset.range dim, g k =
      ∏ b ∈ Finset.range blocks.length, ∏ k ∈ Finset.range (blocks.getD b []).length, g ((blocks.getD b []).getD k 0) := by
  have e : ∀ l : List Nat, ∏ k ∈ Finset.range l.length, g (l.getD k 0) = (l.map g).prod := by
    intro l
    rw [Finset.prod_range, ← List.prod_ofFn]
    congr 1
    apply List.ext_getElem
    · simp
    · intro i h1 h2
      have : i < l.length := by simpa using h1
      simp
  simp only [e]
  have e2 : ∏ b ∈ Finset.range blocks.length, ((blocks.getD b []).map g).prod = (blocks.map fun l => (l.map g).prod).prod := by
    rw [Finset.prod_range, ← List.prod_ofFn]
    congr 1
    apply List.ext_getElem
    · simp
    · intro i h1 h2
      simp
  have e3 : (blocks.map fun l => (l.map g).prod).prod = (blocks.flatten.map g).prod := by
    rw [List.map_flatten, List.prod_flatten, List.map_map]
    rfl
  have e4 := e (List.range dim)
  simp only [List.length_range] at e4
  rw [e2, e3, (h.perm.map g).prod_eq, ← e4]
  apply Finset.prod_congr rfl
  intro k hk
  simp [Finset.mem_range.1 hk]

theorem basis_blocks {dim : Nat} {blocks : List (List Nat)} (h : Partition dim blocks) (fourier m : List Nat) (p : List ℝ) :
    basis dim fourier m p = ∏ b ∈ Finset.range blocks.length, basis (blocks.getD b []).length
      (sub 0 (blocks.getD b []) fourier) (restrict (blocks.getD b []) m) (sub 0 (blocks.getD b []) p) := by
  rw [basis, h.prod]
  apply Finset.prod_congr rfl
  intro b _
  rw [basis]
  apply Finset.prod_congr rfl
  intro k hk
  have hk := Finset.mem_range.1 hk
  rw [sub_getD _ _ _ hk, sub_getD _ _ _ hk, restrict_getD _ _ hk]

theorem list_prod_getD (l : List ℝ) : l.prod = ∏ k ∈ Finset.range l.length, l.getD k 0 := by
  rw [Finset.prod_range, ← List.prod_ofFn]
  congr 1
  apply List.ext_getElem
  · simp
  · intro i h1 h2
    simp

theorem pick_length {β : Type} (d : β) {ls : List (List β)} {p : IVec} (h : p.length = ls.length) :
    (pick d ls p).length = ls.length := by simp [pick, h]

theorem pick_sub {ls : List (List ℝ)} {p : IVec} (h : p.length = ls.length) {b : List Nat} (hb : ∀ k ∈ b, k < ls.length) :
    pick 0 (sub [] b ls) (restrict b p) = sub 0 b (pick 0 ls p) := by
  apply List.ext_getElem
  · simp [pick, sub, restrict]
  · intro i h1 h2
    have hi : i < b.length := by simpa [sub] using h2
    have hk := hb _ (List.getElem_mem hi)
    have e1 := pick_getD 0 (ls := sub [] b ls) (p := restrict b p) (k := i)
      (by rw [restrict_length, sub_length]) (by rw [sub_length]; exact hi)
    have e2 := sub_getD 0 b (pick 0 ls p) hi
    have hbg : b.getD i 0 = b[i] := by simp [hi]
    rw [sub_getD _ _ _ hi, restrict_getD _ _ hi, hbg, ← pick_getD 0 h hk] at e1
    rw [hbg, ← e1] at e2
    have g1 : (pick 0 (sub [] b ls) (restrict b p)).getD i 0 = (pick 0 (sub [] b ls) (restrict b p))[i] := by
      rw [List.getD_eq_getElem?_getD, List.getElem?_eq_getElem h1]; rfl
    have g2 : (sub 0 b (pick 0 ls p)).getD i 0 = (sub 0 b (pick 0 ls p))[i] := by
      rw [List.getD_eq_getElem?_getD, List.getElem?_eq_getElem h2]; rfl
    rw [← g1, ← g2, e2]

theorem sub_lengths {ls : List (List ℝ)} (b : List Nat) :
    (sub [] b ls).map List.length = restrict b (ls.map List.length) := by
  rw [sub, restrict, List.map_map]
  apply List.map_congr_left
  intro k _
  simp only [Function.comp_apply, List.getD_eq_getElem?_getD, List.getElem?_map]
  cases ls[k]? <;> rfl

theorem sub_lengths_eq {ls ls' : List (List ℝ)} (h : ls.map List.length = ls'.map List.length) (b : List Nat) :
    (sub [] b ls).map List.length = (sub [] b ls').map List.length := by
  rw [sub_lengths, sub_lengths, h]

/-- Quadrature of a product of functions of the blocks. -/
theorem quadrature_blocks {nodes weights : List (List ℝ)} (hw : weights.map List.length = nodes.map List.length)
    {blocks : List (List Nat)} (h : Partition nodes.length blocks) (G : Nat → List ℝ → ℝ) :
    quadrature nodes weights (fun _ p => ∏ b ∈ Finset.range blocks.length, G b (sub 0 (blocks.getD b []) p)) =
      ∏ b ∈ Finset.range blocks.length,
        quadrature (sub [] (blocks.getD b []) nodes) (sub [] (blocks.getD b []) weights) (fun _ q => G b q) := by
  have hwl : weights.length = nodes.length := by simpa using congrArg List.length hw
  rw [quadrature_box hw (fun p => ∏ b ∈ Finset.range blocks.length, G b (sub 0 (blocks.getD b []) p))]
  have e : ∀ b ∈ Finset.range blocks.length,
      quadrature (sub [] (blocks.getD b []) nodes) (sub [] (blocks.getD b []) weights) (fun _ q => G b q) =
        ∑ q ∈ boxSet (restrict (blocks.getD b []) (nodes.map List.length)),
          (pick 0 (sub [] (blocks.getD b []) weights) q).prod * G b (pick 0 (sub [] (blocks.getD b []) nodes) q) := by
    intro b _
    rw [quadrature_box (sub_lengths_eq hw _), sub_lengths]
  rw [Finset.prod_congr rfl e, ← sum_blocks h (by simp)]
  apply Finset.sum_congr rfl
  intro p hp
  have hpl : p.length = nodes.length := by simpa using (mem_boxSet.1 hp).1
  have hlt : ∀ b ∈ Finset.range blocks.length, ∀ k ∈ blocks.getD b [], k < nodes.length := by
    intro b hb k hk
    have hb := Finset.mem_range.1 hb
    have e1 : blocks.getD b [] = blocks[b] := by simp [hb]
    rw [e1] at hk
    exact h.mem_lt (List.getElem_mem hb) hk
  rw [list_prod_getD, pick_length 0 (by omega), hwl, h.prod, ← Finset.prod_mul_distrib]
  apply Finset.prod_congr rfl
  intro b hb
  rw [pick_sub hpl (hlt b hb), pick_sub (by omega) (fun k hk => by rw [hwl]; exact hlt b hb k hk), list_prod_getD,
    sub_length]
  congr 1
  apply Finset.prod_congr rfl
  intro k hk
  rw [sub_getD _ _ _ (Finset.mem_range.1 hk)]

theorem singles (dim : Nat) : Partition dim ((List.range dim).map fun k => [k]) := by
  refine ⟨?_, ?_⟩
  · intro d hd
    obtain ⟨k, -, rfl⟩ := List.mem_map.1 hd
    simp
  · rw [← List.flatMap_def]
    simp [List.flatMap_singleton']

/-- Quadrature of a product of functions of one variable. -/
theorem quadrature_prod {nodes weights : List (List ℝ)} (hw : weights.map List.length = nodes.map List.length)
    (g : Nat → ℝ → ℝ) :
    quadrature nodes weights (fun _ p => ∏ k ∈ Finset.range nodes.length, g k (p.getD k 0)) =
      ∏ k ∈ Finset.range nodes.length, ∑ t ∈ Finset.range (nodes.getD k []).length,
        (weights.getD k []).getD t 0 * g k ((nodes.getD k []).getD t 0) := by
  have h := quadrature_blocks hw (singles nodes.length) (fun b q => g b (q.getD 0 0))
  simp only [List.length_map, List.length_range] at h
  have e : ∀ b ∈ Finset.range nodes.length, ((List.range nodes.length).map fun k => [k]).getD b [] = [b] := by
    intro b hb
    simp [Finset.mem_range.1 hb]
  have e1 : (fun (_ : Nat) (p : List ℝ) => ∏ b ∈ Finset.range nodes.length,
      g b ((sub 0 (((List.range nodes.length).map fun k => [k]).getD b []) p).getD 0 0)) =
      fun _ p => ∏ k ∈ Finset.range nodes.length, g k (p.getD k 0) := by
    funext _ p
    apply Finset.prod_congr rfl
    intro b hb
    rw [e b hb]
    simp [sub]
  rw [e1] at h
  rw [h]
  apply Finset.prod_congr rfl
  intro b hb
  rw [e b hb]
  have hb' := Finset.mem_range.1 hb
  have hl : (weights.getD b []).length = (nodes.getD b []).length := by
    have := congrArg (fun l : List Nat => l.getD b 0) hw
    have hwl : weights.length = nodes.length := by simpa using congrArg List.length hw
    simpa [hb', hwl] using this
  simp only [sub, List.map_cons, List.map_nil]
  generalize nodes.getD b [] = n at *
  generalize weights.getD b [] = w at *
  rw [quadrature]
  have e0 : ∀ v : List ℝ, cartesian [v] = v.map fun x => [x] := by
    intro v
    simp only [cartesian]
    induction v with
    | nil => rfl
    | cons a v ih => rw [List.flatMap_cons, ih]; rfl
  have e2 : gridPoints [n] = n.map fun x => [x] := e0 n
  have e3 : gridWeights [w] = w := by
    rw [gridWeights, e0, List.map_map]
    simp [Function.comp_def]
  rw [e2, e3, List.length_map]
  apply Finset.sum_congr rfl
  intro t ht
  have ht := Finset.mem_range.1 ht
  congr 1
  simp [ht]

theorem quadrature_congr {nodes weights : List (List ℝ)} {g g' : Nat → List ℝ → ℝ} (h : ∀ i p, (gridPoints nodes)[i]? = some p →
    g i p = g' i p) : quadrature nodes weights g = quadrature nodes weights g' := by
  rw [quadrature, quadrature]
  apply Finset.sum_congr rfl
  intro i hi
  have hi := Finset.mem_range.1 hi
  congr 1
  have e : (gridPoints nodes).getD i [] = (gridPoints nodes)[i] := by simp [hi]
  rw [e]
  exact h i _ (List.getElem?_eq_getElem hi)

/-- Discrete orthonormality in each direction gives discrete orthonormality of the product basis. -/
theorem basis_orthonormal {nodes weights : List (List ℝ)} (hw : weights.map List.length = nodes.map List.length)
    {fourier : List Nat} {degree : Nat}
    (ho : ∀ k < nodes.length, Orthonormal degree (fourier.getD k 0) (nodes.getD k []) (weights.getD k []))
    {m m' : IVec} (hm : m.length = nodes.length) (hm' : m'.length = nodes.length) (hd : ∀ x ∈ m, x ≤ degree)
    (hd' : ∀ x ∈ m', x ≤ degree) :
    quadrature nodes weights (fun _ p => basis nodes.length fourier m p * basis nodes.length fourier m' p) =
      if m = m' then 1 else 0 := by
  have e : (fun (_ : Nat) p => basis nodes.length fourier m p * basis nodes.length fourier m' p) =
      fun _ p => ∏ k ∈ Finset.range nodes.length, (fun k x => phi (fourier.getD k 0) (m.getD k 0) x *
        phi (fourier.getD k 0) (m'.getD k 0) x) k (p.getD k 0) := by
    funext _ p
    rw [basis, basis, ← Finset.prod_mul_distrib]
  rw [e, quadrature_prod hw (fun k x => phi (fourier.getD k 0) (m.getD k 0) x * phi (fourier.getD k 0) (m'.getD k 0) x)]
  have hle : ∀ (m : IVec), m.length = nodes.length → (∀ x ∈ m, x ≤ degree) → ∀ k < nodes.length, m.getD k 0 ≤ degree := by
    intro m hm hd k hk
    have hkm : k < m.length := by omega
    simpa [hkm] using hd _ (List.getElem_mem hkm)
  rw [Finset.prod_congr rfl fun k hk => ho k (Finset.mem_range.1 hk) _ _ (hle m hm hd k (Finset.mem_range.1 hk))
    (hle m' hm' hd' k (Finset.mem_range.1 hk))]
  by_cases h : m = m'
  · subst h
    simp
  · rw [if_neg h]
    have : ∃ k < nodes.length, m.getD k 0 ≠ m'.getD k 0 := by
      by_contra hc
      push Not at hc
      apply h
      apply List.ext_getElem (by omega)
      intro i h1 h2
      have := hc i (by omega)
      simpa [h1, h2] using this
    obtain ⟨k, hk, hne⟩ := this
    exact Finset.prod_eq_zero (Finset.mem_range.2 hk) (if_neg hne)

end Hermipy
