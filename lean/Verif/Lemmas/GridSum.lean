import Verif.Lemmas.TransformOk
import Verif.Spec.Coef
import Mathlib.Algebra.BigOperators.Ring.Finset
import Mathlib.Data.Fintype.Pi

/-! # Sums over a tensor grid factor over blocks of directions -/

namespace Hermipy

open Spec

/-- The grid as a set of index tuples. -/
def boxSet (bs : IVec) : Finset IVec := (boxList bs).toFinset

theorem mem_boxSet {bs p : IVec} : p ∈ boxSet bs ↔ p.length = bs.length ∧ ∀ k < bs.length, p.getD k 0 < bs.getD k 0 := by
  rw [boxSet, List.mem_toFinset, mem_boxList, List.forall₂_iff_get]
  constructor
  · rintro ⟨h1, h2⟩
    refine ⟨h1, fun k hk => ?_⟩
    have := h2 k (by omega) hk
    simpa [hk, show k < p.length by omega] using this
  · rintro ⟨h1, h2⟩
    refine ⟨h1, fun k hk1 hk => ?_⟩
    have := h2 k hk
    simpa [hk, hk1] using this

theorem quadrature_box {nodes weights : List (List ℝ)} (hw : weights.map List.length = nodes.map List.length)
    (G : List ℝ → ℝ) :
    quadrature nodes weights (fun _ p => G p) =
      ∑ p ∈ boxSet (nodes.map List.length), (pick 0 weights p).prod * G (pick 0 nodes p) := by
  have hN : (gridPoints nodes).length = (boxList (nodes.map List.length)).length := by
    rw [gridPoints, cartesian_pick 0, List.length_map]
  rw [quadrature, hN, boxSet, List.sum_toFinset _ (nodup_boxList _), Finset.sum_range, ← List.sum_ofFn]
  congr 1
  apply List.ext_getElem
  · simp
  · intro i h1 h2
    have hi : i < (boxList (nodes.map List.length)).length := by simpa using h1
    have hp := List.getElem?_eq_getElem hi
    simp only [List.getElem_ofFn, List.getElem_map]
    rw [gridWeights_getD hw hp, List.getD_eq_getElem?_getD, grid_getD hp, Option.getD_some]

theorem sub_length {β : Type} (d : β) (dirs : List Nat) (m : List β) : (sub d dirs m).length = dirs.length := by
  simp [sub]

theorem sub_getD {β : Type} (d : β) (dirs : List Nat) (m : List β) {k : Nat} (hk : k < dirs.length) :
    (sub d dirs m).getD k d = m.getD (dirs.getD k 0) d := by
  simp [sub, hk]

theorem restrict_getD (dirs m : List Nat) {k : Nat} (hk : k < dirs.length) :
    (restrict dirs m).getD k 0 = m.getD (dirs.getD k 0) 0 := by
  simp [restrict, hk]

theorem Spec.Partition.mem_lt {dim : Nat} {blocks : List (List Nat)} (h : Partition dim blocks) {b : List Nat} (hb : b ∈ blocks)
    {k : Nat} (hk : k ∈ b) : k < dim :=
  List.mem_range.1 (h.perm.mem_iff.1 (List.mem_flatten.2 ⟨b, hb, hk⟩))

theorem Spec.Partition.exists_block {dim : Nat} {blocks : List (List Nat)} (h : Partition dim blocks) {k : Nat} (hk : k < dim) :
    ∃ b ∈ blocks, k ∈ b := by
  have := h.perm.mem_iff.2 (List.mem_range.2 hk)
  simpa [List.mem_flatten] using this

theorem Spec.Partition.unique {dim : Nat} {blocks : List (List Nat)} (h : Partition dim blocks) {i j k : Nat}
    (hi : i < blocks.length) (hj : j < blocks.length) (hki : k ∈ blocks[i]) (hkj : k ∈ blocks[j]) : i = j := by
  have hn : blocks.flatten.Nodup := h.perm.nodup_iff.2 List.nodup_range
  have hp := (List.nodup_flatten.1 hn).2
  rw [List.pairwise_iff_getElem] at hp
  rcases Nat.lt_trichotomy i j with hlt | rfl | hlt
  · exact absurd hkj (hp i j hi hj hlt hki)
  · rfl
  · exact absurd hki (hp j i hj hi hlt hkj)

/-- A sum over the grid of a product of functions of the blocks is the product of the sums over the grids of the blocks. -/
theorem sum_blocks {dim : Nat} {blocks : List (List Nat)} (h : Partition dim blocks) {ub : IVec} (hub : ub.length = dim)
    (G : Nat → IVec → ℝ) :
    ∑ p ∈ boxSet ub, ∏ b ∈ Finset.range blocks.length, G b (restrict (blocks.getD b []) p) =
      ∏ b ∈ Finset.range blocks.length, ∑ q ∈ boxSet (restrict (blocks.getD b []) ub), G b q := by
  classical
  rw [Finset.prod_range, Finset.prod_univ_sum]
  refine Finset.sum_bij (fun p _ b => restrict (blocks.getD b []) p) ?_ ?_ ?_ ?_
  · intro p hp
    rw [mem_boxSet] at hp
    rw [Fintype.mem_piFinset]
    intro b
    have hb : blocks.getD b [] ∈ blocks := by
      have := b.2
      simp
    rw [mem_boxSet, restrict_length, restrict_length]
    refine ⟨rfl, fun k hk => ?_⟩
    rw [restrict_getD _ _ hk, restrict_getD _ _ hk]
    apply hp.2
    rw [hub]
    obtain ⟨l, hl⟩ : ∃ l, l = blocks.getD b [] := ⟨_, rfl⟩
    rw [← hl] at hb hk ⊢
    apply h.mem_lt hb
    simp [hk]
  · intro p hp p' hp' he
    rw [mem_boxSet] at hp hp'
    apply List.ext_getElem
    · rw [hp.1, hp'.1]
    · intro k hk hk'
      obtain ⟨b, hb, hkb⟩ := h.exists_block (k := k) (by omega)
      obtain ⟨i, hi, rfl⟩ := List.mem_iff_getElem.1 hb
      obtain ⟨t, ht, hte⟩ := List.mem_iff_getElem.1 hkb
      have he' := congrFun he ⟨i, hi⟩
      have e1 : blocks.getD i [] = blocks[i] := by simp [hi]
      simp only [e1] at he'
      have h3 := congrArg (fun l : List Nat => l.getD t 0) he'
      rw [restrict_getD _ _ ht, restrict_getD _ _ ht] at h3
      have e2 : blocks[i].getD t 0 = k := by simp [ht, hte]
      rw [e2] at h3
      simpa [hk, hk'] using h3
  · intro q hq
    rw [Fintype.mem_piFinset] at hq
    have hpos : ∀ k, k < dim → ∃ i : Fin blocks.length, k ∈ blocks[i] := by
      intro k hk
      obtain ⟨b, hb, hkb⟩ := h.exists_block hk
      obtain ⟨i, hi, rfl⟩ := List.mem_iff_getElem.1 hb
      exact ⟨⟨i, hi⟩, hkb⟩
    let pos : Nat → Nat := fun k => if hk : k < dim then at' (blocks.getD (hpos k hk).choose []) (q (hpos k hk).choose) k else 0
    have hposeq : ∀ (i : Fin blocks.length) k, k ∈ blocks[i] → pos k = at' blocks[i] (q i) k := by
      intro i k hki
      have hk : k < dim := h.mem_lt (List.getElem_mem _) hki
      have he : (hpos k hk).choose = i := Fin.ext (h.unique (hpos k hk).choose.2 i.2 (hpos k hk).choose_spec hki)
      simp only [pos]
      rw [dif_pos hk, he]
      simp
    have hnd : ∀ i : Fin blocks.length, blocks[i].Nodup := fun i =>
      (h.inc _ (List.getElem_mem _)).2.imp (fun h => Nat.ne_of_lt h)
    have hget : ∀ (i : Fin blocks.length), blocks.getD i [] = blocks[i] := fun i => by simp
    have hlen : ∀ i, (q i).length = blocks[i].length := fun i => by
      have := (mem_boxSet.1 (hq i)).1
      rw [restrict_length, hget] at this
      exact this
    have hat : ∀ (i : Fin blocks.length) t (ht : t < blocks[i].length), pos (blocks[i][t]) = (q i).getD t 0 := by
      intro i t ht
      rw [hposeq i _ (List.getElem_mem _), at', (hnd i).idxOf_getElem]
    have hres : ∀ i : Fin blocks.length, restrict blocks[i] ((List.range dim).map pos) = q i := by
      intro i
      apply List.ext_getElem
      · rw [restrict_length, hlen]
      · intro t h1 h2
        have ht : t < blocks[i].length := by rw [← hlen]; exact h2
        have hlt : blocks[i][t] < dim := h.mem_lt (List.getElem_mem _) (List.getElem_mem _)
        have := hat i t ht
        simp only [restrict, List.getElem_map]
        rw [List.getD_eq_getElem?_getD, List.getElem?_map, List.getElem?_range hlt]
        simp only [Option.map_some, Option.getD_some]
        rw [this]
        simp [h2]
    refine ⟨(List.range dim).map pos, ?_, ?_⟩
    · rw [mem_boxSet]
      refine ⟨by simp [hub], fun k hk => ?_⟩
      rw [hub] at hk
      obtain ⟨i, hi⟩ := hpos k hk
      obtain ⟨t, ht, hte⟩ := List.mem_iff_getElem.1 hi
      have h1 := (mem_boxSet.1 (hq i)).2 t (by rw [restrict_length, hget]; exact ht)
      rw [hget, restrict_getD _ _ ht] at h1
      have h2 := hat i t ht
      have e2 : blocks[i].getD t 0 = k := by
        obtain ⟨l, hl⟩ : ∃ l, l = blocks[i] := ⟨_, rfl⟩
        simp only [← hl] at ht hte ⊢
        simp [ht, hte]
      rw [e2, ← h2, hte] at h1
      simpa [hk] using h1
    · funext i
      rw [hget]
      exact hres i
  · intro p hp
    rw [Finset.prod_range]

end Hermipy
