import Verif.Lemmas.GridBlocks
import Verif.Lemmas.Usable
import Verif.Lemmas.Small
import Mathlib.Tactic.FieldSimp

/-! # Edge cases of the transforms: `integrate`, odd degrees, degree zero -/

namespace Hermipy

open Spec

theorem Out.bind_ok {α β : Type} {x : Out α} {f : α → Out β} {b : β} (h : (x >>= f) = .ok b) : ∃ a, x = .ok a ∧ f a = .ok b := by
  cases x with
  | ok a => exact ⟨a, rfl, h⟩
  | stop s => simp at h
  | diverge => simp at h

theorem basisMat_odd {slack degree : Nat} (h : degree % 2 = 1) (x : ℝ) (xs : List ℝ) :
    basisMat slack degree 1 (x :: xs) = .exit 1 := by
  rw [basisMat, basisRow]
  simp [h]

theorem basisCube_odd {slack degree : Nat} (h : degree % 2 = 1) : ∀ (nodes : List (List ℝ)) (fourier : List Nat) (k : Nat),
    fourier[k]? = some 1 → nodes.getD k [] ≠ [] → ∀ r, basisCube slack degree nodes fourier ≠ .ok r
  | [], _, k, _, hn, _, _ => by simp at hn
  | _ :: _, [], k, hf, _, _, _ => by simp at hf
  | n :: ns, f :: fs, 0, hf, hn, r, e => by
    simp only [List.getElem?_cons_zero, Option.some.injEq] at hf
    simp only [List.getD_cons_zero] at hn
    subst hf
    obtain ⟨x, xs, rfl⟩ := List.exists_cons_of_ne_nil hn
    rw [basisCube, basisMat_odd h] at e
    simp at e
  | n :: ns, f :: fs, k + 1, hf, hn, r, e => by
    rw [basisCube] at e
    obtain ⟨b, -, e⟩ := Out.bind_ok e
    obtain ⟨c, e, -⟩ := Out.bind_ok e
    exact basisCube_odd h ns fs k (by simpa using hf) (by simpa using hn) c e

theorem transform_odd {slack degree : Nat} (h : degree % 2 = 1) (s : IndexSet) (input : List ℝ) (nodes weights : List (List ℝ))
    (fourier : List Nat) (forward : Bool) (k : Nat) (hf : fourier[k]? = some 1) (hn : nodes.getD k [] ≠ []) (r : List ℝ) :
    transform slack s degree input nodes weights fourier forward ≠ .ok r := by
  intro e
  rw [transform] at e
  obtain ⟨n, -, e⟩ := Out.bind_ok e
  obtain ⟨c, e, -⟩ := Out.bind_ok e
  exact basisCube_odd h nodes fourier k hf hn c e

theorem basisCube_hermite_zero : ∀ (nodes : List (List ℝ)) (fourier : List Nat), fourier.length = nodes.length →
    (∀ n ∈ nodes, n ≠ []) → (∀ f ∈ fourier, f = 0 ∨ f = 1) → 0 ∈ fourier → basisCube 0 0 nodes fourier = .ub
  | [], f, hl, _, _, h => by
    obtain rfl : f = [] := by simpa using hl
    simp at h
  | _ :: _, [], hl, _, _, _ => by simp at hl
  | n :: ns, f :: fs, hl, hn, hf, h => by
    rw [basisCube]
    rcases hf f (by simp) with rfl | rfl
    · obtain ⟨x, xs, rfl⟩ := List.exists_cons_of_ne_nil (hn n (by simp))
      rw [basisMat, basisRow]
      simp only [if_true]
      rw [hermite_eval_zero x (by simp)]
      rfl
    · rw [basisMat_ok ⟨le_rfl, by simp, by simp⟩, basisCube_hermite_zero ns fs (by simpa using hl)
        (fun m hm => hn m (by simp [hm])) (fun m hm => hf m (by simp [hm])) (by simpa using h)]
      rfl

theorem triangle_zero {dim : Nat} (hd : 1 ≤ dim) : Sized .triangle dim 0 ∧ IterOk .triangle dim 0 [List.replicate dim 0] := by
  have hf : Fits .triangle dim 0 := ⟨hd, by simp⟩
  obtain ⟨L, hL⟩ := iterOk_exists hf
  have hmem : ∀ m, m ∈ L ↔ m ∈ [List.replicate dim 0] := by
    intro m
    rw [hL.mem]
    simp only [InSet, InTriangle, List.mem_singleton, List.eq_replicate_iff]
    refine and_congr_right fun _ => ?_
    rw [Nat.le_zero, List.sum_eq_zero_iff]
  have hlen : L = [List.replicate dim 0] := by
    have hp : L.Perm [List.replicate dim 0] := (List.perm_ext_iff_of_nodup hL.nodup (by simp)).2 hmem
    exact List.perm_singleton.1 hp
  subst hlen
  exact ⟨⟨hd, by simp, _, hL.list, by simp⟩, hL⟩

theorem integrate_ok {slack : Nat} {nodes weights : List (List ℝ)} {fourier : List Nat} (hg : Spec.Grid nodes fourier)
    (hs : 0 ∈ fourier → 1 ≤ slack) (hw : weights.map List.length = nodes.map List.length) {f : List ℝ}
    (hf : f.length = (gridPoints nodes).length) :
    integrate slack f nodes weights fourier = .ok (quadrature nodes weights fun i _ => f.getD i 0) := by
  have hd : 1 ≤ nodes.length := List.length_pos_iff.2 hg.dim_pos
  obtain ⟨hz, hL⟩ := triangle_zero hd
  rw [integrate, transform_forward_ok hz hg ⟨by simp, fun h => Or.inr (hs h), by simp⟩ hw hL hf]
  simp only [Out.ok_bind, List.map_cons, List.map_nil, rd_zero_cons]
  congr 1
  have hb : ∀ p, basis nodes.length fourier (List.replicate nodes.length 0) p =
      ∏ k ∈ Finset.range nodes.length, if fourier.getD k 0 = 1 then 1 / √(2 * Real.pi) else 1 := by
    intro p
    rw [basis]
    apply Finset.prod_congr rfl
    intro k hk
    rw [phi]
    have : (List.replicate nodes.length 0).getD k 0 = 0 := by simp [Finset.mem_range.1 hk]
    rw [this, trig_zero, herm_zero]
  have hfac : ∀ (l : List Nat) (t : ℝ), l.foldl (fun t f => t * (if f = 1 then √(2 * Real.pi) else 1)) t =
      t * (l.map fun f => if f = 1 then √(2 * Real.pi) else 1).prod := by
    intro l
    induction l with
    | nil => simp
    | cons a l ih => intro t; rw [List.foldl_cons, ih, List.map_cons, List.prod_cons, mul_assoc]
  have hprod : (fourier.map fun f => if f = 1 then √(2 * Real.pi) else 1).prod =
      ∏ k ∈ Finset.range nodes.length, if fourier.getD k 0 = 1 then √(2 * Real.pi) else 1 := by
    rw [list_prod_getD, List.length_map, hg.flags.1]
    apply Finset.prod_congr rfl
    intro k hk
    have : k < fourier.length := by rw [hg.flags.1]; exact Finset.mem_range.1 hk
    simp [this]
  have hone : (∏ k ∈ Finset.range nodes.length, if fourier.getD k 0 = 1 then √(2 * Real.pi) else 1) *
      (∏ k ∈ Finset.range nodes.length, if fourier.getD k 0 = 1 then 1 / √(2 * Real.pi) else 1) = 1 := by
    rw [← Finset.prod_mul_distrib]
    apply Finset.prod_eq_one
    intro k _
    by_cases h : fourier.getD k 0 = 1
    · rw [if_pos h, if_pos h]
      have : √(2 * Real.pi) ≠ 0 := (Real.sqrt_pos.2 (by positivity)).ne'
      field_simp
    · rw [if_neg h, if_neg h, one_mul]
  rw [hfac, one_mul, hprod, quadrature, quadrature, Finset.mul_sum]
  apply Finset.sum_congr rfl
  intro i _
  rw [hb]
  linear_combination (gridWeights weights).getD i 0 * f.getD i 0 * hone

theorem integrate_hermite_ub {nodes weights : List (List ℝ)} {fourier : List Nat} (hg : Spec.Grid nodes fourier)
    (h0 : 0 ∈ fourier) (f : List ℝ) : integrate 0 f nodes weights fourier = .ub := by
  have hd : 1 ≤ nodes.length := List.length_pos_iff.2 hg.dim_pos
  obtain ⟨hz, hL⟩ := triangle_zero hd
  have hsize := hL.size hd (by simp [u32])
  rw [integrate, transform, hsize]
  simp only [Out.ok_bind]
  rw [basisCube_hermite_zero nodes fourier hg.flags.1 hg.nodes_pos hg.flags.2 h0]
  rfl

/-! ## Blocks of a grid -/

theorem Spec.Grid.sub {nodes : List (List ℝ)} {fourier : List Nat} (hg : Spec.Grid nodes fourier) {b : List Nat} (hne : b ≠ [])
    (hnd : b.Nodup) (hb : ∀ k ∈ b, k < nodes.length) : Spec.Grid (sub [] b nodes) (sub 0 b fourier) := by
  refine ⟨by simpa [Spec.sub] using hne, ?_, ⟨by simp [Spec.sub], ?_⟩, ?_⟩
  · intro n hn
    obtain ⟨k, hk, rfl⟩ := List.mem_map.1 hn
    have := hb k hk
    apply hg.nodes_pos
    simp [this]
  · intro n hn
    obtain ⟨k, hk, rfl⟩ := List.mem_map.1 hn
    have : k < fourier.length := by rw [hg.flags.1]; exact hb k hk
    apply hg.flags.2
    simp [this]
  · refine lt_of_le_of_lt ?_ hg.small
    have e1 : (gridPoints nodes).length = (nodes.map List.length).prod := length_cartesian nodes
    have e2 : (gridPoints (Spec.sub [] b nodes)).length = (restrict b (nodes.map List.length)).prod := by
      rw [gridPoints, length_cartesian, sub_lengths]
    rw [e1, e2, restrict]
    obtain ⟨n, hn⟩ : ∃ n, n = nodes.map List.length := ⟨_, rfl⟩
    have hn1 : ∀ k < n.length, 1 ≤ n.getD k 0 := by
      intro k hk
      have hm : n.getD k 0 ∈ n := by simp [hk]
      rw [hn] at hm
      obtain ⟨x, hx, hxe⟩ := List.mem_map.1 hm
      rw [hn, ← hxe]
      exact List.length_pos_iff.2 (hg.nodes_pos x hx)
    have e3 : n.prod = ((List.range n.length).map fun k => n.getD k 0).prod := by
      rw [range_map_getD]
    rw [← hn, e3]
    have hsub : b.toFinset ⊆ (List.range n.length).toFinset := by
      intro k hk
      simp only [List.mem_toFinset, List.mem_range] at hk ⊢
      rw [hn]
      simpa using hb k hk
    rw [← List.prod_toFinset _ hnd, ← List.prod_toFinset _ List.nodup_range]
    apply Finset.prod_le_prod_of_subset_of_one_le' hsub
    intro k hk _
    exact hn1 k (by simpa using hk)

theorem Spec.DegreeOk.sub {slack : Nat} {s : IndexSet} {degree : Nat} {fourier : List Nat} (h : DegreeOk slack s degree fourier)
    {b : List Nat} (hb : ∀ k ∈ b, k < fourier.length) : DegreeOk slack s degree (sub 0 b fourier) := by
  have hm : ∀ f ∈ Spec.sub 0 b fourier, f ∈ fourier := by
    intro f hf
    obtain ⟨k, hk, rfl⟩ := List.mem_map.1 hf
    have := hb k hk
    simp [this]
  exact ⟨fun h1 => h.even (hm _ h1), fun h1 => h.hermite (hm _ h1), h.cross⟩

end Hermipy
