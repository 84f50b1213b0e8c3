import Verif.Lemmas.Enum
import Mathlib.Tactic.Ring
import Mathlib.Data.List.Perm.Basic

/-! # Number of elements of the index sets -/

namespace Hermipy

/-- All vectors with `mᵢ < bᵢ`, first entry slowest. -/
def boxList : IVec → List IVec
  | [] => [[]]
  | b :: bs => (List.range b).flatMap (fun a => (boxList bs).map (fun m => a :: m))

theorem mem_boxList : ∀ {bs m : IVec}, m ∈ boxList bs ↔ List.Forall₂ (· < ·) m bs
  | [], m => by simp [boxList]
  | b :: bs, m => by
    simp only [boxList, List.mem_flatMap, List.mem_range, List.mem_map]
    constructor
    · rintro ⟨a, ha, m', hm', rfl⟩
      exact List.Forall₂.cons ha (mem_boxList.1 hm')
    · intro h
      cases h with
      | cons h1 h2 => exact ⟨_, h1, _, mem_boxList.2 h2, rfl⟩

theorem nodup_flatMap_cons {n : Nat} {g : Nat → List IVec} (h : ∀ a, (g a).Nodup) :
    ((List.range n).flatMap (fun a => (g a).map (fun m => a :: m))).Nodup := by
  rw [List.nodup_flatMap]
  refine ⟨fun a _ => (h a).map (fun x y hxy => by simpa using hxy), ?_⟩
  refine List.nodup_range.imp ?_
  intro a b hab
  rw [Function.onFun, List.disjoint_left]
  intro m h1 h2
  simp at h1 h2
  obtain ⟨x, _, rfl⟩ := h1
  obtain ⟨y, _, h3⟩ := h2
  simp at h3
  exact hab h3.1.symm

theorem nodup_boxList : ∀ (bs : IVec), (boxList bs).Nodup
  | [] => by simp [boxList]
  | b :: bs => by
    rw [boxList]
    exact nodup_flatMap_cons (g := fun _ => boxList bs) (fun _ => nodup_boxList bs)

theorem length_boxList : ∀ (bs : IVec), (boxList bs).length = bs.prod
  | [] => by simp [boxList]
  | b :: bs => by simp [boxList, length_boxList bs, List.length_flatMap]

/-- All vectors of length `n` with sum at most `d`. -/
def triList : Nat → Nat → List IVec
  | 0, _ => [[]]
  | n + 1, d => (List.range (d + 1)).flatMap (fun a => (triList n (d - a)).map (fun m => a :: m))

theorem mem_triList : ∀ {n d : Nat} {m : IVec}, m ∈ triList n d ↔ (m.length = n ∧ m.sum ≤ d)
  | 0, d, m => by
    simp [triList]
    intro h; simp [h]
  | n + 1, d, m => by
    simp only [triList, List.mem_flatMap, List.mem_range, List.mem_map]
    constructor
    · rintro ⟨a, ha, m', hm', rfl⟩
      rw [mem_triList] at hm'
      simp; omega
    · rintro ⟨h1, h2⟩
      match m, h1 with
      | a :: m, h1 =>
        simp at h1 h2
        exact ⟨a, by omega, m, mem_triList.2 ⟨h1, by omega⟩, rfl⟩

theorem nodup_triList : ∀ (n d : Nat), (triList n d).Nodup
  | 0, d => by simp [triList]
  | n + 1, d => by
    rw [triList]
    exact nodup_flatMap_cons (g := fun a => triList n (d - a)) (fun a => nodup_triList n (d - a))

theorem sum_choose (n : Nat) : ∀ d : Nat,
    ((List.range (d + 1)).map (fun a => Nat.choose (d - a + n) n)).sum = Nat.choose (d + (n + 1)) (n + 1)
  | 0 => by simp
  | d + 1 => by
    rw [List.range_succ_eq_map, List.map_cons, List.sum_cons, List.map_map]
    have := sum_choose n d
    simp only [Function.comp_def, Nat.succ_eq_add_one, Nat.add_sub_add_right, Nat.sub_zero] at this ⊢
    rw [this, show d + 1 + (n + 1) = (d + 1 + n) + 1 by omega, Nat.choose_succ_succ, show d + (n + 1) = d + 1 + n by omega]

theorem length_triList : ∀ (n d : Nat), (triList n d).length = Nat.choose (d + n) n
  | 0, d => by simp [triList]
  | n + 1, d => by
    simp only [triList, List.length_flatMap, List.length_map, length_triList n]
    exact sum_choose n d

theorem length_eq_of_mem_iff {L L' : List IVec} (h : L.Nodup) (h' : L'.Nodup) (hm : ∀ m, m ∈ L ↔ m ∈ L') :
    L.length = L'.length := ((List.perm_ext_iff_of_nodup h h').2 hm).length_eq

theorem IterOk.length_triangle {dim degree : Nat} {L : List IVec} (h : IterOk .triangle dim degree L) :
    L.length = Nat.choose (degree + dim) dim := by
  rw [← length_triList]
  exact length_eq_of_mem_iff h.nodup (nodup_triList _ _) (fun m => by rw [h.mem, mem_triList]; rfl)

theorem forall₂_replicate {n b : Nat} : ∀ {m : IVec}, List.Forall₂ (· < ·) m (List.replicate n (b + 1)) ↔
    (m.length = n ∧ ∀ x ∈ m, x ≤ b) := by
  intro m
  induction m generalizing n with
  | nil => cases n <;> simp [List.replicate_succ]
  | cons a m ih =>
    cases n with
    | zero => simp
    | succ n =>
      simp [List.replicate_succ, ih, Nat.lt_succ_iff]
      tauto

theorem IterOk.length_cube {dim degree : Nat} {L : List IVec} (h : IterOk .cube dim degree L) :
    L.length = (degree + 1) ^ dim := by
  have := length_boxList (List.replicate dim (degree + 1))
  simp at this
  rw [← this]
  exact length_eq_of_mem_iff h.nodup (nodup_boxList _) (fun m => by rw [h.mem, mem_boxList, forall₂_replicate]; rfl)

theorem IterOk.length_rectangle {dim degree : Nat} (hd : 1 ≤ dim) {L : List IVec} (h : IterOk .rectangle dim degree L) :
    L.length = (degree + 1) * (degree / 2 + 1) ^ (dim - 1) := by
  have := length_boxList ((degree + 1) :: List.replicate (dim - 1) (degree / 2 + 1))
  simp at this
  rw [← this]
  refine length_eq_of_mem_iff h.nodup (nodup_boxList _) (fun m => ?_)
  rw [h.mem, mem_boxList]
  obtain ⟨n, rfl⟩ : ∃ k, dim = k + 1 := ⟨dim - 1, by omega⟩
  cases m with
  | nil => simp [Spec.InSet, Spec.InRectangle]
  | cons x m =>
    rw [Spec.InSet, inRectangle_cons]
    simp [forall₂_replicate, Nat.lt_succ_iff]

theorem foldl_size : ∀ (n degree p : Nat), p * (degree / 2 + 1) ^ n < u32 →
    (List.replicate n 2).foldl (fun r f => wrap32 (r * (1 + degree / f))) p = p * (degree / 2 + 1) ^ n
  | 0, _, p, _ => by simp
  | n + 1, degree, p, h => by
    rw [List.replicate_succ, List.foldl_cons]
    have e : p * (degree / 2 + 1) ^ (n + 1) = p * (1 + degree / 2) * (degree / 2 + 1) ^ n := by
      rw [Nat.pow_succ, Nat.add_comm 1]; ring
    rw [e] at h ⊢
    have h1 : p * (1 + degree / 2) < u32 :=
      lt_of_le_of_lt (Nat.le_mul_of_pos_right _ (Nat.pow_pos (by omega))) h
    rw [show wrap32 (p * (1 + degree / 2)) = p * (1 + degree / 2) from Nat.mod_eq_of_lt h1]
    exact foldl_size n degree _ h

/-- The reported size is the number of listed elements. -/
theorem IterOk.size {s : IndexSet} {dim degree : Nat} (hd : 1 ≤ dim) {L : List IVec} (h : IterOk s dim degree L)
    (hL : L.length < u32) : s.s_size dim degree = .ok L.length := by
  cases s
  · rw [h.length_triangle] at hL ⊢
    simp [IndexSet.s_size, Triangle.s_size, toU32, hL]
  · rw [h.length_cube] at hL ⊢
    simp [IndexSet.s_size, Cube.s_size, toU32, hL]
  · simp [IndexSet.s_size, h.iter, wrap32, freshIter, Nat.mod_eq_of_lt hL]
  · simp [IndexSet.s_size, h.iter, wrap32, freshIter, Nat.mod_eq_of_lt hL]
  · rw [h.length_rectangle hd] at hL ⊢
    have hfac : Rectangle.factors dim = 1 :: List.replicate (dim - 1) 2 := by
      rw [← Rectangle.factors_succ]; congr 1; omega
    simp only [IndexSet.s_size, Rectangle.s_size, hfac, List.foldl_cons]
    have h1 : degree + 1 < u32 :=
      lt_of_le_of_lt (Nat.le_mul_of_pos_right _ (Nat.pow_pos (by omega))) hL
    have h2 : wrap32 (1 * (1 + degree / 1)) = degree + 1 := by
      rw [Nat.one_mul, Nat.div_one, Nat.add_comm]; exact Nat.mod_eq_of_lt h1
    rw [h2, foldl_size _ _ _ hL]

end Hermipy
