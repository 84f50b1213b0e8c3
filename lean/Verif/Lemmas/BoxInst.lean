import Verif.Lemmas.Box
import Verif.Spec.IndexSets

/-! # Cube and rectangle as instances of the generic box -/

namespace Hermipy

theorem Cube.scanMax_eq : ∀ (m : IVec) (i max ind : Nat),
    Cube.scanMax m i max ind = Rectangle.scanMax (List.replicate m.length 1) m i max ind
  | [], _, _, _ => by simp [Cube.scanMax, Rectangle.scanMax]
  | x :: xs, i, max, ind => by
    simp only [Cube.scanMax, List.length_cons, List.replicate_succ, Rectangle.scanMax, Nat.mul_one, Cube.scanMax_eq xs]

theorem Cube.bump_eq (max ind : Nat) : ∀ (m : IVec) (i : Nat),
    Cube.bump max ind i m = Rectangle.bump max ind (List.replicate m.length 1) i m
  | [], _ => by simp [Cube.bump, Rectangle.bump]
  | x :: xs, i => by
    simp only [Cube.bump, List.length_cons, List.replicate_succ, Rectangle.bump, Nat.mul_one, Cube.bump_eq max ind xs]

theorem wr_wr_same {l l' : IVec} {i c d : Nat} (h : wr l i c = .ok l') : wr l' i d = wr l i d := by
  unfold wr at h ⊢
  split at h
  · rename_i hi
    simp at h
    subst h
    simp [hi]
  · simp at h

theorem Cube.s_increment_eq (m : IVec) (degree : Nat) (hm : m ≠ []) :
    Cube.s_increment m degree = Box.inc (List.replicate m.length 1) m degree := by
  have htop := (top_good (fs := List.replicate m.length 1) (m := m) (by simp) hm)
  unfold top at htop
  rw [Cube.s_increment, Box.inc]
  simp only [Cube.scanMax_eq, Cube.bump_eq]
  generalize Rectangle.scanMax (List.replicate m.length 1) m 0 0 0 = mi at htop
  generalize Rectangle.bump mi.1 mi.2 (List.replicate m.length 1) 0 m = r
  have hlt : mi.2 < m.length := by
    rcases htop with ⟨-, h⟩
    first | exact h | exact h.2
  have hlen : m.length ≠ 0 := by simpa using hm
  split
  · rfl
  · split
    · rfl
    · rename_i hne
      obtain ⟨k, hk⟩ : ∃ k, m.length - (mi.2 + 1) = k + 1 := ⟨m.length - (mi.2 + 1) - 1, by omega⟩
      have hrd : rd (List.replicate m.length 1) (mi.2 + 1) = .ok 1 := by
        rw [rd_of_lt (by simp; omega)]; simp
      rw [hk, Rectangle.findNext]
      simp only [hrd, Out.ok_bind, Nat.mod_one, ne_eq, not_true_eq_false, if_false]
      simp only [show mi.2 + 1 < m.length by omega, if_true]
      cases hw : wr r.2 mi.2 0 with
      | ok m1 =>
        simp only [Out.ok_bind, Nat.div_one, wr_wr_same hw, hw]
      | stop s => simp
      | diverge => simp

theorem allLe_ones {d : Nat} : ∀ {m : IVec} {n : Nat}, AllLe d (List.replicate n 1) m ↔ (m.length = n ∧ ∀ x ∈ m, x ≤ d)
  | [], 0 => by simp [AllLe]
  | [], n + 1 => by simp [AllLe, List.replicate_succ]
  | x :: m, 0 => by simp [AllLe]
  | x :: m, n + 1 => by
    have := allLe_ones (d := d) (m := m) (n := n)
    simp only [AllLe] at this ⊢
    simp [List.replicate_succ, this]
    tauto

theorem Cube.isSucc (dim degree : Nat) (hd : 1 ≤ dim) :
    IsSucc (Spec.InCube dim degree) (boxLt (List.replicate dim 1)) (fun m => Cube.s_increment m degree) := by
  have h := Box.isSucc (List.replicate dim 1) degree (by simp; omega) (by simp)
    (by rw [List.getElem?_eq_getElem (by simp; omega)]; simp)
  intro m hm
  have hm' := hm
  rw [Spec.InCube, ← allLe_ones] at hm'
  have hne : m ≠ [] := by rw [← List.length_pos_iff, hm.1]; omega
  have := h m hm'
  simp only [allLe_ones] at this
  beta_reduce
  rw [Cube.s_increment_eq m degree hne, hm.1]
  exact this

theorem finite_cube (dim degree : Nat) : {x | Spec.InCube dim degree x}.Finite := finite_bounded dim degree

theorem Rectangle.factors_succ (n : Nat) : Rectangle.factors (n + 1) = 1 :: List.replicate n 2 := by
  simp [Rectangle.factors, List.range_succ_eq_map, List.map_map]
  apply List.ext_getElem <;> simp

theorem allLe_twos {d : Nat} : ∀ {m : IVec} {n : Nat}, AllLe d (List.replicate n 2) m ↔ (m.length = n ∧ ∀ x ∈ m, x ≤ d / 2)
  | [], 0 => by simp [AllLe]
  | [], n + 1 => by simp [AllLe, List.replicate_succ]
  | x :: m, 0 => by simp [AllLe]
  | x :: m, n + 1 => by
    have := allLe_twos (d := d) (m := m) (n := n)
    simp only [AllLe] at this ⊢
    simp [List.replicate_succ, this]
    have : x * 2 ≤ d ↔ x ≤ d / 2 := by omega
    tauto

theorem inRectangle_cons {n degree x : Nat} {m : IVec} :
    Spec.InRectangle (n + 1) degree (x :: m) ↔ (x ≤ degree ∧ m.length = n ∧ ∀ y ∈ m, y ≤ degree / 2) := by
  simp only [Spec.InRectangle, List.length_cons, Nat.add_right_cancel_iff]
  constructor
  · rintro ⟨h1, h2⟩
    refine ⟨by simpa using h2 0 (by simp), h1, fun y hy => ?_⟩
    obtain ⟨i, hi, rfl⟩ := List.getElem_of_mem hy
    have := h2 (i + 1) (Nat.succ_lt_succ hi)
    rw [if_neg (by omega)] at this
    exact this
  · rintro ⟨h1, h2, h3⟩
    refine ⟨h2, fun i hi => ?_⟩
    cases i with
    | zero => simpa using h1
    | succ i =>
      rw [if_neg (by omega)]
      exact h3 _ (List.getElem_mem (Nat.lt_of_succ_lt_succ hi))

theorem allLe_factors {degree n : Nat} {m : IVec} (hn : 1 ≤ n) :
    AllLe degree (Rectangle.factors n) m ↔ Spec.InRectangle n degree m := by
  obtain ⟨n, rfl⟩ : ∃ k, n = k + 1 := ⟨n - 1, by omega⟩
  rw [Rectangle.factors_succ]
  cases m with
  | nil => simp [AllLe, Spec.InRectangle]
  | cons x m =>
    rw [inRectangle_cons, ← allLe_twos]
    simp [AllLe]

theorem Rectangle.isSucc (dim degree : Nat) (hd : 1 ≤ dim) :
    IsSucc (Spec.InRectangle dim degree) (boxLt (Rectangle.factors dim)) (fun m => Rectangle.s_increment m degree) := by
  have hfac : Rectangle.factors dim = 1 :: List.replicate (dim - 1) 2 := by
    rw [← Rectangle.factors_succ]; congr 1; omega
  have h := Box.isSucc (Rectangle.factors dim) degree (by simp [hfac])
    (by rw [hfac]; intro f hf; simp at hf; omega) (by rw [hfac]; rfl)
  intro m hm
  have := h m ((allLe_factors hd).2 hm)
  simp only [allLe_factors hd] at this
  beta_reduce
  rw [Rectangle.s_increment_eq, hm.1]
  exact this

theorem finite_rectangle (dim degree : Nat) : {x | Spec.InRectangle dim degree x}.Finite :=
  (finite_bounded dim degree).subset (fun x hx => ⟨hx.1, fun a ha => by
    obtain ⟨i, hi, rfl⟩ := List.getElem_of_mem ha
    have := hx.2 i hi
    split at this <;> omega⟩)

end Hermipy
