import Verif.Model.Varf
import Verif.Lemmas.HermiteEval
import Mathlib.Tactic.Ring

/-! # Three-dimensional tables as functions -/

namespace Hermipy

/-- The `A × B × B` table of the values of `f`. -/
def cubeOf {α : Type} (A B : Nat) (f : Nat → Nat → Nat → α) : List (List (List α)) :=
  (List.range A).map fun k => (List.range B).map fun i => (List.range B).map fun j => f k i j

/-- `f` with the value at one position replaced. -/
def upd {α : Type} (f : Nat → Nat → Nat → α) (k i j : Nat) (v : α) : Nat → Nat → Nat → α :=
  fun a b c => if a = k ∧ b = i ∧ c = j then v else f a b c

theorem rd_map_range {β : Type} {n i : Nat} (g : Nat → β) (h : i < n) : rd ((List.range n).map g) i = .ok (g i) := by
  rw [rd_of_lt (by simpa using h)]
  simp

theorem set_map_range {β : Type} {n i : Nat} (g : Nat → β) (v : β) :
    ((List.range n).map g).set i v = (List.range n).map fun a => if a = i then v else g a := by
  apply List.ext_getElem (by simp)
  intro a h1 h2
  rw [List.getElem_set]
  simp only [List.getElem_map, List.getElem_range]
  by_cases h : i = a
  · rw [if_pos h, if_pos h.symm]
  · rw [if_neg h, if_neg (fun e => h e.symm)]

theorem wr_map_range {β : Type} {n i : Nat} (g : Nat → β) (v : β) (h : i < n) :
    wr ((List.range n).map g) i v = .ok ((List.range n).map fun a => if a = i then v else g a) := by
  rw [wr_of_lt (by simpa using h), set_map_range]

theorem cubeOf_congr {α : Type} {A B : Nat} {f g : Nat → Nat → Nat → α} (h : ∀ k i j, k < A → i < B → j < B → f k i j = g k i j) :
    cubeOf A B f = cubeOf A B g := by
  refine List.map_congr_left fun k hk => List.map_congr_left fun i hi => List.map_congr_left fun j hj => ?_
  exact h k i j (List.mem_range.1 hk) (List.mem_range.1 hi) (List.mem_range.1 hj)

theorem rd3_cubeOf {α : Type} {A B k i j : Nat} {f : Nat → Nat → Nat → α} (hk : k < A) (hi : i < B) (hj : j < B) :
    rd3 (cubeOf A B f) k i j = .ok (f k i j) := by
  rw [rd3, cubeOf, rd_map_range _ hk, Out.ok_bind, rd_map_range _ hi, Out.ok_bind, rd_map_range _ hj]

theorem wr3_cubeOf {α : Type} {A B k i j : Nat} {f : Nat → Nat → Nat → α} (hk : k < A) (hi : i < B) (hj : j < B) (v : α) :
    wr3 (cubeOf A B f) k i j v = .ok (cubeOf A B (upd f k i j v)) := by
  rw [wr3, cubeOf, rd_map_range _ hk, Out.ok_bind, rd_map_range _ hi, Out.ok_bind, wr_map_range _ _ hj, Out.ok_bind,
    wr_map_range _ _ hi, Out.ok_bind, wr_map_range _ _ hk]
  congr 1
  refine List.map_congr_left fun a _ => ?_
  by_cases ha : a = k
  · subst ha
    rw [if_pos rfl]
    refine List.map_congr_left fun b _ => ?_
    by_cases hb : b = i
    · subst hb
      rw [if_pos rfl]
      refine List.map_congr_left fun c _ => ?_
      simp [upd]
    · rw [if_neg hb]
      refine List.map_congr_left fun c _ => ?_
      simp [upd, hb]
  · rw [if_neg ha]
    refine List.map_congr_left fun b _ => List.map_congr_left fun c _ => ?_
    simp [upd, ha]

theorem add3_cubeOf {α : Type} [Add α] {A B k i j : Nat} {f : Nat → Nat → Nat → α} (hk : k < A) (hi : i < B) (hj : j < B) (v : α) :
    add3 (cubeOf A B f) k i j v = .ok (cubeOf A B (upd f k i j (f k i j + v))) := by
  rw [add3, rd3_cubeOf hk hi hj, Out.ok_bind, wr3_cubeOf hk hi hj]

theorem zeroCube_eq {α : Type} [Zero α] (n : Nat) : zeroCube n = cubeOf (2 * n + 1) (n + 1) fun _ _ _ => (0 : α) := by
  simp [zeroCube, cubeOf]

theorem forFrom_empty {σ : Type} {a b : Nat} (h : b ≤ a) (acc : σ) (body : Nat → σ → Out σ) : forFrom a b acc body = .ok acc := by
  rw [forFrom, Nat.sub_eq_zero_of_le h]
  rfl

/-- A loop that adds `g k` to the entries `(k, i, j)`, `lo ≤ k < hi`, where adding zero may change a number. -/
theorem kloop' {α : Type} [Add α] {A B : Nat} {f : Nat → Nat → Nat → α} {lo hi i j : Nat} {g : Nat → α}
    {body : Nat → List (List (List α)) → Out (List (List (List α)))} (hA : lo < hi → hi ≤ A) (hi' : i < B) (hj : j < B)
    (hb : ∀ k f', lo ≤ k → k < hi → (∀ a b c, ¬(b = i ∧ c = j) → f' a b c = f a b c) →
      body k (cubeOf A B f') = add3 (cubeOf A B f') k i j (g k)) :
    forFrom lo hi (cubeOf A B f) body =
      .ok (cubeOf A B fun a b c => if b = i ∧ c = j ∧ lo ≤ a ∧ a < hi then f a b c + g a else f a b c) := by
  by_cases hlh : hi ≤ lo
  · rw [forFrom_empty hlh]
    congr 2
    funext a b c
    rw [if_neg (by omega)]
  · push Not at hlh
    obtain ⟨s, e, hs⟩ := forFrom_inv (a := lo) (b := hi) (acc := cubeOf A B f) (body := body)
      (fun n s => s = cubeOf A B fun a b c => if b = i ∧ c = j ∧ lo ≤ a ∧ a < n then f a b c + g a else f a b c)
      hlh.le (by
        congr 1
        funext a b c
        rw [if_neg (by omega)]) (by
        rintro k s h1 h2 rfl
        rw [hb k _ h1 h2 (by
          intro a b c h
          rw [if_neg (by rintro ⟨h3, h4, -⟩; exact h ⟨h3, h4⟩)]), add3_cubeOf (by have := hA hlh; omega) hi' hj]
        refine ⟨_, rfl, ?_⟩
        congr 1
        funext a b c
        rw [upd]
        by_cases h : a = k ∧ b = i ∧ c = j
        · obtain ⟨rfl, rfl, rfl⟩ := h
          rw [if_pos ⟨rfl, rfl, rfl⟩, if_neg (by omega), if_pos (by omega)]
        · rw [if_neg h]
          by_cases h5 : b = i ∧ c = j ∧ lo ≤ a ∧ a < k
          · rw [if_pos h5, if_pos (by omega)]
          · rw [if_neg h5, if_neg (by omega)])
    rw [e, hs]

/-- A loop that adds `g k` to the entries `(k, i, j)`, `lo ≤ k < hi`. -/
theorem kloop {A B : Nat} {f : Nat → Nat → Nat → ℝ} {lo hi i j : Nat} {g : Nat → ℝ}
    {body : Nat → List (List (List ℝ)) → Out (List (List (List ℝ)))} (hA : lo < hi → hi ≤ A) (hi' : i < B) (hj : j < B)
    (hb : ∀ k f', lo ≤ k → k < hi → (∀ a b c, ¬(b = i ∧ c = j) → f' a b c = f a b c) →
      body k (cubeOf A B f') = add3 (cubeOf A B f') k i j (g k)) :
    forFrom lo hi (cubeOf A B f) body =
      .ok (cubeOf A B fun a b c => f a b c + if b = i ∧ c = j ∧ lo ≤ a ∧ a < hi then g a else 0) := by
  by_cases hlh : hi ≤ lo
  · rw [forFrom_empty hlh]
    congr 2
    funext a b c
    rw [if_neg (by omega), add_zero]
  · push Not at hlh
    obtain ⟨s, e, hs⟩ := forFrom_inv (a := lo) (b := hi) (acc := cubeOf A B f) (body := body)
      (fun n s => s = cubeOf A B fun a b c => f a b c + if b = i ∧ c = j ∧ lo ≤ a ∧ a < n then g a else 0)
      hlh.le (by
        congr 1
        funext a b c
        rw [if_neg (by omega), add_zero]) (by
        rintro k s h1 h2 rfl
        rw [hb k _ h1 h2 (by
          intro a b c h
          rw [if_neg (by rintro ⟨h3, h4, -⟩; exact h ⟨h3, h4⟩), add_zero]), add3_cubeOf (by have := hA hlh; omega) hi' hj]
        refine ⟨_, rfl, ?_⟩
        congr 1
        funext a b c
        rw [upd]
        by_cases h : a = k ∧ b = i ∧ c = j
        · obtain ⟨rfl, rfl, rfl⟩ := h
          rw [if_pos ⟨rfl, rfl, rfl⟩, if_neg (by omega), if_pos (by omega), add_zero]
        · rw [if_neg h]
          congr 1
          by_cases h5 : b = i ∧ c = j ∧ lo ≤ a ∧ a < k
          · rw [if_pos h5, if_pos (by omega)]
          · rw [if_neg h5, if_neg (by omega)])
    rw [e, hs]

end Hermipy
