import Verif.Lemmas.Chain
import Mathlib.Data.Set.Finite.Lattice

/-! # Colexicographic order: the entry with the highest position is the most significant -/

namespace Hermipy

/-- Strict colexicographic order (position 0 is least significant). -/
def colexLt : IVec → IVec → Prop
  | a :: l, b :: l' => colexLt l l' ∨ (l = l' ∧ a < b)
  | _, _ => False

theorem colexLt_irrefl : ∀ l, ¬ colexLt l l
  | [] => by simp [colexLt]
  | a :: l => by simp [colexLt, colexLt_irrefl l]

theorem colexLt_trans : ∀ {x y z}, colexLt x y → colexLt y z → colexLt x z
  | [], _, _, h, _ => by simp [colexLt] at h
  | _ :: _, [], _, h, _ => by simp [colexLt] at h
  | _ :: _, _ :: _, [], _, h => by simp [colexLt] at h
  | a :: x, b :: y, c :: z, h, h' => by
    simp only [colexLt] at *
    rcases h with h | ⟨rfl, h⟩ <;> rcases h' with h' | ⟨rfl, h'⟩
    · exact Or.inl (colexLt_trans h h')
    · exact Or.inl h
    · exact Or.inl h'
    · exact Or.inr ⟨rfl, by omega⟩

theorem colexLt_total : ∀ {x y : IVec}, x.length = y.length → colexLt x y ∨ x = y ∨ colexLt y x
  | [], [], _ => by simp
  | [], _ :: _, h => by simp at h
  | _ :: _, [], h => by simp at h
  | a :: x, b :: y, h => by
    simp at h
    simp only [colexLt]
    rcases colexLt_total h with h | rfl | h
    · exact Or.inl (Or.inl h)
    · rcases Nat.lt_trichotomy a b with h | rfl | h
      · exact Or.inl (Or.inr ⟨rfl, h⟩)
      · exact Or.inr (Or.inl rfl)
      · exact Or.inr (Or.inr (Or.inr ⟨rfl, h⟩))
    · exact Or.inr (Or.inr (Or.inl h))

theorem colexLt_asymm {x y : IVec} (h : colexLt x y) : ¬ colexLt y x :=
  fun h' => colexLt_irrefl _ (colexLt_trans h h')

theorem colexLt_length : ∀ {x y : IVec}, colexLt x y → x ≠ [] ∧ y ≠ []
  | [], _, h => by simp [colexLt] at h
  | _ :: _, [], h => by simp [colexLt] at h
  | _ :: _, _ :: _, _ => by simp

theorem colexLt_append : ∀ {u u' v v' : IVec}, u.length = u'.length →
    (colexLt (u ++ v) (u' ++ v') ↔ colexLt v v' ∨ (v = v' ∧ colexLt u u'))
  | [], [], v, v', _ => by simp [colexLt]
  | [], _ :: _, _, _, h => by simp at h
  | _ :: _, [], _, _, h => by simp at h
  | a :: u, b :: u', v, v', h => by
    simp only [List.length_cons, Nat.add_right_cancel_iff] at h
    simp only [List.cons_append, colexLt, colexLt_append h]
    have hinj : (u ++ v = u' ++ v') ↔ (u = u' ∧ v = v') :=
      ⟨fun e => List.append_inj e h, fun e => by rw [e.1, e.2]⟩
    rw [hinj]
    constructor
    · rintro ((h1 | ⟨rfl, h1⟩) | ⟨⟨rfl, rfl⟩, h1⟩)
      · exact Or.inl h1
      · exact Or.inr ⟨rfl, Or.inl h1⟩
      · exact Or.inr ⟨rfl, Or.inr ⟨rfl, h1⟩⟩
    · rintro (h1 | ⟨rfl, h1 | ⟨rfl, h1⟩⟩)
      · exact Or.inl (Or.inl h1)
      · exact Or.inl (Or.inr ⟨rfl, h1⟩)
      · exact Or.inr ⟨⟨rfl, rfl⟩, h1⟩

/-- Nothing of the same length is below the zero vector. -/
theorem not_colexLt_zero : ∀ {x : IVec} {k : Nat}, ¬ colexLt x (List.replicate k 0)
  | [], k => by simp [colexLt]
  | a :: x, 0 => by simp [colexLt]
  | a :: x, k + 1 => by
    simp [List.replicate_succ, colexLt]
    exact not_colexLt_zero

/-- Finiteness of bounded boxes of vectors. -/
theorem finite_bounded (n d : Nat) : {x : IVec | x.length = n ∧ ∀ a ∈ x, a ≤ d}.Finite := by
  induction n with
  | zero =>
    refine (Set.finite_singleton ([] : IVec)).subset ?_
    rintro x ⟨hx, _⟩
    simpa using hx
  | succ n ih =>
    refine ((Set.finite_le_nat d).image2 (fun a l => a :: l) ih).subset ?_
    rintro x ⟨hx, hb⟩
    match x, hx with
    | a :: l, hx =>
      refine ⟨a, hb a (by simp), l, ⟨by simpa using hx, fun b hb' => hb b (by simp [hb'])⟩, rfl⟩

end Hermipy
