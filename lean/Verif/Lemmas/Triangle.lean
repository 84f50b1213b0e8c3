import Verif.Lemmas.Colex
import Verif.Spec.IndexSets

/-! # The triangle increment is the successor for (sum, reversed colex) -/

namespace Hermipy

theorem zeros_or_first (t : IVec) :
    t = List.replicate t.length 0 ∨ ∃ k b r, t = List.replicate k 0 ++ (b + 1) :: r := by
  induction t with
  | nil => simp
  | cons x t ih =>
    cases x with
    | succ b => exact Or.inr ⟨0, b, t, by simp⟩
    | zero =>
      rcases ih with ih | ⟨k, b, r, ih⟩
      · left; simp only [List.length_cons, List.replicate_succ]; rw [← ih]
      · right; exact ⟨k + 1, b, r, by rw [ih, List.replicate_succ]; rfl⟩

theorem zeros_append_zero (k : Nat) (l : IVec) :
    List.replicate k 0 ++ 0 :: l = 0 :: (List.replicate k 0 ++ l) := by
  induction k with
  | zero => rfl
  | succ k ih => simp only [List.replicate_succ, List.cons_append, ih]

theorem rd_append_length {α : Type u} (p : List α) (x : α) (s : List α) {i : Nat} (h : i = p.length) :
    rd (p ++ x :: s) i = .ok x := by
  subst h; simp [rd]

theorem wr_append_length {α : Type u} (p : List α) (x y : α) (s : List α) {i : Nat} (h : i = p.length) :
    wr (p ++ x :: s) i y = .ok (p ++ y :: s) := by
  subst h; simp [wr]

theorem Triangle.scan_zeros : ∀ (k i : Nat) (p : IVec), p.length = i + 1 →
    Triangle.scan (p ++ List.replicate k 0) k i = .ok (i + k, p ++ List.replicate k 0)
  | 0, i, p, _ => by simp [Triangle.scan]
  | k + 1, i, p, h => by
    rw [Triangle.scan, List.replicate_succ, rd_append_length p 0 _ h.symm]
    have := Triangle.scan_zeros k (i + 1) (p ++ [0]) (by simp [h])
    simp only [List.append_assoc, List.singleton_append] at this
    simp only [Out.ok_bind, ne_eq, not_true_eq_false, if_false, this]
    congr 2; omega

theorem Triangle.scan_first : ∀ (k i b : Nat) (p r : IVec), p.length = i + 1 →
    Triangle.scan (p ++ (List.replicate k 0 ++ (b + 1) :: r)) (k + 1 + r.length) i
      = .ok (i + k, p ++ (List.replicate k 0 ++ b :: r))
  | 0, i, b, p, r, h => by
    rw [show 0 + 1 + r.length = r.length + 1 by omega, Triangle.scan]
    simp only [List.replicate_zero, List.nil_append]
    rw [rd_append_length p _ _ h.symm]
    simp [wr_append_length p _ _ _ h.symm]
  | k + 1, i, b, p, r, h => by
    rw [show k + 1 + 1 + r.length = (k + 1 + r.length) + 1 by omega, Triangle.scan, List.replicate_succ]
    simp only [List.cons_append]
    rw [rd_append_length p 0 _ h.symm]
    have := Triangle.scan_first k (i + 1) b (p ++ [0]) r (by simp [h])
    simp only [List.append_assoc, List.singleton_append] at this
    simp only [Out.ok_bind, ne_eq, not_true_eq_false, if_false, this]
    congr 2; omega

/-- Increment at the end of a level. -/
theorem Triangle.inc_end (a k degree : Nat) :
    Triangle.s_increment (a :: List.replicate k 0) degree =
      if a = degree then .ok (true, a :: List.replicate k 0)
      else .ok (false, List.replicate k 0 ++ [a + 1]) := by
  rw [Triangle.s_increment, if_neg (by simp)]
  have := Triangle.scan_zeros k 0 [a] rfl
  simp only [List.singleton_append, Nat.zero_add] at this
  simp only [List.length_cons, List.length_replicate, Nat.add_sub_cancel, this, Out.ok_bind, rd_zero_cons, true_and]
  split
  · rfl
  · cases k with
    | zero => simp [Nat.add_comm]
    | succ k =>
      rw [List.replicate_succ', ← List.cons_append, wr_append_length _ _ _ _ (by simp)]
      simp [Nat.add_comm, zeros_append_zero]

/-- Increment inside a level. -/
theorem Triangle.inc_mid (a k b degree : Nat) (r : IVec) :
    Triangle.s_increment (a :: (List.replicate k 0 ++ (b + 1) :: r)) degree =
      .ok (false, List.replicate k 0 ++ (a + 1) :: b :: r) := by
  rw [Triangle.s_increment, if_neg (by simp)]
  have := Triangle.scan_first k 0 b [a] r rfl
  simp only [List.singleton_append, Nat.zero_add] at this
  have hl : (a :: (List.replicate k 0 ++ (b + 1) :: r)).length - 1 = k + 1 + r.length := by
    simp; omega
  simp only [hl, this, Out.ok_bind, rd_zero_cons]
  rw [if_neg (by omega)]
  cases k with
  | zero => simp [Nat.add_comm]
  | succ k =>
    rw [List.replicate_succ', List.append_assoc, List.singleton_append, ← List.cons_append,
      wr_append_length _ _ _ _ (by simp)]
    simp [Nat.add_comm, zeros_append_zero]

/-- Order of the triangle listing. -/
def triLt (x y : IVec) : Prop := x.sum < y.sum ∨ (x.sum = y.sum ∧ colexLt y x)

theorem triLt_strict (n : Nat) (P : IVec → Prop) (hP : ∀ x, P x → x.length = n) : StrictOn P triLt where
  irrefl x _ := by simp [triLt, colexLt_irrefl]
  trans x y z _ _ _ h h' := by
    rcases h with h | ⟨h, hc⟩ <;> rcases h' with h' | ⟨h', hc'⟩
    · exact Or.inl (by omega)
    · exact Or.inl (by omega)
    · exact Or.inl (by omega)
    · exact Or.inr ⟨by omega, colexLt_trans hc' hc⟩
  total x y hx hy := by
    have hl : y.length = x.length := by rw [hP x hx, hP y hy]
    rcases Nat.lt_trichotomy x.sum y.sum with h | h | h
    · exact Or.inl (Or.inl h)
    · rcases colexLt_total hl with hc | hc | hc
      · exact Or.inl (Or.inr ⟨h, hc⟩)
      · exact Or.inr (Or.inl hc.symm)
      · exact Or.inr (Or.inr (Or.inr ⟨h.symm, hc⟩))
    · exact Or.inr (Or.inr (Or.inl h))

theorem sum_replicate_zero (k : Nat) : (List.replicate k 0).sum = 0 := by simp

theorem eq_zeros_of_sum : ∀ {x : IVec}, x.sum = 0 → x = List.replicate x.length 0
  | [], _ => rfl
  | a :: x, h => by
    simp at h
    rw [List.length_cons, List.replicate_succ, ← eq_zeros_of_sum (x := x) (by simpa using h.2), h.1]

/-- Among the vectors with the sum of `(0, .., 0, s)`, that one is the colex greatest. -/
theorem not_colexLt_of_sum {k s : Nat} {x : IVec} (hl : x.length = k + 1) (hs : x.sum = s) :
    ¬ colexLt (List.replicate k 0 ++ [s]) x := by
  have hx : x = x.dropLast ++ [x.getLast (by intro h; simp [h] at hl)] := by
    rw [List.dropLast_append_getLast]
  set u := x.dropLast
  set c := x.getLast (by intro h; simp [h] at hl)
  have hu : u.length = k := by simp [u, hl]
  rw [hx, colexLt_append (by simp [hu])]
  rw [hx] at hs
  simp at hs
  rintro (h | ⟨h, h'⟩)
  · simp [colexLt] at h; omega
  · simp at h
    have : u = List.replicate u.length 0 := eq_zeros_of_sum (by omega)
    rw [this, hu] at h'
    exact colexLt_irrefl _ h'

/-- Among the vectors with the sum of `(a, 0, .., 0)`, that one is the colex least. -/
theorem not_colexLt_front {k a : Nat} {x : IVec} (hl : x.length = k + 1) (hs : x.sum = a) :
    ¬ colexLt x (a :: List.replicate k 0) := by
  match x, hl with
  | c :: x, hl =>
    simp at hl hs
    simp only [colexLt]
    rintro (h | ⟨h, h'⟩)
    · exact not_colexLt_zero h
    · subst h; simp at hs; omega

theorem Triangle.isSucc (dim degree : Nat) (hd : 1 ≤ dim) :
    IsSucc (Spec.InTriangle dim degree) triLt (fun m => Triangle.s_increment m degree) := by
  intro m hm
  match m, hm with
  | [], hm => simp [Spec.InTriangle] at hm; omega
  | a :: t, hm =>
    obtain ⟨hlen, hsum⟩ := hm
    rcases zeros_or_first t with ht | ⟨k, b, r, rfl⟩
    · rw [ht]
      simp only [Triangle.inc_end]
      rw [ht] at hsum
      simp at hsum hlen
      by_cases had : a = degree
      · left
        refine ⟨_, if_pos had, ?_⟩
        rintro x ⟨hxl, hxs⟩ (h | ⟨h, hc⟩)
        · simp at h; omega
        · simp at h
          exact not_colexLt_front (k := t.length) (by omega) h.symm hc
      · right
        refine ⟨_, if_neg had, ⟨by simp; omega, by simp; omega⟩, ?_, ?_⟩
        · left; simp
        · rintro x ⟨hxl, hxs⟩ h h'
          rcases h with h | ⟨h, hc⟩
          · rcases h' with h' | ⟨h', hc'⟩
            · simp at h h'; omega
            · simp at h h'
              exact not_colexLt_of_sum (k := t.length) (by omega) h' hc'
          · simp at h
            exact not_colexLt_front (k := t.length) (by omega) h.symm hc
    · right
      simp only [Triangle.inc_mid]
      simp at hlen hsum
      refine ⟨_, rfl, ⟨by simp; omega, by simp; omega⟩, ?_, ?_⟩
      · right
        refine ⟨by simp; omega, ?_⟩
        have e1 : List.replicate k 0 ++ (a + 1) :: b :: r = (List.replicate k 0 ++ [a + 1]) ++ (b :: r) := by simp
        have e2 : a :: (List.replicate k 0 ++ (b + 1) :: r) = (a :: List.replicate k 0) ++ ((b + 1) :: r) := by simp
        rw [e1, e2, colexLt_append (by simp)]
        left; simp [colexLt]
      · rintro x ⟨hxl, hxs⟩ h h'
        have hsx : x.sum = a + (b + 1) + r.sum := by
          rcases h with h | ⟨h, -⟩ <;> rcases h' with h' | ⟨h', -⟩ <;> simp at h h' <;> omega
        have hc : colexLt x (a :: (List.replicate k 0 ++ (b + 1) :: r)) := by
          rcases h with h | ⟨h, hc⟩
          · simp at h; omega
          · exact hc
        have hc' : colexLt (List.replicate k 0 ++ (a + 1) :: b :: r) x := by
          rcases h' with h' | ⟨h', hc⟩
          · simp at h'; omega
          · exact hc
        -- split x
        obtain ⟨u, c, r', rfl, hu⟩ : ∃ u c r', x = u ++ c :: r' ∧ u.length = k + 1 := by
          have hk : k + 1 < x.length := by omega
          refine ⟨x.take (k + 1), x[k + 1], x.drop (k + 2), ?_, by simp; omega⟩
          rw [← List.drop_eq_getElem_cons hk, List.take_append_drop]
        have e1 : List.replicate k 0 ++ (a + 1) :: b :: r = (List.replicate k 0 ++ [a + 1]) ++ (b :: r) := by simp
        have e2 : a :: (List.replicate k 0 ++ (b + 1) :: r) = (a :: List.replicate k 0) ++ ((b + 1) :: r) := by simp
        rw [e2, colexLt_append (by simp [hu])] at hc
        rw [e1, colexLt_append (by simp [hu])] at hc'
        have hr : r' = r := by
          simp only [colexLt] at hc hc'
          rcases hc with (h1 | ⟨h1, -⟩) | ⟨h1, -⟩
          · rcases hc' with (h2 | ⟨h2, -⟩) | ⟨h2, -⟩
            · exact absurd h1 (colexLt_asymm h2)
            · exact h2.symm
            · simp at h2; exact h2.2.symm
          · exact h1
          · simp at h1; exact h1.2
        subst hr
        simp [colexLt, colexLt_irrefl] at hc hc'
        simp at hsx
        rcases hc with hc | ⟨rfl, hc⟩
        · rcases hc' with hc' | ⟨rfl, hc'⟩
          · omega
          · exact not_colexLt_of_sum (x := u) (by omega) (by omega) hc'
        · exact not_colexLt_front (x := u) (by omega) (by omega) hc

theorem le_sum_of_mem : ∀ {m : IVec} {a : Nat}, a ∈ m → a ≤ m.sum
  | [], _, h => by simp at h
  | b :: m, a, h => by
    simp at h ⊢
    rcases h with rfl | h
    · omega
    · have := le_sum_of_mem h; omega

theorem finite_triangle (dim degree : Nat) : {x | Spec.InTriangle dim degree x}.Finite :=
  (finite_bounded dim degree).subset (fun _ hx => ⟨hx.1, fun _ ha => le_trans (le_sum_of_mem ha) hx.2⟩)

end Hermipy
