import Verif.Lemmas.Colex
import Verif.Lemmas.Triangle
import Verif.Spec.IndexSets

/-!
# Cube and rectangle increments

Both are the successor function for the order (largest scaled entry, last position attaining it, colex);
the proof is done once for an arbitrary list of scaling factors.
-/

namespace Hermipy

open Rectangle (scanMax bump findNext)

/-- `Rectangle.s_increment` with the factor list as a parameter. -/
def Box.inc (factors m : IVec) (degree : Nat) : Out (Bool × IVec) :=
  let dim := m.length
  let mi := Rectangle.scanMax factors m 0 0 0
  let max := mi.1
  let ind := mi.2
  let r := Rectangle.bump max ind factors 0 m
  if r.1 then .ok (false, r.2)
  else if dim = 0 then .ub
  else if ind = dim - 1 then
    if max ≥ degree then .ok (true, r.2)
    else do
      let m ← wr r.2 ind 0
      let m ← wr m 0 (max + 1)
      .ok (false, m)
  else do
    let m ← wr r.2 ind 0
    let next ← Rectangle.findNext factors max (dim - (ind + 1)) (ind + 1)
    if next < dim then
      let f ← rd factors next
      let m ← wr m ind 0
      let m ← wr m next (max / f)
      .ok (false, m)
    else if max = degree then .ok (true, m)
    else
      let m ← wr m ind 0
      let m ← wr m 0 (max + 1)
      .ok (false, m)

theorem Rectangle.s_increment_eq (m : IVec) (degree : Nat) :
    Rectangle.s_increment m degree = Box.inc (Rectangle.factors m.length) m degree := rfl

/-- All scaled entries are below `M`. -/
def AllLt (M : Nat) : IVec → IVec → Prop
  | f :: fs, x :: xs => x * f < M ∧ AllLt M fs xs
  | [], [] => True
  | _, _ => False

/-- The vector (seen from position `i`) has largest scaled entry `M`, attained last at position `j`. -/
def Good (M j : Nat) : Nat → IVec → IVec → Prop
  | i, f :: fs, x :: xs =>
    (if i = j then x * f = M else x * f < M + (if i < j then 1 else 0)) ∧ Good M j (i + 1) fs xs
  | _, [], [] => True
  | _, _, _ => False

theorem Good.length : ∀ {M j i : Nat} {fs m : IVec}, Good M j i fs m → m.length = fs.length
  | _, _, _, f :: fs, x :: xs, h => by simp [Good] at h; simp [h.2.length]
  | _, _, _, [], [], _ => rfl
  | _, _, _, [], _ :: _, h => by simp [Good] at h
  | _, _, _, _ :: _, [], h => by simp [Good] at h

theorem good_iff_allLt : ∀ {M j i : Nat} {fs m : IVec}, j < i → (Good M j i fs m ↔ AllLt M fs m)
  | M, j, i, f :: fs, x :: xs, h => by
    simp only [Good, AllLt]
    rw [if_neg (by omega), if_neg (by omega), good_iff_allLt (by omega)]; simp
  | _, _, _, [], [], _ => by simp [Good, AllLt]
  | _, _, _, [], _ :: _, h => by simp [Good, AllLt]
  | _, _, _, _ :: _, [], h => by simp [Good, AllLt]

theorem scanMax_spec : ∀ {fs m : IVec} {i max ind M j : Nat}, m.length = fs.length →
    scanMax fs m i max ind = (M, j) →
    (M = max ∧ j = ind ∧ AllLt max fs m) ∨ (i ≤ j ∧ j < i + m.length ∧ max ≤ M ∧ Good M j i fs m)
  | [], [], i, max, ind, M, j, _, h => by
    simp [scanMax] at h
    left; simp [h, AllLt]
  | [], _ :: _, _, _, _, _, _, h, _ => by simp at h
  | _ :: _, [], _, _, _, _, _, h, _ => by simp at h
  | f :: fs, x :: xs, i, max, ind, M, j, hl, h => by
    simp only [List.length_cons, Nat.add_right_cancel_iff] at hl
    rw [scanMax] at h
    split at h
    · rename_i hge
      rcases scanMax_spec hl h with ⟨rfl, rfl, hall⟩ | ⟨h1, h2, h3, h4⟩
      · right
        refine ⟨le_refl _, by simp, hge, ?_⟩
        simp only [Good, if_true, true_and]
        exact (good_iff_allLt (by omega)).2 hall
      · right
        refine ⟨by omega, by simp; omega, by omega, ?_⟩
        simp only [Good]
        rw [if_neg (by omega), if_pos (by omega)]
        exact ⟨by omega, h4⟩
    · rename_i hlt
      rcases scanMax_spec hl h with ⟨rfl, rfl, hall⟩ | ⟨h1, h2, h3, h4⟩
      · left
        exact ⟨rfl, rfl, by omega, hall⟩
      · right
        refine ⟨by omega, by simp; omega, h3, ?_⟩
        simp only [Good]
        rw [if_neg (by omega), if_pos (by omega)]
        exact ⟨by omega, h4⟩

theorem scanMax_of_allLt : ∀ {fs m : IVec} {i M ind : Nat}, AllLt M fs m → scanMax fs m i M ind = (M, ind)
  | [], [], _, _, _, _ => by simp [scanMax]
  | [], _ :: _, _, _, _, h => by simp [AllLt] at h
  | _ :: _, [], _, _, _, h => by simp [AllLt] at h
  | f :: fs, x :: xs, i, M, ind, h => by
    simp only [AllLt] at h
    rw [scanMax, if_neg (by omega), scanMax_of_allLt h.2]

theorem scanMax_of_good : ∀ {fs m : IVec} {i max ind M j : Nat}, Good M j i fs m → i ≤ j → j < i + m.length →
    max ≤ M → scanMax fs m i max ind = (M, j)
  | [], [], i, _, _, _, _, _, h1, h2, _ => by simp at h2; omega
  | [], _ :: _, _, _, _, _, _, h, _, _, _ => by simp [Good] at h
  | _ :: _, [], _, _, _, _, _, h, _, _, _ => by simp [Good] at h
  | f :: fs, x :: xs, i, max, ind, M, j, h, h1, h2, h3 => by
    simp only [Good] at h
    by_cases hij : i = j
    · subst hij
      rw [if_pos rfl] at h
      rw [scanMax, if_pos (by omega), h.1]
      exact scanMax_of_allLt ((good_iff_allLt (by omega)).1 h.2)
    · rw [if_neg hij, if_pos (by omega)] at h
      simp at h2
      rw [scanMax]
      split
      · exact scanMax_of_good h.2 (by omega) (by omega) (by omega)
      · exact scanMax_of_good h.2 (by omega) (by omega) (by omega)

/-- Largest scaled entry and its last position. -/
def top (fs m : IVec) : Nat × Nat := scanMax fs m 0 0 0

theorem not_allLt_zero {fs m : IVec} (h : m ≠ []) : ¬ AllLt 0 fs m := by
  match fs, m with
  | [], [] => exact absurd rfl h
  | [], _ :: _ => simp [AllLt]
  | _ :: _, [] => simp [AllLt]
  | f :: fs, x :: xs => simp [AllLt]

theorem top_good {fs m : IVec} (hl : m.length = fs.length) (hne : m ≠ []) :
    Good (top fs m).1 (top fs m).2 0 fs m ∧ (top fs m).2 < m.length := by
  rcases scanMax_spec (i := 0) (max := 0) (ind := 0) hl (M := (top fs m).1) (j := (top fs m).2) rfl with
    ⟨_, _, h⟩ | ⟨_, h2, _, h4⟩
  · exact absurd h (not_allLt_zero hne)
  · exact ⟨h4, by omega⟩

theorem top_eq {fs m : IVec} {M j : Nat} (h : Good M j 0 fs m) (hj : j < m.length) : top fs m = (M, j) :=
  scanMax_of_good h (by omega) (by omega) (by omega)

theorem good_get : ∀ {fs m : IVec} {M j i : Nat}, Good M j i fs m → i ≤ j → j < i + m.length →
    ∃ u c s fu f fs', m = u ++ c :: s ∧ fs = fu ++ f :: fs' ∧ u.length = j - i ∧ fu.length = j - i ∧ c * f = M
  | [], [], _, _, _, _, h1, h2 => by simp at h2; omega
  | [], _ :: _, _, _, _, h, _, _ => by simp [Good] at h
  | _ :: _, [], _, _, _, h, _, _ => by simp [Good] at h
  | f :: fs, x :: xs, M, j, i, h, h1, h2 => by
    simp only [Good] at h
    by_cases hij : i = j
    · subst hij
      rw [if_pos rfl] at h
      exact ⟨[], x, xs, [], f, fs, by simp, by simp, by simp, by simp, h.1⟩
    · simp at h2
      obtain ⟨u, c, s, fu, g, fs', e1, e2, l1, l2, e3⟩ := good_get h.2 (by omega) (by omega)
      exact ⟨x :: u, c, s, f :: fu, g, fs', by simp [e1], by simp [e2], by simp; omega, by simp; omega, e3⟩

/-- Every scaled entry is at most `d`. -/
def AllLe (d : Nat) (fs m : IVec) : Prop := List.Forall₂ (fun x f => x * f ≤ d) m fs

theorem allLe_of_allLt : ∀ {fs m : IVec} {M d : Nat}, AllLt M fs m → M ≤ d → AllLe d fs m
  | [], [], _, _, _, _ => .nil
  | [], _ :: _, _, _, h, _ => by simp [AllLt] at h
  | _ :: _, [], _, _, h, _ => by simp [AllLt] at h
  | f :: fs, x :: xs, M, d, h, hd => .cons (by simp only [AllLt] at h; omega) (allLe_of_allLt h.2 hd)

theorem allLe_of_good : ∀ {fs m : IVec} {M j i d : Nat}, Good M j i fs m → M ≤ d → AllLe d fs m
  | [], [], _, _, _, _, _, _ => .nil
  | [], _ :: _, _, _, _, _, h, _ => by simp [Good] at h
  | _ :: _, [], _, _, _, _, h, _ => by simp [Good] at h
  | f :: fs, x :: xs, M, j, i, d, h, hd => by
    simp only [Good] at h
    refine .cons ?_ (allLe_of_good h.2 hd)
    have := h.1
    split at this
    · omega
    · split at this <;> omega

theorem forall₂_mid {α β : Type*} {R : α → β → Prop} : ∀ {u : List α} {c : α} {s : List α} {fu : List β} {f : β} {fs : List β},
    u.length = fu.length → List.Forall₂ R (u ++ c :: s) (fu ++ f :: fs) → R c f
  | [], c, s, [], f, fs, _, h => by simp at h; exact h.1
  | [], _, _, _ :: _, _, _, h, _ => by simp at h
  | _ :: _, _, _, [], _, _, h, _ => by simp at h
  | a :: u, c, s, b :: fu, f, fs, hl, h => by
    simp at h hl
    exact forall₂_mid hl h.2

theorem allLe_iff {fs m : IVec} {M j d : Nat} (h : Good M j 0 fs m) (hj : j < m.length) :
    AllLe d fs m ↔ M ≤ d := by
  constructor
  · intro hle
    obtain ⟨u, c, s, fu, f, fs', rfl, rfl, l1, l2, rfl⟩ := good_get h (by omega) (by omega)
    exact forall₂_mid (R := fun x f => x * f ≤ d) (by omega) hle
  · exact allLe_of_good h

/-- Vector that is zero except for value `c` at position `j`. -/
def single (n j c : Nat) : IVec := List.replicate j 0 ++ c :: List.replicate (n - 1 - j) 0

theorem single_length {n j c : Nat} (h : j < n) : (single n j c).length = n := by
  simp [single]; omega

theorem not_colexLt_single {n j c : Nat} {y u s : IVec} (hy : y = u ++ c :: s) (hu : u.length = j) :
    ¬ colexLt y (single n j c) := by
  subst hy
  rw [single, colexLt_append (by simp [hu])]
  simp only [colexLt]
  rintro ((h | ⟨_, h⟩) | ⟨_, h⟩)
  · exact not_colexLt_zero h
  · omega
  · exact not_colexLt_zero h

theorem good_zeros : ∀ {fs : IVec} {M j i : Nat}, 0 < M → j < i → Good M j i fs (List.replicate fs.length 0)
  | [], _, _, _, _, _ => by simp [Good]
  | f :: fs, M, j, i, hM, h => by
    simp only [List.length_cons, List.replicate_succ, Good]
    rw [if_neg (by omega), if_neg (by omega)]
    exact ⟨by omega, good_zeros hM (by omega)⟩

theorem good_single : ∀ {fu fs : IVec} {f M c i : Nat}, (0 < M ∨ fs = []) → c * f = M →
    Good M (i + fu.length) i (fu ++ f :: fs) (List.replicate fu.length 0 ++ c :: List.replicate fs.length 0)
  | [], fs, f, M, c, i, hM, h => by
    simp only [List.length_nil, List.replicate_zero, List.nil_append, Good, Nat.add_zero, if_true]
    refine ⟨h, ?_⟩
    rcases hM with hM | rfl
    · exact good_zeros hM (by omega)
    · simp [Good]
  | g :: fu, fs, f, M, c, i, hM, h => by
    simp only [List.length_cons, List.replicate_succ, List.cons_append, Good]
    rw [if_neg (by omega), if_pos (by omega)]
    have := good_single (fu := fu) (i := i + 1) hM h
    rw [show i + 1 + fu.length = i + (fu.length + 1) by omega] at this
    exact ⟨by omega, this⟩

/-- The in-block increment: successor in the block, or the block is exhausted and reset. -/
theorem bump_spec : ∀ {fs m : IVec} {M j i : Nat}, (∀ f ∈ fs, 1 ≤ f) → Good M j i fs m →
    ((bump M j fs i m).1 = true ∧ Good M j i fs (bump M j fs i m).2 ∧ colexLt m (bump M j fs i m).2 ∧
      ∀ y, Good M j i fs y → colexLt m y → ¬ colexLt y (bump M j fs i m).2) ∨
    ((bump M j fs i m).1 = false ∧ (∀ y, Good M j i fs y → ¬ colexLt m y) ∧
      (bump M j fs i m).2 = m.mapIdx (fun t x => if i + t ≠ j then 0 else x))
  | [], [], _, _, _, _, _ => by
    right
    refine ⟨rfl, ?_, rfl⟩
    intro y _ h
    simp [colexLt] at h
  | [], _ :: _, _, _, _, _, h => by simp [Good] at h
  | _ :: _, [], _, _, _, _, h => by simp [Good] at h
  | f :: fs, x :: xs, M, j, i, hf, h => by
    have hf1 : 1 ≤ f := hf f (by simp)
    have hfs : ∀ g ∈ fs, 1 ≤ g := fun g hg => hf g (by simp [hg])
    simp only [Good] at h
    by_cases hc : (x + 1) * f < M + (if i < j then 1 else 0)
    · left
      have hij : i ≠ j := by
        rintro rfl
        rw [if_pos rfl] at h
        simp at hc
        have : x * f ≤ (x + 1) * f := Nat.mul_le_mul_right f (by omega)
        omega
      have hb : bump M j (f :: fs) i (x :: xs) = (true, (x + 1) :: xs) := by rw [bump, if_pos hc]
      rw [hb]
      refine ⟨rfl, ?_, ?_, ?_⟩
      · simp only [Good]; rw [if_neg hij]; exact ⟨hc, h.2⟩
      · simp [colexLt]
      · intro y _ h1 h2
        match y, h1 with
        | y0 :: ys, h1 =>
          simp only [colexLt] at h1 h2
          rcases h1 with h1 | ⟨rfl, h1⟩
          · rcases h2 with h2 | ⟨rfl, h2⟩
            · exact colexLt_asymm h1 h2
            · exact colexLt_irrefl _ h1
          · rcases h2 with h2 | ⟨_, h2⟩
            · exact colexLt_irrefl _ h2
            · omega
    · have hb : bump M j (f :: fs) i (x :: xs) = ((bump M j fs (i + 1) xs).1,
          (if i ≠ j then 0 else x) :: (bump M j fs (i + 1) xs).2) := by rw [bump, if_neg hc]
      rw [hb]
      -- nothing admissible at this position exceeds x
      have hmax : ∀ y0 ys, Good M j i (f :: fs) (y0 :: ys) → y0 ≤ x ∧ (i = j → y0 = x) := by
        intro y0 ys hy
        simp only [Good] at hy
        by_cases hij : i = j
        · subst hij
          rw [if_pos rfl] at h hy
          have : y0 = x := Nat.eq_of_mul_eq_mul_right (by omega) (hy.1.trans h.1.symm)
          exact ⟨by omega, fun _ => this⟩
        · rw [if_neg hij] at hy
          refine ⟨?_, fun e => absurd e hij⟩
          by_contra hlt
          have : (x + 1) * f ≤ y0 * f := Nat.mul_le_mul_right f (by omega)
          omega
      rcases bump_spec (i := i + 1) hfs h.2 with ⟨e, g, l, nb⟩ | ⟨e, nb, form⟩
      · left
        refine ⟨e, ?_, ?_, ?_⟩
        · simp only [Good]
          refine ⟨?_, g⟩
          split
          · rename_i hij; rw [if_pos hij] at h; simp [hij]; exact h.1
          · rename_i hij
            rw [if_neg hij] at h
            have := h.1
            omega
        · simp [colexLt, l]
        · intro y hy h1 h2
          match y, h1 with
          | y0 :: ys, h1 =>
            have hm := hmax y0 ys hy
            simp only [Good] at hy
            simp only [colexLt] at h1 h2
            rcases h1 with h1 | ⟨_, h1⟩
            · rcases h2 with h2 | ⟨rfl, h2⟩
              · exact nb ys hy.2 h1 h2
              · split at h2
                · omega
                · rename_i hij
                  simp at hij
                  have := hm.2 hij
                  omega
            · omega
      · right
        refine ⟨e, ?_, ?_⟩
        · intro y hy h1
          match y, h1 with
          | y0 :: ys, h1 =>
            have hm := hmax y0 ys hy
            simp only [Good] at hy
            simp only [colexLt] at h1
            rcases h1 with h1 | ⟨_, h1⟩
            · exact nb ys hy.2 h1
            · omega
        · rw [List.mapIdx_cons, form]
          have : (fun t x => if i + 1 + t ≠ j then 0 else x) = (fun t (x : Nat) => if i + (t + 1) ≠ j then 0 else x) := by
            funext t x; rw [show i + (t + 1) = i + 1 + t by omega]
          simp only [this, Nat.add_zero]

/-- After exhausting a block, only the entry at the distinguished position is left. -/
theorem mapIdx_single {m u s : IVec} {c n : Nat} (hm : m = u ++ c :: s) (hn : n = m.length) :
    m.mapIdx (fun t x => if 0 + t ≠ u.length then 0 else x) = single n u.length c := by
  apply List.ext_getElem
  · rw [single_length (by rw [hn, hm]; simp)]; simp [hn]
  · intro t h1 h2
    simp only [List.getElem_mapIdx, Nat.zero_add, single]
    by_cases ht : t = u.length
    · subst ht; simp [hm]
    · simp only [ne_eq, ht, not_false_eq_true, if_true]
      rw [List.getElem_append]
      split
      · simp
      · rw [List.getElem_cons]
        split
        · simp at *; omega
        · simp

theorem findNext_spec {fs : IVec} {M : Nat} : ∀ {k j : Nat}, j + k = fs.length →
    ∃ n, findNext fs M k j = .ok n ∧ j ≤ n ∧ n ≤ fs.length ∧
      (∀ t (h : t < fs.length), j ≤ t → t < n → M % fs[t] ≠ 0) ∧ (∀ h : n < fs.length, M % fs[n] = 0)
  | 0, j, h => ⟨j, rfl, le_refl _, by omega, fun t _ h1 h2 => by omega, fun h' => by omega⟩
  | k + 1, j, h => by
    have hj : j < fs.length := by omega
    rw [findNext, rd_of_lt hj]
    simp only [Out.ok_bind]
    by_cases hd : M % fs[j] = 0
    · refine ⟨j, by simp [hd], le_refl _, by omega, fun t _ h1 h2 => by omega, fun _ => hd⟩
    · obtain ⟨n, e, h1, h2, h3, h4⟩ := findNext_spec (fs := fs) (M := M) (k := k) (j := j + 1) (by omega)
      refine ⟨n, by simp [hd, e], by omega, h2, fun t ht h5 h6 => ?_, h4⟩
      by_cases htj : t = j
      · subst htj; exact hd
      · exact h3 t ht (by omega) h6

/-- Order of the cube and rectangle listings. -/
def boxLt (fs x y : IVec) : Prop :=
  (top fs x).1 < (top fs y).1 ∨ ((top fs x).1 = (top fs y).1 ∧
    ((top fs x).2 < (top fs y).2 ∨ ((top fs x).2 = (top fs y).2 ∧ colexLt x y)))

theorem boxLt_strict (fs : IVec) (P : IVec → Prop) (hP : ∀ x, P x → x.length = fs.length) :
    StrictOn P (boxLt fs) where
  irrefl x _ := by simp [boxLt, colexLt_irrefl]
  trans x y z _ _ _ h h' := by
    unfold boxLt at *
    rcases h with h | ⟨h, h1 | ⟨h1, h2⟩⟩ <;> rcases h' with h' | ⟨h', h1' | ⟨h1', h2'⟩⟩
    all_goals first
      | (left; omega)
      | (right; refine ⟨by omega, ?_⟩; left; omega)
      | (right; refine ⟨by omega, Or.inr ⟨by omega, colexLt_trans h2 h2'⟩⟩)
  total x y hx hy := by
    unfold boxLt
    rcases Nat.lt_trichotomy (top fs x).1 (top fs y).1 with h | h | h
    · exact Or.inl (Or.inl h)
    · rcases Nat.lt_trichotomy (top fs x).2 (top fs y).2 with h' | h' | h'
      · exact Or.inl (Or.inr ⟨h, Or.inl h'⟩)
      · rcases colexLt_total ((hP x hx).trans (hP y hy).symm) with hc | hc | hc
        · exact Or.inl (Or.inr ⟨h, Or.inr ⟨h', hc⟩⟩)
        · exact Or.inr (Or.inl hc)
        · exact Or.inr (Or.inr (Or.inr ⟨h.symm, Or.inr ⟨h'.symm, hc⟩⟩))
      · exact Or.inr (Or.inr (Or.inr ⟨h.symm, Or.inl h'⟩))
    · exact Or.inr (Or.inr (Or.inl h))

theorem wr_single_self {n j c : Nat} (h : j < n) : wr (single n j c) j 0 = .ok (List.replicate n 0) := by
  rw [single, wr_append_length _ _ _ _ (by simp)]
  congr 1
  rw [← List.replicate_succ, List.replicate_append_replicate]
  congr 1; omega

theorem wr_zeros {n j c : Nat} (h : j < n) : wr (List.replicate n 0) j c = .ok (single n j c) := by
  have : List.replicate n 0 = List.replicate j 0 ++ 0 :: List.replicate (n - 1 - j) 0 := by
    rw [← List.replicate_succ, List.replicate_append_replicate]
    congr 1; omega
  rw [this, wr_append_length _ _ _ _ (by simp), single]

theorem single_eq_of_good {fs y : IVec} {M j : Nat} (hf : ∀ f ∈ fs, 1 ≤ f) (h : Good M j 0 fs y) (hj : j < y.length)
    {f : Nat} (hfj : fs[j]? = some f) : ∃ u s, y = u ++ (M / f) :: s ∧ u.length = j := by
  obtain ⟨u, c, s, fu, g, fs', rfl, rfl, l1, l2, rfl⟩ := good_get h (by omega) (by omega)
  simp at l1 l2
  have : g = f := by rw [← l2] at hfj; simpa using hfj
  subst this
  have hg : 1 ≤ g := hf g (by simp)
  exact ⟨u, s, by rw [Nat.mul_div_cancel _ (by omega)], l1⟩

theorem good_single' {fs : IVec} {M j c f : Nat} (hfj : fs[j]? = some f) (hc : c * f = M) (hM : 0 < M) :
    Good M j 0 fs (single fs.length j c) := by
  have hj : j < fs.length := by
    by_contra h; rw [List.getElem?_eq_none (by omega)] at hfj; simp at hfj
  have hfs : fs = fs.take j ++ f :: fs.drop (j + 1) := by
    rw [List.getElem?_eq_getElem hj] at hfj
    simp at hfj
    rw [← hfj, ← List.drop_eq_getElem_cons hj, List.take_append_drop]
  have := good_single (fu := fs.take j) (fs := fs.drop (j + 1)) (f := f) (i := 0) (Or.inl hM) hc
  rw [← hfs] at this
  simp only [List.length_take, List.length_drop, Nat.zero_add] at this
  rw [Nat.min_eq_left (by omega)] at this
  rw [single, show fs.length - 1 - j = fs.length - (j + 1) by omega]
  exact this

theorem good_dvd {fs y : IVec} {M j : Nat} (h : Good M j 0 fs y) (hj : j < fs.length) : M % fs[j] = 0 := by
  have hl := h.length
  obtain ⟨u, c, s, fu, g, fs', rfl, rfl, l1, l2, rfl⟩ := good_get h (by omega) (by omega)
  simp at l2
  subst l2
  simp

theorem good_zero : ∀ {fs m : IVec} {j i : Nat}, Good 0 j i fs m → i ≤ j + 1 → j + 1 < i + m.length → False
  | [], [], _, _, _, h1, h2 => by simp at h2; omega
  | [], _ :: _, _, _, h, _, _ => by simp [Good] at h
  | _ :: _, [], _, _, h, _, _ => by simp [Good] at h
  | f :: fs, x :: xs, j, i, h, h1, h2 => by
    simp only [Good] at h
    simp at h2
    by_cases hij : i = j + 1
    · rw [if_neg (by omega), if_neg (by omega)] at h; omega
    · exact good_zero h.2 (by omega) (by omega)

/-- The generic step. -/
theorem Box.isSucc (fs : IVec) (degree : Nat) (hne : fs ≠ []) (hf : ∀ f ∈ fs, 1 ≤ f) (hf0 : fs[0]? = some 1) :
    IsSucc (AllLe degree fs) (boxLt fs) (fun m => Box.inc fs m degree) := by
  intro m hm
  have hl : m.length = fs.length := List.Forall₂.length_eq hm
  have hfl : 0 < fs.length := List.length_pos_iff.2 hne
  have hmne : m ≠ [] := by rw [← List.length_pos_iff]; omega
  obtain ⟨hg, hj⟩ := top_good hl hmne
  have htop : top fs m = ((top fs m).1, (top fs m).2) := rfl
  generalize hMj : top fs m = Mj at *
  obtain ⟨M, j⟩ := Mj
  simp only at hg hj
  have hMd : M ≤ degree := (allLe_iff hg hj).1 hm
  -- facts about arbitrary elements
  have hY : ∀ y, AllLe degree fs y → Good (top fs y).1 (top fs y).2 0 fs y ∧ (top fs y).2 < fs.length ∧
      (top fs y).1 ≤ degree := by
    intro y hy
    have hly : y.length = fs.length := List.Forall₂.length_eq hy
    have hyne : y ≠ [] := by rw [← List.length_pos_iff]; omega
    obtain ⟨h1, h2⟩ := top_good hly hyne
    exact ⟨h1, by omega, (allLe_iff h1 h2).1 hy⟩
  have hinc : Box.inc fs m degree = (
      let r := Rectangle.bump M j fs 0 m
      if r.1 then .ok (false, r.2)
      else if m.length = 0 then .ub
      else if j = m.length - 1 then
        if M ≥ degree then .ok (true, r.2)
        else do
          let m ← wr r.2 j 0
          let m ← wr m 0 (M + 1)
          .ok (false, m)
      else do
        let m' ← wr r.2 j 0
        let next ← Rectangle.findNext fs M (m.length - (j + 1)) (j + 1)
        if next < m.length then
          let f ← rd fs next
          let m' ← wr m' j 0
          let m' ← wr m' next (M / f)
          .ok (false, m')
        else if M = degree then .ok (true, m')
        else
          let m' ← wr m' j 0
          let m' ← wr m' 0 (M + 1)
          .ok (false, m')) := by
    unfold Box.inc
    have : Rectangle.scanMax fs m 0 0 0 = (M, j) := hMj
    simp only [this]
  rw [show (fun m => Box.inc fs m degree) m = Box.inc fs m degree from rfl] at *
  simp only at hinc
  rcases bump_spec hf hg with ⟨e, g, l, nb⟩ | ⟨e, nb, form⟩
  · right
    rw [e] at hinc
    simp only [if_true] at hinc
    have hlb : (Rectangle.bump M j fs 0 m).2.length = fs.length := g.length
    have htb : top fs (Rectangle.bump M j fs 0 m).2 = (M, j) := top_eq g (by omega)
    refine ⟨_, hinc, (allLe_iff g (by omega)).2 hMd, ?_, ?_⟩
    · right; rw [hMj, htb]; exact ⟨rfl, Or.inr ⟨rfl, l⟩⟩
    · intro y hy h1 h2
      obtain ⟨y1, y2, y3⟩ := hY y hy
      rw [boxLt, hMj] at h1
      rw [boxLt, htb] at h2
      simp only at h1 h2
      have hM' : (top fs y).1 = M := by omega
      have hj' : (top fs y).2 = j := by omega
      rw [hM', hj'] at y1
      refine nb y y1 ?_ ?_
      · rcases h1 with h1 | ⟨_, h1 | ⟨_, h1⟩⟩
        · omega
        · omega
        · exact h1
      · rcases h2 with h2 | ⟨_, h2 | ⟨_, h2⟩⟩
        · omega
        · omega
        · exact h2
  · rw [e] at hinc
    simp only [Bool.false_eq_true, if_false] at hinc
    obtain ⟨u, c, s, fu, f, fs', hmu, hfu, l1, l2, hcf⟩ := good_get hg (by omega) (by omega)
    simp only [Nat.sub_zero] at l1 l2
    have hform : (Rectangle.bump M j fs 0 m).2 = single fs.length j c := by
      rw [form, ← l1]
      exact mapIdx_single hmu hl.symm
    rw [hform, hl, if_neg (by omega)] at hinc
    -- elements after m in the same block do not exist
    have hsame : ∀ y, AllLe degree fs y → boxLt fs m y →
        M < (top fs y).1 ∨ ((top fs y).1 = M ∧ j < (top fs y).2) := by
      intro y hy h1
      obtain ⟨y1, y2, y3⟩ := hY y hy
      rw [boxLt, hMj] at h1
      simp only at h1
      rcases h1 with h1 | ⟨h, h1 | ⟨h', h1⟩⟩
      · exact Or.inl h1
      · exact Or.inr ⟨h.symm, h1⟩
      · rw [← h, ← h'] at y1
        exact absurd h1 (nb y y1)
    -- the first element of the next level
    have hnextLevel : ∀ (_ : M < degree) (_ : ∀ t (_ : t < fs.length), j < t → M % fs[t] ≠ 0),
        AllLe degree fs (single fs.length 0 (M + 1)) ∧ boxLt fs m (single fs.length 0 (M + 1)) ∧
        ∀ x, AllLe degree fs x → boxLt fs m x → ¬ boxLt fs x (single fs.length 0 (M + 1)) := by
      intro hlt hno
      have hg' : Good (M + 1) 0 0 fs (single fs.length 0 (M + 1)) := good_single' hf0 (by simp) (by omega)
      have hls : (single fs.length 0 (M + 1)).length = fs.length := single_length hfl
      have ht' : top fs (single fs.length 0 (M + 1)) = (M + 1, 0) := top_eq hg' (by omega)
      refine ⟨(allLe_iff hg' (by omega)).2 (by omega), ?_, ?_⟩
      · left; rw [hMj, ht']; simp
      · intro y hy h1 h2
        obtain ⟨y1, y2, y3⟩ := hY y hy
        rw [boxLt, ht'] at h2
        simp only at h2
        rcases hsame y hy h1 with h3 | ⟨h3, h4⟩
        · rcases h2 with h2 | ⟨h2, h2' | ⟨h2', h5⟩⟩
          · omega
          · omega
          · rw [h2, h2'] at y1
            have hly := y1.length
            obtain ⟨v, w, hv, hvl⟩ := single_eq_of_good hf y1 (by omega) hf0
            exact not_colexLt_single (by rw [Nat.div_one] at hv; exact hv) hvl h5
        · exact hno _ y2 h4 (h3 ▸ good_dvd y1 y2)
    by_cases hjl : j = fs.length - 1
    · rw [if_pos hjl] at hinc
      by_cases hMge : M ≥ degree
      · left
        rw [if_pos hMge] at hinc
        refine ⟨_, hinc, ?_⟩
        intro y hy h1
        obtain ⟨y1, y2, y3⟩ := hY y hy
        rcases hsame y hy h1 with h | ⟨_, h⟩ <;> omega
      · right
        rw [if_neg hMge] at hinc
        rw [wr_single_self (by omega)] at hinc
        simp only [Out.ok_bind] at hinc
        rw [wr_zeros hfl] at hinc
        simp only [Out.ok_bind] at hinc
        obtain ⟨a1, a2, a3⟩ := hnextLevel (by omega) (fun t ht hjt => by omega)
        exact ⟨_, hinc, a1, a2, a3⟩
    · rw [if_neg hjl] at hinc
      have hMpos : 0 < M := by
        by_contra h0
        have hM0 : M = 0 := by omega
        exact good_zero (hM0 ▸ hg) (by omega) (by omega)
      rw [wr_single_self (by omega)] at hinc
      simp only [Out.ok_bind] at hinc
      obtain ⟨n, hn, n1, n2, n3, n4⟩ := findNext_spec (fs := fs) (M := M) (k := fs.length - (j + 1)) (j := j + 1) (by omega)
      rw [hn] at hinc
      simp only [Out.ok_bind] at hinc
      by_cases hnl : n < fs.length
      · right
        rw [if_pos hnl, rd_of_lt hnl] at hinc
        simp only [Out.ok_bind] at hinc
        have hz : wr (List.replicate fs.length 0) j 0 = .ok (List.replicate fs.length 0) := by
          rw [wr_zeros (by omega), ← wr_single_self (n := fs.length) (j := j) (c := 0) (by omega), single,
            wr_append_length _ _ _ _ (by simp)]
        rw [hz] at hinc
        simp only [Out.ok_bind] at hinc
        rw [wr_zeros hnl] at hinc
        simp only [Out.ok_bind] at hinc
        have hdiv : M / fs[n] * fs[n] = M := Nat.div_mul_cancel (Nat.dvd_of_mod_eq_zero (n4 hnl))
        have hg' : Good M n 0 fs (single fs.length n (M / fs[n])) := good_single' (by simp [hnl]) hdiv hMpos
        have hls : (single fs.length n (M / fs[n])).length = fs.length := single_length hnl
        have ht' : top fs (single fs.length n (M / fs[n])) = (M, n) := top_eq hg' (by omega)
        refine ⟨_, hinc, (allLe_iff hg' (by omega)).2 hMd, ?_, ?_⟩
        · right; rw [hMj, ht']; exact ⟨rfl, Or.inl (by simp; omega)⟩
        · intro y hy h1 h2
          obtain ⟨y1, y2, y3⟩ := hY y hy
          rw [boxLt, ht'] at h2
          simp only at h2
          rcases hsame y hy h1 with h3 | ⟨h3, h4⟩
          · omega
          · rw [h3] at y1
            have hly := y1.length
            rcases h2 with h2 | ⟨_, h2 | ⟨h2, h5⟩⟩
            · omega
            · exact n3 _ y2 (by omega) h2 (good_dvd y1 y2)
            · rw [h2] at y1
              obtain ⟨v, w, hv, hvl⟩ := single_eq_of_good (f := fs[n]) hf y1 (by omega) (by simp [hnl])
              exact not_colexLt_single hv hvl h5
      · rw [if_neg hnl] at hinc
        have hno : ∀ t (_ : t < fs.length), j < t → M % fs[t] ≠ 0 := fun t ht hjt => n3 t ht (by omega) (by omega)
        by_cases hMd' : M = degree
        · left
          rw [if_pos hMd'] at hinc
          refine ⟨_, hinc, ?_⟩
          intro y hy h1
          obtain ⟨y1, y2, y3⟩ := hY y hy
          rcases hsame y hy h1 with h | ⟨h3, h4⟩
          · omega
          · exact hno _ y2 h4 (h3 ▸ good_dvd y1 y2)
        · right
          rw [if_neg hMd'] at hinc
          have hz : wr (List.replicate fs.length 0) j 0 = .ok (List.replicate fs.length 0) := by
            rw [wr_zeros (by omega), ← wr_single_self (n := fs.length) (j := j) (c := 0) (by omega), single,
              wr_append_length _ _ _ _ (by simp)]
          rw [hz] at hinc
          simp only [Out.ok_bind] at hinc
          rw [wr_zeros hfl] at hinc
          simp only [Out.ok_bind] at hinc
          obtain ⟨a1, a2, a3⟩ := hnextLevel (by omega) hno
          exact ⟨_, hinc, a1, a2, a3⟩

end Hermipy
