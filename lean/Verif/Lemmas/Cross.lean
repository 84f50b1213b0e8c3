import Verif.Lemmas.Colex
import Verif.Lemmas.Triangle
import Verif.Spec.IndexSets
import Mathlib.Tactic.Linarith
import Mathlib.Algebra.Order.BigOperators.Group.List

/-! # The cross increment is the successor for (product, reversed colex of max(1, ·), colex) -/

namespace Hermipy

theorem max1_eq (x : Nat) : max1 x = max 1 x := by
  unfold max1; split <;> omega

theorem one_le_max1 (x : Nat) : 1 ≤ max1 x := by rw [max1_eq]; omega

/-- Entrywise `max(1, ·)`. -/
abbrev ones (m : IVec) : IVec := m.map max1

theorem ones_eq (m : IVec) : ones m = m.map (max 1) := by
  simp [ones, funext max1_eq]

theorem ones_pos {m : IVec} {x : Nat} (h : x ∈ ones m) : 1 ≤ x := by
  simp [ones] at h
  obtain ⟨a, _, rfl⟩ := h
  exact one_le_max1 a

theorem ones_zeros (k : Nat) : ones (List.replicate k 0) = List.replicate k 1 := by
  simp [ones, max1]

theorem prod_pos_of : ∀ {w : IVec}, (∀ x ∈ w, 1 ≤ x) → 1 ≤ w.prod
  | [], _ => by simp
  | a :: w, h => by
    have h1 := h a (by simp)
    have h2 := prod_pos_of (w := w) (fun x hx => h x (by simp [hx]))
    simp only [List.prod_cons]
    exact Nat.mul_pos h1 h2

theorem eq_ones_of_prod : ∀ {w : IVec}, (∀ x ∈ w, 1 ≤ x) → w.prod = 1 → w = List.replicate w.length 1
  | [], _, _ => rfl
  | a :: w, h, hp => by
    simp only [List.prod_cons] at hp
    have h1 := Nat.eq_one_of_mul_eq_one_right hp
    have h2 := Nat.eq_one_of_mul_eq_one_left hp
    rw [List.length_cons, List.replicate_succ, ← eq_ones_of_prod (w := w) (fun x hx => h x (by simp [hx])) h2, h1]

theorem not_colexLt_ones : ∀ {w : IVec} {k : Nat}, (∀ x ∈ w, 1 ≤ x) → ¬ colexLt w (List.replicate k 1)
  | [], k, _ => by simp [colexLt]
  | a :: w, 0, _ => by simp [colexLt]
  | a :: w, k + 1, h => by
    have h1 := h a (by simp)
    simp only [List.replicate_succ, colexLt]
    rintro (h' | ⟨_, h'⟩)
    · exact not_colexLt_ones (fun x hx => h x (by simp [hx])) h'
    · omega

/-- Among positive vectors with product `A`, `(A, 1, .., 1)` is the colex least. -/
theorem not_colexLt_front_prod {k A : Nat} {w : IVec} (hpos : ∀ x ∈ w, 1 ≤ x) (hp : w.prod = A) :
    ¬ colexLt w (A :: List.replicate k 1) := by
  match w with
  | [] => simp [colexLt]
  | c :: w =>
    simp only [colexLt]
    rintro (h | ⟨rfl, h⟩)
    · exact not_colexLt_ones (fun x hx => hpos x (by simp [hx])) h
    · simp at hp; omega

/-- Among positive vectors with product `s`, `(1, .., 1, s)` is the colex greatest. -/
theorem not_colexLt_back_prod {k s : Nat} {w : IVec} (hl : w.length = k + 1) (hpos : ∀ x ∈ w, 1 ≤ x)
    (hp : w.prod = s) (hs : 1 ≤ s) : ¬ colexLt (List.replicate k 1 ++ [s]) w := by
  obtain ⟨u, c, rfl⟩ : ∃ u c, w = u ++ [c] :=
    ⟨w.dropLast, w.getLast (by intro h; simp [h] at hl), by rw [List.dropLast_append_getLast]⟩
  simp at hl
  rw [colexLt_append (by simp [hl])]
  simp at hp
  have hu := prod_pos_of (w := u) (fun x hx => hpos x (by simp [hx]))
  rintro (h | ⟨h, h'⟩)
  · simp [colexLt] at h
    have : c ≤ u.prod * c := Nat.le_mul_of_pos_left c hu
    omega
  · simp at h
    subst h
    have : u.prod = 1 := by
      have : u.prod * s = 1 * s := by omega
      exact Nat.eq_of_mul_eq_mul_right (by omega) this
    rw [eq_ones_of_prod (fun x hx => hpos x (by simp [hx])) this, hl] at h'
    exact colexLt_irrefl _ h'

/-- The binary counter on the entries at most one. -/
theorem bits_spec : ∀ (m : IVec),
    ((Cross.bits m).1 = true ∧ ones (Cross.bits m).2 = ones m ∧ colexLt m (Cross.bits m).2 ∧
      ∀ y, ones y = ones m → colexLt m y → ¬ colexLt y (Cross.bits m).2) ∨
    ((Cross.bits m).1 = false ∧ (∀ y, ones y = ones m → ¬ colexLt m y) ∧
      (Cross.bits m).2 = m.map (fun x => if x = 1 then 0 else x))
  | [] => by
    right
    refine ⟨rfl, ?_, rfl⟩
    intro y _ h
    simp [colexLt] at h
  | x :: xs => by
    rw [Cross.bits]
    by_cases hx0 : x = 0
    · subst hx0
      left
      refine ⟨rfl, by simp [ones, max1], by simp [colexLt], ?_⟩
      intro y _ h1 h2
      match y, h1 with
      | y0 :: ys, h1 =>
        simp [colexLt] at h1 h2
        rcases h1 with h1 | ⟨rfl, h1⟩
        · rcases h2 with h2 | ⟨rfl, h2⟩
          · exact colexLt_asymm h1 h2
          · exact colexLt_irrefl _ h1
        · rcases h2 with h2 | h2
          · exact colexLt_irrefl _ h2
          · omega
    · -- in both remaining cases the entry is the largest of its class
      have hmax : ∀ y0, max1 y0 = max1 x → y0 ≤ x ∧ (x ≠ 1 → y0 = x) := by
        intro y0 h
        rw [max1_eq, max1_eq] at h
        constructor
        · omega
        · intro; omega
      have hres : (if x = 1 then
            let r := Cross.bits xs
            (r.1, 0 :: r.2)
          else if x = 0 then (true, 1 :: xs)
          else
            let r := Cross.bits xs
            (r.1, x :: r.2)) = ((Cross.bits xs).1, (if x = 1 then 0 else x) :: (Cross.bits xs).2) := by
        split <;> simp [hx0]
      rw [hres]
      have hone : max1 (if x = 1 then 0 else x) = max1 x := by
        split
        · rename_i h; rw [h]; rfl
        · rfl
      rcases bits_spec xs with ⟨e, o, l, nb⟩ | ⟨e, nb, form⟩
      · left
        refine ⟨e, ?_, by simp [colexLt, l], ?_⟩
        · simp only [ones, List.map_cons, hone, List.cons.injEq, true_and]; exact o
        · intro y hy h1 h2
          match y, h1 with
          | y0 :: ys, h1 =>
            simp only [ones, List.map_cons, List.cons.injEq] at hy
            have hm := hmax y0 hy.1
            simp only [colexLt] at h1 h2
            rcases h1 with h1 | ⟨_, h1⟩
            · rcases h2 with h2 | ⟨rfl, h2⟩
              · exact nb ys hy.2 h1 h2
              · split at h2
                · omega
                · rename_i h; have := hm.2 h; omega
            · omega
      · right
        refine ⟨e, ?_, by simp [form]⟩
        intro y hy h1
        match y, h1 with
        | y0 :: ys, h1 =>
          simp only [ones, List.map_cons, List.cons.injEq] at hy
          have hm := hmax y0 hy.1
          simp only [colexLt] at h1
          rcases h1 with h1 | ⟨_, h1⟩
          · exact nb ys hy.2 h1
          · omega

/-- A vector without entries equal to one is the least of its class. -/
theorem not_colexLt_base : ∀ {n y : IVec}, ones y = ones n → (∀ x ∈ n, x ≠ 1) → ¬ colexLt y n
  | [], y, _, _ => by cases y <;> simp [colexLt]
  | a :: n, [], _, _ => by simp [colexLt]
  | a :: n, c :: y, h, hn => by
    simp only [ones, List.map_cons, List.cons.injEq, max1_eq] at h
    have ha := hn a (by simp)
    simp only [colexLt]
    rintro (h' | ⟨_, h'⟩)
    · exact not_colexLt_base (by simpa [ones, funext max1_eq] using h.2) (fun x hx => hn x (by simp [hx])) h'
    · omega

theorem findFactor_spec {p : Nat} : ∀ {k f : Nat}, f + k = p + 1 → 1 ≤ k → 1 ≤ f →
    ∃ F, Cross.findFactor p k f = F ∧ f ≤ F ∧ F ≤ p ∧ F ∣ p ∧ ∀ g, f ≤ g → g < F → ¬ g ∣ p
  | 0, _, _, h, _ => by omega
  | k + 1, f, h, _, hf => by
    rw [Cross.findFactor]
    by_cases hd : p % f = 0
    · exact ⟨f, by simp [hd], le_refl _, by omega, Nat.dvd_of_mod_eq_zero hd, fun g h1 h2 => by omega⟩
    · have hk : 1 ≤ k := by
        by_contra hk
        have : f = p := by omega
        subst this; simp at hd
      obtain ⟨F, e, h1, h2, h3, h4⟩ := findFactor_spec (p := p) (k := k) (f := f + 1) (by omega) hk (by omega)
      refine ⟨F, by simp [hd, e], by omega, h2, h3, fun g h5 h6 => ?_⟩
      by_cases hgf : g = f
      · subst hgf; intro hdvd; exact hd (Nat.mod_eq_zero_of_dvd hdvd)
      · exact h4 g (by omega) h6

theorem Cross.scan_zeros : ∀ (k i : Nat) (p : IVec), p.length = i + 1 →
    Cross.scan (p ++ List.replicate k 0) k i = .ok (i + k, p ++ List.replicate k 0)
  | 0, i, p, _ => by simp [Cross.scan]
  | k + 1, i, p, h => by
    rw [Cross.scan, List.replicate_succ, rd_append_length p 0 _ h.symm]
    have := Cross.scan_zeros k (i + 1) (p ++ [0]) (by simp [h])
    simp only [List.append_assoc, List.singleton_append] at this
    simp only [Out.ok_bind, if_true, this]
    congr 2; omega

theorem Cross.scan_skip : ∀ (k i l : Nat) (p : IVec) (s : IVec), p.length = i + 1 →
    Cross.scan (p ++ (List.replicate k 0 ++ s)) (k + l) i =
      Cross.scan (p ++ (List.replicate k 0 ++ s)) l (i + k)
  | 0, i, l, p, s, h => by simp
  | k + 1, i, l, p, s, h => by
    rw [show k + 1 + l = (k + l) + 1 by omega, Cross.scan, List.replicate_succ, List.cons_append,
      rd_append_length p 0 _ h.symm]
    have := Cross.scan_skip k (i + 1) l (p ++ [0]) s (by simp [h])
    simp only [List.append_assoc, List.singleton_append] at this
    simp only [Out.ok_bind, if_true, this]
    congr 1; omega

/-- The second phase at the end of a product level. -/
theorem Cross.tail_end {m : IVec} {a k degree : Nat} (hbits : Cross.bits m = (false, a :: List.replicate k 0))
    (hlen : m.length = k + 1) (hd : degree ≠ 1) :
    Cross.s_increment m degree =
      if a = degree then .ok (true, a :: List.replicate k 0)
      else .ok (false, List.replicate k 0 ++ [1 + max1 a]) := by
  have := Cross.scan_zeros k 0 [a] rfl
  simp only [List.singleton_append, Nat.zero_add] at this
  rw [Cross.s_increment, hbits]
  simp only [Bool.false_eq_true, if_false, hd, hlen, Nat.add_sub_cancel, this, Out.ok_bind, if_true, rd_zero_cons]
  rw [if_neg (by omega)]
  split
  · rfl
  · cases k with
    | zero => simp
    | succ k =>
      rw [List.replicate_succ', ← List.cons_append, wr_append_length _ _ _ _ (by simp)]
      simp [zeros_append_zero]

/-- The second phase inside a product level. -/
theorem Cross.tail_mid {m r : IVec} {a k b degree : Nat}
    (hbits : Cross.bits m = (false, a :: (List.replicate k 0 ++ (b + 2) :: r)))
    (hlen : m.length = k + 2 + r.length) (hd : degree ≠ 1) :
    ∃ F, max1 a < F ∧ F ≤ max1 a * (b + 2) ∧ F ∣ max1 a * (b + 2) ∧
      (∀ g, max1 a < g → g < F → ¬ g ∣ max1 a * (b + 2)) ∧
      Cross.s_increment m degree = .ok (false, List.replicate k 0 ++ F ::
        (if F = max1 a * (b + 2) then 0 else max1 a * (b + 2) / F) :: r) := by
  have hA := one_le_max1 a
  have hlt : max1 a < max1 a * (b + 2) := by nlinarith
  obtain ⟨F, hF, h1, h2, h3, h4⟩ := findFactor_spec (p := max1 a * (b + 2))
    (k := max1 a * (b + 2) - max1 a) (f := max1 a + 1) (by omega) (by omega) (by omega)
  refine ⟨F, by omega, h2, h3, fun g h5 h6 => h4 g (by omega) h6, ?_⟩
  have hs := Cross.scan_skip k 0 (r.length + 1) [a] ((b + 2) :: r) rfl
  simp only [List.singleton_append, Nat.zero_add] at hs
  rw [Cross.s_increment, hbits]
  have hdim : m.length - 1 = k + (r.length + 1) := by omega
  simp only [Bool.false_eq_true, if_false, hd, hdim, hs]
  rw [if_neg (by omega)]
  rw [Cross.scan]
  rw [← List.cons_append, rd_append_length _ _ _ (by simp)]
  simp only [Out.ok_bind, if_neg (show ¬ (b + 2 = 0) by omega), List.cons_append, rd_zero_cons, hF]
  have hw : ∀ c, (do
      let m1 ← wr (a :: (List.replicate k 0 ++ (b + 2) :: r)) k F
      let m2 ← wr m1 (k + 1) c
      Out.ok (k, m2)) = .ok (k, (if k = 0 then [F] else a :: (List.replicate (k - 1) 0 ++ [F])) ++ c :: r) := by
    intro c
    cases k with
    | zero => simp [wr]
    | succ k =>
      rw [List.replicate_succ', List.append_assoc, List.singleton_append, ← List.cons_append,
        wr_append_length _ _ _ _ (by simp)]
      simp only [Out.ok_bind]
      have : a :: List.replicate k 0 ++ F :: (b + 2) :: r = (a :: List.replicate k 0 ++ [F]) ++ (b + 2) :: r := by simp
      rw [this, wr_append_length _ _ _ _ (by simp)]
      simp
  have hrest : ∀ c, (do
      let x ← (do
        let m1 ← wr (a :: (List.replicate k 0 ++ (b + 2) :: r)) k F
        let m2 ← wr m1 (k + 1) c
        Out.ok (k, m2))
      match x with
      | (i, m) =>
        if i = k + (r.length + 1) then do
          let m0 ← rd m 0
          if m0 = degree then Out.ok (true, m)
          else do
            let m ← wr m i (1 + max1 m0)
            if i > 0 then do
              let m ← wr m 0 0
              Out.ok (false, m)
            else Out.ok (false, m)
        else if i > 0 then do
          let m ← wr m 0 0
          Out.ok (false, m)
        else Out.ok (false, m)) = .ok (false, List.replicate k 0 ++ F :: c :: r) := by
    intro c
    rw [hw c]
    simp only [Out.ok_bind]
    rw [if_neg (by omega)]
    cases k with
    | zero => simp
    | succ k => simp [zeros_append_zero, List.replicate_succ]
  by_cases hFp : F = max1 a * (b + 2)
  · have := hrest 0
    simp only [bind_assoc] at this
    simp only [hFp, if_true, bind_assoc] at this ⊢
    exact this
  · have := hrest (max1 a * (b + 2) / F)
    simp only [bind_assoc] at this
    simp only [hFp, if_false, if_neg (show ¬ F = 0 by omega), bind_assoc] at this ⊢
    exact this

/-- Order of the cross listing. -/
def crossLt (x y : IVec) : Prop :=
  (ones x).prod < (ones y).prod ∨ ((ones x).prod = (ones y).prod ∧
    (colexLt (ones y) (ones x) ∨ (ones x = ones y ∧ colexLt x y)))

theorem crossLt_strict (n : Nat) (P : IVec → Prop) (hP : ∀ x, P x → x.length = n) : StrictOn P crossLt where
  irrefl x _ := by simp [crossLt, colexLt_irrefl]
  trans x y z _ _ _ h h' := by
    unfold crossLt at *
    rcases h with h | ⟨h, h1 | ⟨h1, h2⟩⟩ <;> rcases h' with h' | ⟨h', h1' | ⟨h1', h2'⟩⟩
    · left; omega
    · left; omega
    · left; omega
    · left; omega
    · exact Or.inr ⟨by omega, Or.inl (colexLt_trans h1' h1)⟩
    · exact Or.inr ⟨by omega, Or.inl (h1' ▸ h1)⟩
    · left; omega
    · exact Or.inr ⟨by omega, Or.inl (h1 ▸ h1')⟩
    · exact Or.inr ⟨by omega, Or.inr ⟨h1.trans h1', colexLt_trans h2 h2'⟩⟩
  total x y hx hy := by
    unfold crossLt
    have hl := (hP x hx).trans (hP y hy).symm
    rcases Nat.lt_trichotomy (ones x).prod (ones y).prod with h | h | h
    · exact Or.inl (Or.inl h)
    · rcases colexLt_total (x := ones x) (y := ones y) (by simp [ones, hl]) with h' | h' | h'
      · exact Or.inr (Or.inr (Or.inr ⟨h.symm, Or.inl h'⟩))
      · rcases colexLt_total hl with hc | hc | hc
        · exact Or.inl (Or.inr ⟨h, Or.inr ⟨h', hc⟩⟩)
        · exact Or.inr (Or.inl hc)
        · exact Or.inr (Or.inr (Or.inr ⟨h.symm, Or.inr ⟨h'.symm, hc⟩⟩))
      · exact Or.inl (Or.inr ⟨h, Or.inl h'⟩)
    · exact Or.inr (Or.inr (Or.inl h))

/-- Setting the ones to zero. -/
def base (m : IVec) : IVec := m.map (fun x => if x = 1 then 0 else x)

theorem ones_base (m : IVec) : ones (base m) = ones m := by
  simp only [ones, base, List.map_map]
  apply List.map_congr_left
  intro x _
  simp only [Function.comp]
  split
  · rename_i h; rw [h]; rfl
  · rfl

theorem base_ne_one (m : IVec) : ∀ x ∈ base m, x ≠ 1 := by
  intro x hx
  simp only [base, List.mem_map] at hx
  obtain ⟨a, _, rfl⟩ := hx
  split <;> omega

theorem split_at {x : IVec} {k : Nat} (hk : k < x.length) : ∃ u c r, x = u ++ c :: r ∧ u.length = k := by
  refine ⟨x.take k, x[k], x.drop (k + 1), ?_, by simp; omega⟩
  rw [← List.drop_eq_getElem_cons hk, List.take_append_drop]

theorem Cross.isSucc (dim degree : Nat) (hd : 1 ≤ dim) :
    IsSucc (Spec.InCross dim (max 1 degree)) crossLt (fun m => Cross.s_increment m degree) := by
  intro m hm
  obtain ⟨hlen, hprod⟩ := hm
  rw [← ones_eq] at hprod
  rcases bits_spec m with ⟨e, o, l, nb⟩ | ⟨e, nb, form⟩
  · -- the binary counter moves
    right
    refine ⟨(Cross.bits m).2, by simp [Cross.s_increment, e], ⟨?_, ?_⟩, ?_, ?_⟩
    · have := congrArg List.length o; simp [ones] at this; omega
    · rw [← ones_eq, o]; exact hprod
    · exact Or.inr ⟨by rw [o], Or.inr ⟨o.symm, l⟩⟩
    · rintro y - h h'
      unfold crossLt at h h'
      rw [o] at h'
      rcases h with h | ⟨h, h1 | ⟨h1, h2⟩⟩
      · rcases h' with h' | ⟨h', -⟩ <;> omega
      · rcases h' with h' | ⟨h', h1' | ⟨h1', h2'⟩⟩
        · omega
        · exact colexLt_asymm h1 h1'
        · rw [h1'] at h1; exact colexLt_irrefl _ h1
      · rcases h' with h' | ⟨h', h1' | ⟨h1', h2'⟩⟩
        · omega
        · rw [h1] at h1'; exact colexLt_irrefl _ h1'
        · exact nb y h1.symm h2 h2'
  · -- the class of `m` is exhausted
    have hbits : Cross.bits m = (false, base m) := by rw [← e]; exact Prod.ext rfl form
    have hbl : (base m).length = dim := by simp [base, hlen]
    have hob := ones_base m
    have hb1 := base_ne_one m
    -- nothing of the same class follows
    have after : ∀ y, crossLt m y → (ones m).prod < (ones y).prod ∨
        ((ones m).prod = (ones y).prod ∧ colexLt (ones y) (ones m)) := by
      intro y h
      rcases h with h | ⟨h, h1 | ⟨h1, h2⟩⟩
      · exact Or.inl h
      · exact Or.inr ⟨h, h1⟩
      · exact absurd h2 (nb y h1.symm)
    by_cases hd1 : degree = 1
    · left
      refine ⟨base m, by simp [Cross.s_increment, hbits, hd1], ?_⟩
      rintro y ⟨hyl, hyp⟩ h
      subst hd1
      rw [← ones_eq] at hyp
      have h1 := prod_pos_of (w := ones m) (fun x => ones_pos)
      have h2 := prod_pos_of (w := ones y) (fun x => ones_pos)
      simp at hyp hprod
      rcases after y h with h | ⟨-, h⟩
      · omega
      · rw [eq_ones_of_prod (w := ones m) (fun x => ones_pos) (by omega)] at h
        exact not_colexLt_ones (fun x => ones_pos) h
    · match hb : base m, hbl with
      | [], hbl => simp at hbl; omega
      | a :: t, hbl =>
        simp at hbl
        rcases zeros_or_first t with ht | ⟨k, b, r, rfl⟩
        · -- end of a level
          have hA := one_le_max1 a
          have hom : ones m = max1 a :: List.replicate t.length 1 := by
            rw [← hob, hb, ht]; simp [ones, max1]
          have hpm : (ones m).prod = max1 a := by rw [hom]; simp
          have hinc := Cross.tail_end (degree := degree) (a := a) (k := t.length) (m := m)
            (by rw [hbits, hb, ← ht]) (by omega) hd1
          have after' : ∀ y, crossLt m y → max1 a < (ones y).prod := by
            intro y h
            rcases after y h with h | ⟨h, h1⟩
            · omega
            · rw [hom] at h1
              exact absurd h1 (not_colexLt_front_prod (fun x => ones_pos) (by omega))
          have ha1 : a ≠ 1 := hb1 a (by rw [hb]; simp)
          by_cases had : a = degree
          · left
            refine ⟨_, by simp only [hinc, if_pos had]; rfl, ?_⟩
            rintro y ⟨hyl, hyp⟩ h
            have := after' y h
            rw [← ones_eq] at hyp
            rw [max1_eq, had] at this
            omega
          · right
            have hlt : max1 a < max 1 degree := by
              rw [hpm] at hprod
              rcases Nat.lt_or_ge (max1 a) (max 1 degree) with h | h
              · exact h
              · rw [max1_eq] at h hprod; omega
            have hon : ones (List.replicate t.length 0 ++ [1 + max1 a]) = List.replicate t.length 1 ++ [1 + max1 a] := by
              have : max1 (1 + max1 a) = 1 + max1 a := by rw [max1_eq (1 + _)]; omega
              simp [ones, max1] at this ⊢
            have hpn : (ones (List.replicate t.length 0 ++ [1 + max1 a])).prod = 1 + max1 a := by rw [hon]; simp
            refine ⟨List.replicate t.length 0 ++ [1 + max1 a], hinc.trans (if_neg had), ⟨by simp; omega, ?_⟩, ?_, ?_⟩
            · rw [← ones_eq, hpn]; omega
            · left; rw [hpn]; omega
            · rintro y ⟨hyl, hyp⟩ h h'
              have h1 := after' y h
              rcases h' with h' | ⟨h', h2 | ⟨h2, h3⟩⟩
              · omega
              · rw [hon] at h2
                exact not_colexLt_back_prod (by simp; omega) (fun x => ones_pos) (by omega) (by omega) h2
              · refine not_colexLt_base h2 ?_ h3
                intro x hx
                simp at hx
                omega
        · -- inside a level
          obtain ⟨b, rfl⟩ : ∃ b', b = b' + 1 := by
            have : b + 1 ≠ 1 := hb1 _ (by rw [hb]; simp)
            exact ⟨b - 1, by omega⟩
          have hA := one_le_max1 a
          simp at hbl
          obtain ⟨F, hF1, hF2, hF3, hF4, hinc⟩ := Cross.tail_mid (degree := degree) (a := a) (k := k) (b := b) (r := r)
            (m := m) (by rw [hbits, hb]) (by omega) hd1
          set p := max1 a * (b + 2) with hp
          set c' := if F = p then 0 else p / F with hc'
          have hFp : F * (p / F) = p := Nat.mul_div_cancel' hF3
          have hC : max1 c' = p / F ∧ c' ≠ 1 := by
            rw [hc']
            split
            · rename_i h
              refine ⟨?_, by omega⟩
              rw [h, Nat.div_self (by omega)]; rfl
            · rename_i h
              have h0 : p / F ≠ 0 := by intro h0; rw [h0] at hFp; omega
              have h1 : p / F ≠ 1 := by intro h1; rw [h1] at hFp; omega
              exact ⟨by rw [max1_eq]; exact Nat.max_eq_right (Nat.pos_of_ne_zero h0), h1⟩
          set C := p / F with hCdef
          have hom : ones m = (max1 a :: List.replicate k 1) ++ (b + 2) :: ones r := by
            have h2 : max1 (b + 2) = b + 2 := by rw [max1_eq]; omega
            have h3 : b + 1 + 1 = b + 2 := rfl
            rw [← hob, hb]; simp [ones, h3, h2]; exact Or.inr rfl
          have hon : ones (List.replicate k 0 ++ F :: c' :: r) = (List.replicate k 1 ++ [F]) ++ C :: ones r := by
            have h2 : max1 F = F := by rw [max1_eq]; omega
            simp [ones, h2, hC.1]; exact Or.inr rfl
          have hpm : (ones m).prod = p * (ones r).prod := by
            rw [hom]; simp [hp, Nat.mul_assoc]
          have hpn : (ones (List.replicate k 0 ++ F :: c' :: r)).prod = p * (ones r).prod := by
            rw [hon]; simp [← Nat.mul_assoc, hFp]
          have hCb : C < b + 2 := by
            by_contra hcon
            have : max1 a * (b + 2) < F * C := Nat.mul_lt_mul_of_lt_of_le hF1 (by omega) (by omega)
            omega
          have hC0 : 0 < C := Nat.pos_of_ne_zero (by intro h0; rw [h0] at hFp; omega)
          right
          refine ⟨_, hinc, ⟨by simp; omega, ?_⟩, ?_, ?_⟩
          · rw [← ones_eq, hpn, ← hpm]; exact hprod
          · right
            refine ⟨by rw [hpn, hpm], Or.inl ?_⟩
            rw [hon, hom, colexLt_append (by simp)]
            left; simp only [colexLt]; right; exact ⟨trivial, hCb⟩
          · rintro y ⟨hyl, hyp⟩ h h'
            have hpy : (ones y).prod = p * (ones r).prod := by
              rcases h with h | ⟨h, -⟩ <;> rcases h' with h' | ⟨h', -⟩ <;> omega
            have h1 : colexLt (ones y) (ones m) := by
              rcases after y h with h | ⟨-, h⟩
              · omega
              · exact h
            rcases h' with h' | ⟨-, h2 | ⟨h2, h3⟩⟩
            · omega
            · -- strictly between two classes
              have hyl' : (ones y).length = k + 2 + r.length := by simp; omega
              obtain ⟨u, c, r', hy, hu⟩ := split_at (x := ones y) (k := k + 1) (by omega)
              have hupos : ∀ x ∈ u, 1 ≤ x := fun x hx => ones_pos (m := y) (by rw [hy]; simp [hx])
              rw [hom, hy, colexLt_append (by simp [hu])] at h1
              rw [hon, hy, colexLt_append (by simp [hu])] at h2
              have hr : r' = ones r := by
                simp only [colexLt] at h1 h2
                rcases h1 with (h1 | ⟨h1, -⟩) | ⟨h1, -⟩
                · rcases h2 with (h2 | ⟨h2, -⟩) | ⟨h2, -⟩
                  · exact absurd h1 (colexLt_asymm h2)
                  · exact h2.symm
                  · simp at h2; exact h2.2.symm
                · exact h1
                · simp at h1; exact h1.2
              subst hr
              simp only [colexLt, colexLt_irrefl, false_or, true_and, List.cons.injEq, and_true] at h1 h2
              have hrpos := prod_pos_of (w := ones r) (fun x => ones_pos)
              have hpu : u.prod * c = p := by
                have : u.prod * c * (ones r).prod = p * (ones r).prod := by
                  rw [← hpy, hy]; simp [Nat.mul_assoc]
                exact Nat.eq_of_mul_eq_mul_right hrpos this
              rcases h1 with h1 | ⟨rfl, h1⟩
              · rcases h2 with h2 | ⟨rfl, h2⟩
                · refine hF4 u.prod ?_ ?_ ⟨c, hpu.symm⟩
                  · by_contra hcon
                    have : u.prod * c ≤ max1 a * c := Nat.mul_le_mul_right c (by omega)
                    have : max1 a * c < max1 a * (b + 2) := Nat.mul_lt_mul_of_pos_left h1 (by omega)
                    omega
                  · by_contra hcon
                    have : F * c ≤ u.prod * c := Nat.mul_le_mul_right c (by omega)
                    have : F * C < F * c := Nat.mul_lt_mul_of_pos_left h2 (by omega)
                    omega
                · refine not_colexLt_back_prod hu hupos ?_ (by omega) h2
                  exact Nat.eq_of_mul_eq_mul_right hC0 (hpu.trans hFp.symm)
              · refine not_colexLt_front_prod hupos ?_ h1
                exact Nat.eq_of_mul_eq_mul_right (by omega) hpu
            · refine not_colexLt_base h2 ?_ h3
              intro x hx
              simp at hx
              rcases hx with hx | hx | hx | hx
              · omega
              · omega
              · rw [hx]; exact hC.2
              · exact hb1 x (by rw [hb]; simp [hx])

theorem le_prod_of_mem : ∀ {w : IVec} {a : Nat}, (∀ x ∈ w, 1 ≤ x) → a ∈ w → a ≤ w.prod
  | [], _, _, h => by simp at h
  | b :: m, a, hp, h => by
    have h1 := prod_pos_of (w := m) (fun x hx => hp x (by simp [hx]))
    have h2 := hp b (by simp)
    simp at h ⊢
    rcases h with rfl | h
    · exact Nat.le_mul_of_pos_right _ h1
    · exact le_trans (le_prod_of_mem (fun x hx => hp x (by simp [hx])) h) (Nat.le_mul_of_pos_left _ h2)

theorem le_ones_prod {m : IVec} {a : Nat} (h : a ∈ m) : a ≤ (ones m).prod := by
  have h1 : max1 a ∈ ones m := List.mem_map_of_mem h
  have h2 := le_prod_of_mem (fun x => ones_pos) h1
  rw [max1_eq] at h2
  omega

theorem finite_cross (dim degree : Nat) : {x | Spec.InCross dim degree x}.Finite :=
  (finite_bounded dim degree).subset (fun x hx => ⟨hx.1, fun _ ha => by
    have := hx.2
    rw [← ones_eq] at this
    exact le_trans (le_ones_prod ha) this⟩)

end Hermipy
