import Verif.Lemmas.Index

/-! # Recovering the degree from the number of coefficients -/

namespace Hermipy

/-- The bisection terminates, and any value returned is a solution. -/
theorem bissectLoop_spec {f : Nat → Out Nat} {g : Nat → Nat} {image max : Nat} (hf : ∀ d, d ≤ max → f d = .ok (g d)) :
    ∀ n x1 x2, x2 - x1 = n → x1 < x2 → x2 ≤ max → g x1 < image → image < g x2 →
      (∃ d, bissectLoop f image x1 x2 = .ok d ∧ d ≤ max ∧ g d = image) ∨
      (bissectLoop f image x1 x2 = .exit 1 ∧ ∃ x, x + 1 ≤ max ∧ g x < image ∧ image < g (x + 1)) := by
  intro n
  induction n using Nat.strong_induction_on with
  | _ n ih =>
    intro x1 x2 hn hlt hmax h1 h2
    have hfm := hf ((x1 + x2) / 2) (by omega)
    rw [bissectLoop]
    simp only [hfm, Out.ok_bind]
    by_cases hy : g ((x1 + x2) / 2) < image
    · simp only [hy, if_true]
      by_cases hx : (x1 + x2) / 2 = x1
      · have : x2 = x1 + 1 := by omega
        subst this
        simp only [hx, if_true]
        right
        exact ⟨trivial, x1, hmax, h1, h2⟩
      · simp only [hx, if_false]
        exact ih _ (by omega) _ _ rfl (by omega) hmax hy h2
    · simp only [hy, if_false]
      by_cases hy' : image < g ((x1 + x2) / 2)
      · simp only [hy', if_true]
        have hx : (x1 + x2) / 2 ≠ x1 := by intro h; rw [h] at hy'; omega
        exact ih _ (by omega) _ _ rfl (by omega) (by omega) h1 hy'
      · simp only [hy', if_false]
        left
        exact ⟨_, rfl, by omega, by omega⟩

theorem pos_bissect_spec {f : Nat → Out Nat} {g : Nat → Nat} {image max : Nat} (hmax : 0 < max)
    (hf : ∀ d, d ≤ max → f d = .ok (g d)) :
    (∃ d, pos_bissect image f max = .ok d ∧ d ≤ max ∧ g d = image) ∨
    (pos_bissect image f max = .exit 0 ∧ (image < g 0 ∨ g max < image)) ∨
    (pos_bissect image f max = .exit 1 ∧ ∃ x, x + 1 ≤ max ∧ g x < image ∧ image < g (x + 1)) := by
  rw [pos_bissect]
  simp only [hf 0 (by omega), hf max (le_refl _), Out.ok_bind]
  by_cases h1 : image < g 0 ∨ g max < image
  · right; left; simp only [h1, if_true, true_and]
  · simp only [h1, if_false]
    by_cases h2 : g 0 = image
    · left; exact ⟨0, by simp [h2], by omega, h2⟩
    · simp only [h2, if_false]
      by_cases h3 : g max = image
      · left; exact ⟨max, by simp [h3], le_refl _, h3⟩
      · simp only [h3, if_false]
        rcases bissectLoop_spec (image := image) hf _ 0 max rfl hmax (le_refl _) (by omega) (by omega) with h | h
        · exact Or.inl h
        · exact Or.inr (Or.inr h)

/-- Number of elements of an index set. -/
noncomputable def card (s : IndexSet) (dim degree : Nat) : Nat := {m : IVec | Spec.InSet s dim degree m}.ncard

theorem IterOk.length {s : IndexSet} {dim degree : Nat} {L : List IVec} (h : IterOk s dim degree L) :
    L.length = card s dim degree := by
  rw [card]
  have : {m : IVec | Spec.InSet s dim degree m} = {m | m ∈ L} := by ext m; simp [h.mem]
  rw [this]
  have hf : {m : IVec | m ∈ L} = (L.toFinset : Set IVec) := by ext m; simp
  rw [hf, Set.ncard_coe_finset, List.toFinset_card_of_nodup h.nodup]

theorem card_mono {s : IndexSet} {dim d d' : Nat} (h : d ≤ d') : card s dim d ≤ card s dim d' :=
  Set.ncard_le_ncard (fun _ hm => inSet_mono h hm) (finite_inSet s dim d')

/-- Sizes grow strictly, except that the crosses do not distinguish degrees 0 and 1. -/
theorem card_strict {s : IndexSet} {dim d d' : Nat} (hdim : 1 ≤ dim) (h : d < d')
    (hc : s = .cross ∨ s = .cross_nc → 1 ≤ d) : card s dim d < card s dim d' := by
  refine lt_of_lt_of_le ?_ (card_mono (d := d + 1) h)
  refine Set.ncard_lt_ncard ⟨fun _ hm => inSet_mono (by omega) hm, fun hsub => ?_⟩ (finite_inSet s dim (d + 1))
  have hone : ∀ k, (List.replicate k 0).map (max 1) = List.replicate k 1 := by simp
  have hin : Spec.InSet s dim (d + 1) ((d + 1) :: List.replicate (dim - 1) 0) := by
    cases s
    · exact ⟨by simp; omega, by simp⟩
    · exact ⟨by simp; omega, by simp⟩
    · refine ⟨by simp; omega, ?_⟩; simp
    · refine ⟨by simp; omega, ?_⟩; simp
    · obtain ⟨n, rfl⟩ : ∃ n, dim = n + 1 := ⟨dim - 1, by omega⟩
      rw [Spec.InSet, inRectangle_cons]; simp
  have hnot : ¬ Spec.InSet s dim d ((d + 1) :: List.replicate (dim - 1) 0) := by
    cases s
    · intro h; have := h.2; simp at this
    · intro h; have := h.2 (d + 1) (by simp); omega
    · intro h; have := h.2; have := hc (Or.inl rfl); simp at *; omega
    · intro h; have := h.2; have := hc (Or.inr rfl); simp at *; omega
    · obtain ⟨n, rfl⟩ : ∃ n, dim = n + 1 := ⟨dim - 1, by omega⟩
      rw [Spec.InSet, inRectangle_cons]; simp
  exact hnot (hsub hin)

theorem card_cross_zero {s : IndexSet} (hs : s = .cross ∨ s = .cross_nc) (dim : Nat) : card s dim 0 = card s dim 1 := by
  rcases hs with rfl | rfl <;> rfl

theorem noWrap_mono {dim d d' : Nat} (hd : 1 ≤ dim) (h : d ≤ d') (hw : NoWrap dim d') : NoWrap dim d :=
  fun m h1 h2 => hw m h1 (by omega)

theorem Fits.mono {s : IndexSet} {dim d d' : Nat} (h : d ≤ d') (hf : Fits s dim d') : Fits s dim d :=
  ⟨hf.1, fun e => noWrap_mono hf.1 h (hf.2 e)⟩

theorem size_eq_card {s : IndexSet} {dim degree : Nat} (hf : Fits s dim degree) (hc : card s dim degree < u32) :
    s.s_size dim degree = .ok (card s dim degree) := by
  obtain ⟨L, hL⟩ := iterOk_exists hf
  rw [← hL.length]
  exact hL.size hf.1 (by rw [hL.length]; exact hc)

/-- `(d, 1, .., 1)` is the last element of the cross listing. -/
theorem cross_greatest {dim d : Nat} {y : IVec} (hy : Spec.InCross dim d y) :
    ¬ crossLt (d :: List.replicate (dim - 1) 1) y := by
  have hone : ∀ k, ones (List.replicate k 1) = List.replicate k 1 := by intro k; simp [ones, max1]
  have hprod := hy.2
  rw [← ones_eq] at hprod
  have hm1 := max1_eq d
  have h1 : ones (d :: List.replicate (dim - 1) 1) = max1 d :: List.replicate (dim - 1) 1 := by
    have := hone (dim - 1)
    simp only [ones, List.map_cons] at this ⊢
    rw [this]
  have hp1 : (ones (d :: List.replicate (dim - 1) 1)).prod = max1 d := by rw [h1]; simp
  rintro (h | ⟨h, h' | ⟨h', h2⟩⟩)
  · omega
  · rw [h1] at h'
    exact not_colexLt_front_prod (fun _ => ones_pos) (by omega) h'
  · rw [h1] at h'
    have key : ∀ {n : Nat} {a : Nat} {w : IVec}, max1 a :: List.replicate n 1 = ones w → (1 ≤ a) →
        ¬ colexLt (a :: List.replicate n 1) w := by
      intro n a w hw ha
      match w, hw with
      | c :: w, hw =>
        simp only [ones, List.map_cons, List.cons.injEq, max1_eq] at hw
        simp only [colexLt]
        rintro (h3 | ⟨-, h3⟩)
        · have hall : ∀ {n : Nat} {w : IVec}, List.replicate n 1 = w.map max1 → ¬ colexLt (List.replicate n 1) w := by
            intro n
            induction n with
            | zero => intro w; cases w <;> simp [colexLt]
            | succ n ih =>
              intro w hw
              cases w with
              | nil => simp [colexLt]
              | cons c w =>
                simp only [List.replicate_succ, List.map_cons, List.cons.injEq, max1_eq] at hw
                simp only [List.replicate_succ, colexLt]
                rintro (h4 | ⟨-, h4⟩)
                · exact ih hw.2 h4
                · omega
          exact hall hw.2 h3
        · omega
    by_cases hd : 1 ≤ d
    · exact key h' hd h2
    · -- degree 0: the set is empty
      have := prod_pos_of (w := ones y) (fun _ => ones_pos)
      omega

theorem IterOk.last_cross {dim d : Nat} (hd : 1 ≤ dim) (hd1 : 1 ≤ d) {L : List IVec} (h : IterOk .cross dim d L) :
    L[L.length - 1]? = some (d :: List.replicate (dim - 1) 1) := by
  have hin : Spec.InCross dim d (d :: List.replicate (dim - 1) 1) := ⟨by simp; omega, by simp; omega⟩
  have hmax : max 1 d = d := by omega
  have hmem : (d :: List.replicate (dim - 1) 1) ∈ L := (h.mem _).2 (by simp only [Spec.InSet, hmax]; exact hin)
  obtain ⟨k, hk, e⟩ := List.getElem_of_mem hmem
  have hlast : ¬ k < L.length - 1 := by
    intro hlt
    have := List.pairwise_iff_getElem.1 h.sorted k (L.length - 1) hk (by omega) hlt
    rw [e] at this
    refine cross_greatest (dim := dim) ?_ this
    have := (h.mem L[L.length - 1]).1 (List.getElem_mem _)
    simpa only [Spec.InSet, hmax] using this
  have : k = L.length - 1 := by omega
  subst this
  rw [List.getElem?_eq_getElem hk, e]

/-- Degree recovery for the bisected index sets. -/
theorem get_degree_bissect {s : IndexSet} (hs : s ≠ .cross) {dim n : Nat} (hf : Fits s dim 250)
    (hc : card s dim 250 < u32) :
    (∃ d, s.s_get_degree dim n = .ok d ∧ d ≤ 250 ∧ card s dim d = n) ∨
    (s.s_get_degree dim n = .exit 0 ∧ (n < card s dim 0 ∨ card s dim 250 < n)) ∨
    (s.s_get_degree dim n = .exit 1 ∧ ∃ x, x + 1 ≤ 250 ∧ card s dim x < n ∧ n < card s dim (x + 1)) := by
  have hg : s.s_get_degree dim n = pos_bissect n (fun degree => s.s_size dim degree) 250 := by
    cases s <;> first | rfl | exact absurd rfl hs
  rw [hg]
  exact pos_bissect_spec (by omega) (fun d hd => size_eq_card (hf.mono hd) (lt_of_le_of_lt (card_mono hd) hc))

theorem get_degree_card {s : IndexSet} {dim degree : Nat} (hf : Fits s dim 250) (hc : card s dim 250 < u32)
    (hdeg : degree ≤ 250) (h1 : s = .cross → degree ≠ 0) (h2 : s = .cross_nc → degree ≠ 1) :
    s.s_get_degree dim (card s dim degree) = .ok degree := by
  by_cases hs : s = .cross
  · subst hs
    obtain ⟨L, hL⟩ := iterOk_exists hf
    obtain ⟨L', hL'⟩ := iterOk_exists (hf.mono hdeg)
    have hpre := IterOk.prefix (s := .cross) (by simp) hf.1 hdeg hL' hL
    have hlast := hL'.last_cross hf.1 (by have := h1 rfl; omega)
    have hne : L'.length ≠ 0 := by simpa using hL'.runs.ne_nil
    have hget : L[card .cross dim degree - 1]? = some (degree :: List.replicate (dim - 1) 1) := by
      rw [← hL'.length, ← hlast]
      obtain ⟨t, rfl⟩ := hpre
      rw [List.getElem?_append_left (by omega)]
    rw [IndexSet.s_get_degree]
    simp only [DEGREE_BISSECT_MAX, hL.iter, Out.ok_bind, if_neg (show ¬ card .cross dim degree = 0 by rw [← hL'.length]; exact hne)]
    simp only [freshIter, rd, hget]
    simp
  · rcases get_degree_bissect hs (n := card s dim degree) hf hc with ⟨d, e, hd, hcd⟩ | ⟨_, h⟩ | ⟨_, x, h3, h4, h5⟩
    · rw [e]
      congr 1
      by_contra hne
      -- equal sizes force equal degrees, up to the cross degrees 0 and 1
      rcases Nat.lt_or_gt_of_ne hne with hlt | hlt
      · by_cases hnc : s = .cross_nc ∧ d = 0
        · obtain ⟨rfl, rfl⟩ := hnc
          have hdeg1 : degree ≠ 1 := h2 rfl
          have h0 := card_cross_zero (s := .cross_nc) (Or.inr rfl) dim
          have := card_strict (s := .cross_nc) hf.1 (show 1 < degree by omega) (fun _ => le_refl _)
          omega
        · have := card_strict (s := s) hf.1 hlt (fun hh => by
            rcases hh with hh | hh
            · exact absurd hh hs
            · by_contra h0; exact hnc ⟨hh, by omega⟩)
          omega
      · by_cases hnc : s = .cross_nc ∧ degree = 0
        · obtain ⟨rfl, rfl⟩ := hnc
          -- the bisection tests degree 0 first
          have : IndexSet.cross_nc.s_get_degree dim (card .cross_nc dim 0) = .ok 0 := by
            rw [IndexSet.s_get_degree, pos_bissect]
            · simp only [DEGREE_BISSECT_MAX, size_eq_card (hf.mono (Nat.zero_le 250)) (lt_of_le_of_lt (card_mono (Nat.zero_le 250)) hc), size_eq_card hf hc, Out.ok_bind]
              have := card_mono (s := .cross_nc) (dim := dim) (Nat.zero_le 250)
              rw [if_neg (by omega)]
              simp
            · simp
          rw [this] at e
          simp at e
          omega
        · have := card_strict (s := s) hf.1 hlt (fun hh => by
            rcases hh with hh | hh
            · exact absurd hh hs
            · by_contra h0; exact hnc ⟨hh, by omega⟩)
          omega
    · have ha := card_mono (s := s) (dim := dim) (Nat.zero_le degree)
      have hb := card_mono (s := s) (dim := dim) hdeg
      omega
    · exfalso
      rcases Nat.lt_or_ge x degree with h | h
      · have := card_mono (s := s) (dim := dim) (show x + 1 ≤ degree from h)
        omega
      · have := card_mono (s := s) (dim := dim) h
        omega

/-- In dimension at most four the side conditions hold. -/
theorem side_conditions {s : IndexSet} {dim : Nat} (h1 : 1 ≤ dim) (h4 : dim ≤ 4) :
    Fits s dim 250 ∧ card s dim 250 < u32 := by
  have hpow : ∀ b, b ^ dim ≤ (max 1 b) ^ 4 := by
    intro b
    exact le_trans (Nat.pow_le_pow_left (by omega) dim) (Nat.pow_le_pow_right (by omega) h4)
  refine ⟨⟨h1, fun _ => noWrap_of_pow h1 ?_⟩, ?_⟩
  · refine lt_of_le_of_lt (Nat.pow_le_pow_left (show max 1 250 + dim - 1 ≤ 253 by omega) dim) ?_
    exact lt_of_le_of_lt (Nat.pow_le_pow_right (by omega) h4) (by decide)
  · have hcube : card .cube dim 250 < u32 := by
      obtain ⟨L, hL⟩ := iterOk_exists (s := .cube) (dim := dim) (degree := 250) ⟨h1, by simp⟩
      rw [← hL.length, hL.length_cube]
      exact lt_of_le_of_lt (Nat.pow_le_pow_right (by omega) h4) (by decide)
    refine lt_of_le_of_lt (Set.ncard_le_ncard (fun m hm => ?_) (finite_inSet .cube dim 250)) hcube
    refine ⟨inSet_length hm, fun x hx => ?_⟩
    cases s
    · exact le_trans (le_sum_of_mem hx) hm.2
    · exact hm.2 x hx
    · have := hm.2
      rw [← ones_eq] at this
      have h5 := le_ones_prod hx
      omega
    · have := hm.2
      rw [← ones_eq] at this
      have h5 := le_ones_prod hx
      omega
    · obtain ⟨i, hi, rfl⟩ := List.getElem_of_mem hx
      have := hm.2 i hi
      split at this <;> omega

end Hermipy
