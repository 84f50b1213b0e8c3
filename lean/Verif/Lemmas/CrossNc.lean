import Verif.Lemmas.Cross

/-! # The non-consistent cross increment is the successor for the triangle order restricted to the cross -/

namespace Hermipy

/-- No product formed while searching exceeds 32 bits. -/
def NoWrap (dim degree : Nat) : Prop :=
  ∀ m : List Nat, m.length = dim → m.sum ≤ max 1 degree + dim - 1 → (m.map (max 1)).prod < u32

theorem foldl_product : ∀ (m : IVec) (p : Nat), p * (ones m).prod < u32 →
    m.foldl (fun p x => wrap32 (p * max1 x)) p = p * (ones m).prod
  | [], p, _ => by simp
  | x :: m, p, h => by
    have hpos := prod_pos_of (w := ones m) (fun _ => ones_pos)
    simp only [ones, List.map_cons, List.prod_cons] at h ⊢
    rw [← Nat.mul_assoc] at h
    have h1 : p * max1 x < u32 := lt_of_le_of_lt (Nat.le_mul_of_pos_right _ hpos) h
    rw [List.foldl_cons]
    have : wrap32 (p * max1 x) = p * max1 x := Nat.mod_eq_of_lt h1
    rw [this, foldl_product m _ h, Nat.mul_assoc]

theorem product_eq {m : IVec} (h : (ones m).prod < u32) : CrossNc.product m = (ones m).prod := by
  rw [CrossNc.product, foldl_product m 1 (by simpa using h), Nat.one_mul]

/-- For positive vectors, the sum is at most the product plus `length - 1`. -/
theorem sum_le_prod : ∀ {w : IVec}, (∀ x ∈ w, 1 ≤ x) → w.sum + 1 ≤ w.prod + w.length
  | [], _ => by simp
  | a :: w, h => by
    have h1 := h a (by simp)
    have h2 := sum_le_prod (w := w) (fun x hx => h x (by simp [hx]))
    have h3 := prod_pos_of (w := w) (fun x hx => h x (by simp [hx]))
    simp only [List.sum_cons, List.prod_cons, List.length_cons]
    nlinarith

theorem sum_le_ones : ∀ (m : IVec), m.sum ≤ (ones m).sum
  | [] => by simp
  | a :: m => by
    have := sum_le_ones m
    have h : max1 a = max 1 a := max1_eq a
    simp [ones, h] at this ⊢
    omega

theorem pos_of_sum_ones : ∀ {m : IVec}, m.sum = (ones m).sum → ∀ x ∈ m, 1 ≤ x
  | [], _ => by simp
  | a :: m, h => by
    have h1 := sum_le_ones m
    have h2 : max1 a = max 1 a := max1_eq a
    simp only [ones, List.map_cons, List.sum_cons] at h h1
    intro x hx
    rcases List.mem_cons.1 hx with rfl | hx
    · omega
    · exact pos_of_sum_ones (m := m) (by simp only [ones]; omega) x hx

theorem cross_sum {dim d : Nat} {m : IVec} (hd : 1 ≤ dim) (h : Spec.InCross dim d m) : m.sum ≤ d + dim - 1 := by
  have h1 := sum_le_ones m
  have h2 := sum_le_prod (w := ones m) (fun _ => ones_pos)
  have h3 := h.2
  rw [← ones_eq] at h3
  simp only [ones, List.length_map, h.1] at h1 h2 h3
  omega

/-- `(d, 1, .., 1)` is the last element of the cross in triangle order. -/
theorem cross_last {dim d : Nat} {y : IVec} (hd : 1 ≤ dim) (h : Spec.InCross dim d y) :
    ¬ triLt (d :: List.replicate (dim - 1) 1) y := by
  have hs := cross_sum hd h
  rintro (h' | ⟨h', hc⟩)
  · simp at h'; omega
  · simp at h'
    have h1 := sum_le_ones y
    have h2 := sum_le_prod (w := ones y) (fun _ => ones_pos)
    have h3 := h.2
    rw [← ones_eq] at h3
    have hpos := pos_of_sum_ones (m := y) (by
      simp only [ones, List.length_map, h.1] at h1 h2 h3 ⊢
      omega)
    match y, hc with
    | c :: y, hc =>
      simp only [colexLt] at hc
      rcases hc with hc | ⟨rfl, hc⟩
      · exact not_colexLt_ones (fun x hx => hpos x (by simp [hx])) hc
      · simp at h'; omega

theorem search_spec {dim d : Nat} (hd : 1 ≤ dim)
    (hw : ∀ m : List Nat, m.length = dim → m.sum ≤ d + dim - 1 → (m.map (max 1)).prod < u32) :
    ∀ n m, Spec.InTriangle dim (d + dim - 1) m → (∃ y, Spec.InCross dim d y ∧ triLt m y) →
      ({x | Spec.InTriangle dim (d + dim - 1) x ∧ triLt m x}).ncard = n →
      ∃ m', CrossNc.search d dim m = .ok m' ∧ Spec.InCross dim d m' ∧ triLt m m' ∧
        ∀ x, Spec.InCross dim d x → triLt m x → ¬ triLt x m' := by
  have ho : StrictOn (Spec.InTriangle dim (d + dim - 1)) triLt := triLt_strict dim _ (fun x hx => hx.1)
  have hsub : ∀ x, Spec.InCross dim d x → Spec.InTriangle dim (d + dim - 1) x :=
    fun x hx => ⟨hx.1, cross_sum hd hx⟩
  intro n
  induction n using Nat.strong_induction_on with
  | _ n ih =>
    rintro m hm ⟨y, hy, hmy⟩ hn
    rcases Triangle.isSucc dim (d + dim - 1) hd m hm with ⟨m', e, hlast⟩ | ⟨m', e, hm', hlt, hnb⟩
    · exact absurd hmy (hlast y (hsub y hy))
    · have hp : CrossNc.product m' = (ones m').prod := by
        apply product_eq
        rw [ones_eq]
        exact hw m' hm'.1 hm'.2
      simp only at e
      by_cases hgt : (ones m').prod > d
      · have hcard : ({x | Spec.InTriangle dim (d + dim - 1) x ∧ triLt m' x}).ncard < n := by
          rw [← hn]
          apply Set.ncard_lt_ncard
          · refine ⟨fun x hx => ⟨hx.1, ho.trans _ _ _ hm hm' hx.1 hlt hx.2⟩, fun h => ?_⟩
            exact ho.irrefl _ hm' (h ⟨hm', hlt⟩ : m' ∈ {x | Spec.InTriangle dim (d + dim - 1) x ∧ triLt m' x}).2
          · exact (finite_triangle dim (d + dim - 1)).subset (fun x hx => hx.1)
        have key : ∀ x, Spec.InCross dim d x → triLt m x → triLt m' x := by
          intro x hx hmx
          rcases ho.total x m' (hsub x hx) hm' with h | h | h
          · exact absurd h (hnb x (hsub x hx) hmx)
          · subst h
            have := hx.2
            rw [← ones_eq] at this
            omega
          · exact h
        obtain ⟨m'', e2, h1, h2, h3⟩ := ih _ hcard m' hm' ⟨y, hy, key y hy hmy⟩ rfl
        refine ⟨m'', ?_, h1, ho.trans _ _ _ hm hm' (hsub _ h1) hlt h2, fun x hx hmx => h3 x hx (key x hx hmx)⟩
        rw [CrossNc.search]
        simp only [e, Out.ok_bind, Bool.false_eq_true, if_false, hp, hgt, if_true, e2]
      · refine ⟨m', ?_, ⟨hm'.1, ?_⟩, hlt, fun x hx hmx => hnb x (hsub x hx) hmx⟩
        · rw [CrossNc.search]
          simp only [e, Out.ok_bind, Bool.false_eq_true, if_false, hp, hgt]
        · rw [← ones_eq]; omega

theorem CrossNc.isSucc (dim degree : Nat) (hd : 1 ≤ dim) (hw : NoWrap dim degree) :
    IsSucc (Spec.InCross dim (max 1 degree)) triLt (fun m => CrossNc.s_increment m degree) := by
  intro m hm
  have hsub : Spec.InTriangle dim (max 1 degree + dim - 1) m := ⟨hm.1, cross_sum hd hm⟩
  match m, hm with
  | [], hm => simp [Spec.InCross] at hm; omega
  | a :: t, hm =>
    have hlen := hm.1
    simp at hlen
    simp only [CrossNc.s_increment, rd_zero_cons, Out.ok_bind, List.tail_cons, max1_eq]
    by_cases hl : a = max 1 degree ∧ t.all (· = 1) = true
    · left
      refine ⟨a :: t, by rw [if_pos hl], fun x hx => ?_⟩
      have : t = List.replicate (dim - 1) 1 := by
        rw [List.eq_replicate_iff]
        refine ⟨by omega, fun b hb => ?_⟩
        have := hl.2
        rw [List.all_eq_true] at this
        simpa using this b hb
      rw [hl.1, this]
      exact cross_last hd hx
    · right
      have hy : Spec.InCross dim (max 1 degree) (max 1 degree :: List.replicate (dim - 1) 1) := by
        constructor
        · simp; omega
        · simp
      have ho : StrictOn (Spec.InCross dim (max 1 degree)) triLt := triLt_strict dim _ (fun x hx => hx.1)
      have hlt : triLt (a :: t) (max 1 degree :: List.replicate (dim - 1) 1) := by
        rcases ho.total _ _ hm hy with h | h | h
        · exact h
        · exfalso
          simp only [List.cons.injEq] at h
          apply hl
          rw [h.1, h.2]
          simp
        · exact absurd h (cross_last hd hm)
      obtain ⟨m', e, h1, h2, h3⟩ := search_spec hd hw _ (a :: t) hsub ⟨_, hy, hlt⟩ rfl
      refine ⟨m', ?_, h1, h2, h3⟩
      rw [if_neg hl]
      simp only [List.length_cons, hlen, e, Out.ok_bind]

end Hermipy
