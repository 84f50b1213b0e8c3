import Verif.Model.FinestCommon
import Verif.Spec.Partition
import Mathlib.Data.Finset.Card
import Mathlib.Tactic.Common

/-! # `finest_common` -/

namespace Hermipy

open Spec

variable {α : Type} [DecidableEq α]

theorem inter_ne_empty {s t : Finset α} : s ∩ t ≠ ∅ ↔ ∃ x, x ∈ s ∧ x ∈ t := by
  rw [← Finset.nonempty_iff_ne_empty]
  simp [Finset.Nonempty]

/-- What one pass over a copy of `blocks` does. -/
theorem absorb_spec (I : Finset α → Prop) (l : List (Finset α)) :
    ∀ (s : Finset α) (blocks : Finset (Finset α)), l.Nodup → (∀ t ∈ l, t ∈ blocks) → I s →
    (∀ s' t, I s' → t ∈ l → s' ∩ t ≠ ∅ → I (s' ∪ t)) →
    I (absorb s blocks l).1 ∧ s ⊆ (absorb s blocks l).1 ∧ (absorb s blocks l).2 ⊆ blocks ∧
    (∀ b ∈ blocks, b ∈ (absorb s blocks l).2 ∨ (b ⊆ (absorb s blocks l).1 ∧ b.Nonempty)) ∧
    ((∃ t ∈ l, s ∩ t ≠ ∅) → (absorb s blocks l).2.card < blocks.card) := by
  induction l with
  | nil => intro s blocks _ _ hI _; simp [absorb, hI]; exact fun b hb => Or.inl hb
  | cons t ts ih =>
    intro s blocks hn hm hI hstep
    rw [List.nodup_cons] at hn
    by_cases h : s ∩ t ≠ ∅
    · have e : absorb s blocks (t :: ts) = absorb (s ∪ t) (blocks.erase t) ts := by simp [absorb, h]
      rw [e]
      have hm' : ∀ u ∈ ts, u ∈ blocks.erase t := by
        intro u hu
        refine Finset.mem_erase.2 ⟨?_, hm u (List.mem_cons_of_mem _ hu)⟩
        rintro rfl; exact hn.1 hu
      obtain ⟨h1, h2, h3, h4, h5⟩ := ih (s ∪ t) (blocks.erase t) hn.2 hm'
        (hstep s t hI List.mem_cons_self h)
        (fun s' u hs' hu => hstep s' u hs' (List.mem_cons_of_mem _ hu))
      refine ⟨h1, Finset.Subset.trans Finset.subset_union_left h2,
        Finset.Subset.trans h3 (Finset.erase_subset _ _), ?_, ?_⟩
      · intro b hb
        by_cases hbt : b = t
        · subst hbt
          right
          refine ⟨Finset.Subset.trans Finset.subset_union_right h2, ?_⟩
          obtain ⟨x, _, hx⟩ := inter_ne_empty.1 h
          exact ⟨x, hx⟩
        · exact h4 b (Finset.mem_erase.2 ⟨hbt, hb⟩)
      · intro _
        have := Finset.card_le_card h3
        have := Finset.card_erase_lt_of_mem (hm t List.mem_cons_self)
        omega
    · have e : absorb s blocks (t :: ts) = absorb s blocks ts := by simp only [absorb, if_neg h]
      rw [e]
      obtain ⟨h1, h2, h3, h4, h5⟩ := ih s blocks hn.2 (fun u hu => hm u (List.mem_cons_of_mem _ hu)) hI
        (fun s' u hs' hu => hstep s' u hs' (List.mem_cons_of_mem _ hu))
      refine ⟨h1, h2, h3, h4, ?_⟩
      rintro ⟨u, hu, hu'⟩
      rcases List.mem_cons.1 hu with rfl | hu
      · exact absurd hu' h
      · exact h5 ⟨u, hu, hu'⟩

/-- The oracle returns the elements of the set it is asked about. -/
def OrderOk (order : ℕ → Finset (Finset α) → List (Finset α)) : Prop :=
  ∀ k S, (order k S).Nodup ∧ ∀ b, b ∈ order k S ↔ b ∈ S

/-- The invariant of the loop. -/
structure FcInv (P Q : Finset (Finset α)) (s0 : Finset α) (I : Finset α → Prop) (st : FcState α) : Prop where
  sub : s0 ⊆ st.2.1
  good : I st.2.1
  left : st.2.2.1 ⊆ P.erase s0
  right : st.2.2.2 ⊆ Q
  gone1 : ∀ b ∈ P, b ∈ st.2.2.1 ∨ (b ⊆ st.2.1 ∧ b.Nonempty)
  gone2 : ∀ b ∈ Q, b ∈ st.2.2.2 ∨ (b ⊆ st.2.1 ∧ b.Nonempty)

theorem finestLoop_spec {order : ℕ → Finset (Finset α) → List (Finset α)} (ho : OrderOk order)
    {P Q : Finset (Finset α)} {s0 : Finset α} {I : Finset α → Prop}
    (hI : ∀ s t, I s → (t ∈ P ∨ t ∈ Q) → s ∩ t ≠ ∅ → I (s ∪ t)) :
    ∀ (n : ℕ) (st : FcState α), st.2.2.1.card + st.2.2.2.card = n → FcInv P Q s0 I st →
    ∃ st', finestLoop order st = .ok st' ∧ FcInv P Q s0 I st' ∧
      (∀ b, b ∈ st'.2.2.1 ∨ b ∈ st'.2.2.2 → ∀ x ∈ b, x ∉ st'.2.1) := by
  intro n
  induction n using Nat.strong_induction_on with
  | _ n ih =>
    intro st hn hinv
    rw [finestLoop]
    split
    · rename_i hc
      obtain ⟨a1, a2, a3, a4, a5⟩ := absorb_spec I (order st.1 st.2.2.2) st.2.1 st.2.2.2 (ho _ _).1
        (fun t ht => ((ho _ _).2 t).1 ht) hinv.good
        (fun s' t hs' ht => hI s' t hs' (Or.inr (hinv.right (((ho _ _).2 t).1 ht))))
      obtain ⟨b1, b2, b3, b4, b5⟩ := absorb_spec I (order (st.1 + 1) st.2.2.1)
        (absorb st.2.1 st.2.2.2 (order st.1 st.2.2.2)).1 st.2.2.1 (ho _ _).1
        (fun t ht => ((ho _ _).2 t).1 ht) a1
        (fun s' t hs' ht => hI s' t hs'
          (Or.inl (Finset.mem_of_mem_erase (hinv.left (((ho _ _).2 t).1 ht)))))
      have c1 := Finset.card_le_card a3
      have c2 := Finset.card_le_card b3
      refine ih _ ?_ (finestStep order st) rfl ?_
      · simp only [finestStep]
        rcases hc with ⟨t, ht, hx⟩ | ⟨t, ht, hx⟩
        · have := b5 ⟨t, ((ho _ _).2 t).2 ht, by
            obtain ⟨x, hx1, hx2⟩ := inter_ne_empty.1 hx
            exact inter_ne_empty.2 ⟨x, a2 hx2, hx1⟩⟩
          omega
        · have := a5 ⟨t, ((ho _ _).2 t).2 ht, by rwa [Finset.inter_comm]⟩
          omega
      · refine ⟨hinv.sub.trans (a2.trans b2), b1, b3.trans hinv.left, a3.trans hinv.right, ?_, ?_⟩
        · intro b hb
          rcases hinv.gone1 b hb with h | h
          · exact b4 b h
          · exact Or.inr ⟨h.1.trans (a2.trans b2), h.2⟩
        · intro b hb
          rcases hinv.gone2 b hb with h | h
          · rcases a4 b h with h | h
            · exact Or.inl h
            · exact Or.inr ⟨h.1.trans b2, h.2⟩
          · exact Or.inr ⟨h.1.trans (a2.trans b2), h.2⟩
    · rename_i hc
      push Not at hc
      refine ⟨st, rfl, hinv, ?_⟩
      rintro b (hb | hb) x hx hxs
      · exact inter_ne_empty.2 ⟨x, hx, hxs⟩ (hc.1 b hb)
      · exact inter_ne_empty.2 ⟨x, hx, hxs⟩ (hc.2 b hb)

omit [DecidableEq α] in
theorem Finer.refl' (P : Finset (Finset α)) : Finer P P := fun b hb => ⟨b, hb, Finset.Subset.refl _⟩

omit [DecidableEq α] in
theorem Finer.trans' {P Q R : Finset (Finset α)} (h : Finer P Q) (k : Finer Q R) : Finer P R := by
  intro b hb
  obtain ⟨c, hc, hbc⟩ := h b hb
  obtain ⟨d, hd, hcd⟩ := k c hc
  exact ⟨d, hd, hbc.trans hcd⟩

/-- A partition contained in another partition of the same set is equal to it. -/
theorem partition_eq_of_subset {U : Finset α} {P Q : Finset (Finset α)} (hP : IsPartition U P)
    (hQ : IsPartition U Q) (h : P ⊆ Q) : P = Q := by
  refine Finset.Subset.antisymm h fun b hb => ?_
  obtain ⟨x, hx⟩ := hQ.nonempty b hb
  obtain ⟨c, hc, hxc⟩ := (hP.cover x).1 ((hQ.cover x).2 ⟨b, hb, hx⟩)
  rwa [hQ.disjoint b hb c (h hc) x hx hxc]

/-- Merging into one block the blocks that meet `s`. -/
theorem merge_partition {U : Finset α} {P A : Finset (Finset α)} {s : Finset α} (hP : IsPartition U P)
    (hA : A ⊆ P) (hs : s ⊆ U) (hne : s.Nonempty) (gone : ∀ b ∈ P, b ∈ A ∨ b ⊆ s)
    (apart : ∀ b ∈ A, ∀ x ∈ b, x ∉ s) : IsPartition U (insert s A) := by
  refine ⟨?_, ?_, ?_⟩
  · intro b hb
    rcases Finset.mem_insert.1 hb with rfl | hb
    · exact hne
    · exact hP.nonempty b (hA hb)
  · intro b hb c hc x hxb hxc
    rcases Finset.mem_insert.1 hb with hb | hb <;> rcases Finset.mem_insert.1 hc with hc | hc
    · rw [hb, hc]
    · exact absurd (hb ▸ hxb) (apart c hc x hxc)
    · exact absurd (hc ▸ hxc) (apart b hb x hxb)
    · exact hP.disjoint b (hA hb) c (hA hc) x hxb hxc
  · intro x
    constructor
    · intro hx
      obtain ⟨b, hb, hxb⟩ := (hP.cover x).1 hx
      rcases gone b hb with h | h
      · exact ⟨b, Finset.mem_insert_of_mem h, hxb⟩
      · exact ⟨s, Finset.mem_insert_self _ _, h hxb⟩
    · rintro ⟨b, hb, hxb⟩
      rcases Finset.mem_insert.1 hb with rfl | hb
      · exact hs hxb
      · exact (hP.cover x).2 ⟨b, hA hb, hxb⟩

theorem finest_common_spec {order : ℕ → Finset (Finset α) → List (Finset α)} (ho : OrderOk order) {U : Finset α} :
    ∀ (n : ℕ) (k : ℕ) (P Q : Finset (Finset α)), (P \ Q).card = n → IsPartition U P → IsPartition U (Q.erase ∅) →
    ∃ R, finest_common order k P Q = .ok R ∧ IsJoin U P (Q.erase ∅) R := by
  intro n
  induction n using Nat.strong_induction_on with
  | _ n ih =>
    intro k P Q hn hP hQ
    rw [finest_common]
    split
    · rename_i h
      refine ⟨P, rfl, hP, Finer.refl' _, ?_, fun T _ h _ => h⟩
      have hsub : P ⊆ Q.erase ∅ := by
        intro b hb
        refine Finset.mem_erase.2 ⟨(hP.nonempty b hb).ne_empty, ?_⟩
        by_contra hq
        exact Finset.notMem_empty b (h ▸ Finset.mem_sdiff.2 ⟨hb, hq⟩)
      rw [← partition_eq_of_subset hP hQ hsub]
      exact Finer.refl' _
    · rename_i hne
      cases hl : order k (P \ Q) with
      | nil =>
        exfalso
        obtain ⟨b, hb⟩ := Finset.nonempty_iff_ne_empty.2 hne
        have := ((ho k (P \ Q)).2 b).2 hb
        rw [hl] at this
        exact absurd this List.not_mem_nil
      | cons s l =>
        have hs : s ∈ P \ Q := ((ho k (P \ Q)).2 s).1 (by rw [hl]; exact List.mem_cons_self)
        have hsP := (Finset.mem_sdiff.1 hs).1
        have hsQ := (Finset.mem_sdiff.1 hs).2
        dsimp only
        let I : Finset α → Prop := fun s' => s' ⊆ U ∧
          ∀ T, IsPartition U T → Finer P T → Finer (Q.erase ∅) T → ∃ c ∈ T, s' ⊆ c
        have hI : ∀ s' t, I s' → (t ∈ P ∨ t ∈ Q) → s' ∩ t ≠ ∅ → I (s' ∪ t) := by
          intro s' t ⟨h1, h2⟩ ht hx
          obtain ⟨x, hxs, hxt⟩ := inter_ne_empty.1 hx
          have ht' : t ∈ P ∨ t ∈ Q.erase ∅ := by
            rcases ht with h | h
            · exact Or.inl h
            · exact Or.inr (Finset.mem_erase.2 ⟨by rintro rfl; exact absurd hxt (Finset.notMem_empty _), h⟩)
          refine ⟨Finset.union_subset h1 ?_, ?_⟩
          · intro y hy
            rcases ht' with h | h
            · exact (hP.cover y).2 ⟨t, h, hy⟩
            · exact (hQ.cover y).2 ⟨t, h, hy⟩
          · intro T hT hPT hQT
            obtain ⟨c, hc, hsc⟩ := h2 T hT hPT hQT
            obtain ⟨d, hd, htd⟩ : ∃ d ∈ T, t ⊆ d := by
              rcases ht' with h | h
              · exact hPT t h
              · exact hQT t h
            have := hT.disjoint c hc d hd x (hsc hxs) (htd hxt)
            subst this
            exact ⟨c, hc, Finset.union_subset hsc htd⟩
        obtain ⟨st, hst, inv, apart⟩ := finestLoop_spec ho (P := P) (Q := Q) (s0 := s) hI _
          (k + 1, s, P.erase s, Q) rfl
          { sub := Finset.Subset.refl _
            good := ⟨fun x hx => (hP.cover x).2 ⟨s, hsP, hx⟩, fun T _ h _ => h s hsP⟩
            left := Finset.Subset.refl _
            right := Finset.Subset.refl _
            gone1 := fun b hb => by
              by_cases h : b = s
              · subst h; exact Or.inr ⟨Finset.Subset.refl _, hP.nonempty b hb⟩
              · exact Or.inl (Finset.mem_erase.2 ⟨h, hb⟩)
            gone2 := fun b hb => Or.inl hb }
        rw [hst]
        obtain ⟨c', s', A, B⟩ := st
        simp only [Out.ok_bind]
        obtain ⟨isub, igood, ileft, iright, ig1, ig2⟩ := inv
        dsimp only at isub igood ileft iright ig1 ig2 apart ⊢
        have hs'ne : s'.Nonempty := (hP.nonempty s hsP).mono isub
        have hAP : A ⊆ P := ileft.trans (Finset.erase_subset _ _)
        have hP' : IsPartition U (insert s' A) := merge_partition hP hAP igood.1 hs'ne
          (fun b hb => (ig1 b hb).imp id And.left) (fun b hb => apart b (Or.inl hb))
        have hQ'e : (insert s' B).erase ∅ = insert s' (B.erase ∅) :=
          Finset.erase_insert_of_ne hs'ne.ne_empty
        have hQ' : IsPartition U ((insert s' B).erase ∅) := by
          rw [hQ'e]
          refine merge_partition hQ (Finset.erase_subset_erase _ iright) igood.1 hs'ne ?_ ?_
          · intro b hb
            rcases ig2 b (Finset.mem_of_mem_erase hb) with h | h
            · exact Or.inl (Finset.mem_erase.2 ⟨(Finset.mem_erase.1 hb).1, h⟩)
            · exact Or.inr h.1
          · exact fun b hb => apart b (Or.inr (Finset.mem_of_mem_erase hb))
        have hlt : (insert s' A \ insert s' B).card < n := by
          rw [← hn]
          have : insert s' A \ insert s' B ⊆ (P \ Q).erase s := by
            intro b hb
            rw [Finset.mem_sdiff, Finset.mem_insert, Finset.mem_insert, not_or] at hb
            obtain ⟨hb1, hb2, hb3⟩ := hb
            rcases hb1 with rfl | hbA
            · exact absurd rfl hb2
            refine Finset.mem_erase.2 ⟨(Finset.mem_erase.1 (ileft hbA)).1, Finset.mem_sdiff.2 ⟨hAP hbA, ?_⟩⟩
            intro hbQ
            rcases ig2 b hbQ with h | ⟨h, x, hx⟩
            · exact hb3 h
            · exact apart b (Or.inl hbA) x hx (h hx)
          calc _ ≤ ((P \ Q).erase s).card := Finset.card_le_card this
            _ < _ := Finset.card_erase_lt_of_mem hs
        obtain ⟨R, hR, hJ⟩ := ih _ hlt c' (insert s' A) (insert s' B) rfl hP' hQ'
        refine ⟨R, hR, hJ.partition, Finer.trans' ?_ hJ.left, Finer.trans' ?_ hJ.right, ?_⟩
        · intro b hb
          rcases ig1 b hb with h | h
          · exact ⟨b, Finset.mem_insert_of_mem h, Finset.Subset.refl _⟩
          · exact ⟨s', Finset.mem_insert_self _ _, h.1⟩
        · rw [hQ'e]
          intro b hb
          rcases ig2 b (Finset.mem_of_mem_erase hb) with h | h
          · exact ⟨b, Finset.mem_insert_of_mem (Finset.mem_erase.2 ⟨(Finset.mem_erase.1 hb).1, h⟩),
              Finset.Subset.refl _⟩
          · exact ⟨s', Finset.mem_insert_self _ _, h.1⟩
        · intro T hT hPT hQT
          refine hJ.least T hT ?_ ?_
          · intro b hb
            rcases Finset.mem_insert.1 hb with rfl | hb
            · exact igood.2 T hT hPT hQT
            · exact hPT b (hAP hb)
          · rw [hQ'e]
            intro b hb
            rcases Finset.mem_insert.1 hb with rfl | hb
            · exact igood.2 T hT hPT hQT
            · exact hQT b (Finset.erase_subset_erase _ iright hb)

end Hermipy
