import Verif.Spec.BoostMat
import Verif.Lemmas.Matrix
import Mathlib.Algebra.Ring.Defs
import Mathlib.Tactic.Ring

/-! # Laws of the dense ublas matrices and of the arithmetic on matrices -/

namespace Hermipy

open Spec

variable {α : Type}

theorem pos_lt {n1 n2 i j : Nat} (hi : i < n1) (hj : j < n2) : i * n2 + j < n1 * n2 := by
  calc i * n2 + j < i * n2 + n2 := by omega
    _ = (i + 1) * n2 := by ring
    _ ≤ n1 * n2 := Nat.mul_le_mul_right _ hi

theorem pos_inj {n2 i j a b : Nat} (hj : j < n2) (hb : b < n2) (h : i * n2 + j = a * n2 + b) : i = a ∧ j = b := by
  have h1 : (i * n2 + j) / n2 = i := by
    rw [Nat.mul_comm, Nat.mul_add_div (by omega), Nat.div_eq_of_lt hj, Nat.add_zero]
  have h2 : (a * n2 + b) / n2 = a := by
    rw [Nat.mul_comm, Nat.mul_add_div (by omega), Nat.div_eq_of_lt hb, Nat.add_zero]
  rw [h, h2] at h1
  subst h1
  exact ⟨rfl, by omega⟩

instance lawfulBMat [Zero α] : LawfulMat (BMat α) α where
  construct n1 n2 := by
    refine ⟨rfl, rfl, by simp [MatOps.construct], fun i j hi hj => ?_⟩
    simp only [MatOps.construct]
    rw [List.getElem?_replicate, if_pos (pos_lt hi hj)]
  size1 h := h.1
  size2 h _ := by rw [← h.2.1]; rfl
  get {m n1 n2 f i j} h hi hj := by
    obtain ⟨rfl, rfl, h3, h4⟩ := h
    simp only [MatOps.get]
    rw [if_pos ⟨hi, hj⟩, rd, h4 i j hi hj]
  set {m n1 n2 f i j} h hi hj x := by
    obtain ⟨rfl, rfl, h3, h4⟩ := h
    refine ⟨{ m with data := m.data.set (i * m.size2 + j) x }, ?_, rfl, rfl, by simpa using h3, ?_⟩
    · simp only [MatOps.set]
      rw [if_pos ⟨hi, hj⟩, wr_of_lt (by rw [h3]; exact pos_lt hi hj), Out.ok_bind]
    · intro a b ha hb
      rw [List.getElem?_set]
      by_cases hab : a = i ∧ b = j
      · obtain ⟨rfl, rfl⟩ := hab
        rw [if_pos rfl, if_pos (by rw [h3]; exact pos_lt ha hb)]
        simp
      · rw [if_neg (fun e => hab (by have := pos_inj hj hb e; omega)), h4 a b ha hb]
        beta_reduce
        rw [if_neg hab]
  congr {m n1 n2 f g} h hfg := by
    obtain ⟨rfl, rfl, h3, h4⟩ := h
    exact ⟨rfl, rfl, h3, fun i j hi hj => by rw [h4 i j hi hj, hfg i j hi hj]⟩

theorem naive_convert_ok {S T : Type} [Zero α] [MatOps S α] [MatOps T α] [Meaning S α] [Meaning T α] [LawfulMat S α]
    [LawfulMat T α] {m : S} {n1 n2 : Nat} {f : Nat → Nat → α} (hn : 1 ≤ n1) (h : IsMat m n1 n2 f) :
    ∃ m' : T, naive_convert m = .ok m' ∧ IsMat m' n1 n2 f := by
  rw [naive_convert, LawfulMat.size2 h hn, Out.ok_bind, LawfulMat.size1 h]
  refine rect_loop (f := f) (z := (0 : α)) (fun M g => IsMat M n1 n2 g) (LawfulMat.construct _ _)
    (fun h hg => LawfulMat.congr h hg) ?_
  intro i j M g hi hj hM _
  rw [LawfulMat.get h hi hj, Out.ok_bind]
  exact LawfulMat.set hM hi hj (f i j)

instance lawfulDB [Zero α] : LawfulConvert (DMat α) (BMat α) α where
  convert hn h := naive_convert_ok hn h
instance lawfulBD [Zero α] : LawfulConvert (BMat α) (DMat α) α where
  convert hn h := naive_convert_ok hn h
instance lawfulSB [Zero α] : LawfulConvert (SpMat α) (BMat α) α where
  convert hn h := naive_convert_ok hn h

/-- The laws of `operator+` and `operator*`. -/
class LawfulArith (M : Type) (α : outParam Type) [Add α] [Mul α] [MatArith M α] [Meaning M α] : Prop where
  add : ∀ {A B : M} {n1 n2 f g}, IsMat A n1 n2 f → IsMat B n1 n2 g →
    ∃ C : M, MatArith.add A B = .ok C ∧ IsMat C n1 n2 (fun i j => f i j + g i j)
  scale : ∀ {A : M} {n1 n2 f} (x : α), IsMat A n1 n2 f → IsMat (MatArith.scale A x) n1 n2 (fun i j => f i j * x)

theorem vecAdd_ok {β : Type} {add : β → β → Out β} (P : Nat → β → β → β → Prop) : ∀ {u v : List β}, u.length = v.length →
    (∀ i x y, u[i]? = some x → v[i]? = some y → ∃ z, add x y = .ok z ∧ P i x y z) →
    ∃ w, vecAdd add u v = .ok w ∧ w.length = u.length ∧
      ∀ (i : Nat) (z : β), w[i]? = some z → ∃ x y : β, u[i]? = some x ∧ v[i]? = some y ∧ P i x y z := by
  intro u v
  induction u generalizing v P with
  | nil => intro _ _; exact ⟨[], by simp [vecAdd], rfl, by simp⟩
  | cons x u ih =>
    intro hl h
    cases v with
    | nil => simp at hl
    | cons y v =>
      obtain ⟨z, e, hz⟩ := h 0 x y rfl rfl
      obtain ⟨w, e', hw, hw'⟩ := ih (fun i => P (i + 1)) (by simpa using hl) (fun i x y hx hy => h (i + 1) x y hx hy)
      refine ⟨z :: w, by rw [vecAdd, e, Out.ok_bind, e', Out.ok_bind], by simp [hw], ?_⟩
      intro i z' hz'
      cases i with
      | zero =>
        obtain rfl : z = z' := by simpa using hz'
        exact ⟨x, y, rfl, rfl, hz⟩
      | succ i => exact hw' i z' hz'

theorem exists_getElem? {β : Type} {l : List β} {i : Nat} (h : i < l.length) : ∃ x, l[i]? = some x :=
  ⟨l[i], List.getElem?_eq_getElem h⟩

instance arithDMat [Add α] [Mul α] : LawfulArith (DMat α) α where
  add {A B n1 n2 f g} hA hB := by
    obtain ⟨C, e, hl, hC⟩ := vecAdd_ok (add := vecAdd fun x y : α => .ok (x + y))
      (fun i r r' s => s.length = n2 ∧ ∀ j x, s[j]? = some x → x = f i j + g i j) (u := A) (v := B)
      (hA.1.trans hB.1.symm) (by
        intro i r r' hr hr'
        have l1 : r.length = n2 := hA.2.1 r (List.mem_of_getElem? hr)
        have l2 : r'.length = n2 := hB.2.1 r' (List.mem_of_getElem? hr')
        obtain ⟨s, e, hl, hs⟩ := vecAdd_ok (add := fun x y : α => .ok (x + y)) (fun j x y z => z = x + y) (u := r) (v := r')
          (l1.trans l2.symm) (fun j x y _ _ => ⟨x + y, rfl, rfl⟩)
        refine ⟨s, e, hl.trans l1, fun j x hx => ?_⟩
        obtain ⟨y, z, hy, hz, rfl⟩ := hs j x hx
        rw [hA.2.2 i j r y hr hy, hB.2.2 i j r' z hr' hz])
    refine ⟨C, e, hl.trans hA.1, fun r hr => ?_, fun i j r x hr hx => ?_⟩
    · obtain ⟨i, hi, rfl⟩ := List.getElem_of_mem hr
      obtain ⟨_, _, _, _, h, _⟩ := hC i _ (List.getElem?_eq_getElem hi)
      exact h
    · obtain ⟨_, _, _, _, _, h⟩ := hC i r hr
      exact h j x hx
  scale {A n1 n2 f} x hA := by
    refine ⟨by simpa [MatArith.scale] using hA.1, fun r hr => ?_, fun i j r y hr hy => ?_⟩
    · obtain ⟨r', hr', rfl⟩ := List.mem_map.1 hr
      simpa using hA.2.1 r' hr'
    · simp only [MatArith.scale, List.getElem?_map, Option.map_eq_some_iff] at hr
      obtain ⟨r', hr', rfl⟩ := hr
      rw [List.getElem?_map, Option.map_eq_some_iff] at hy
      obtain ⟨y', hy', rfl⟩ := hy
      rw [hA.2.2 i j r' y' hr' hy']

instance arithBMat [Add α] [Mul α] : LawfulArith (BMat α) α where
  add {A B n1 n2 f g} hA hB := by
    obtain ⟨h1, h2, h3, h4⟩ := hA
    obtain ⟨k1, k2, k3, k4⟩ := hB
    obtain ⟨w, e, hl, hw⟩ := vecAdd_ok (add := fun x y : α => .ok (x + y)) (fun j x y z => z = x + y) (u := A.data)
      (v := B.data) (h3.trans k3.symm) (fun j x y _ _ => ⟨x + y, rfl, rfl⟩)
    refine ⟨{ A with data := w }, ?_, h1, h2, hl.trans h3, fun i j hi hj => ?_⟩
    · simp only [MatArith.add]
      rw [if_pos ⟨h1.trans k1.symm, h2.trans k2.symm⟩, e, Out.ok_bind]
    · obtain ⟨z, hz⟩ := exists_getElem? (l := w) (i := i * n2 + j) (by rw [hl, h3]; exact pos_lt hi hj)
      obtain ⟨x, y, hx, hy, rfl⟩ := hw _ _ hz
      rw [h4 i j hi hj] at hx
      rw [k4 i j hi hj] at hy
      show w[i * n2 + j]? = _
      rw [hz, ← Option.some.inj hx, ← Option.some.inj hy]
  scale {A n1 n2 f} x hA := by
    obtain ⟨h1, h2, h3, h4⟩ := hA
    refine ⟨h1, h2, by simpa [MatArith.scale] using h3, fun i j hi hj => ?_⟩
    simp only [MatArith.scale, List.getElem?_map, h4 i j hi hj, Option.map_some]

/-- Only `x + 0 = x` and `0 * x = 0` are needed: they hold for floating-point numbers as well. -/
theorem arithSpMat_of [Zero α] [Add α] [Mul α] (h0 : ∀ x : α, x + 0 = x) (h1' : ∀ x : α, 0 * x = 0) : LawfulArith (SpMat α) α where
  add {A B n1 n2 f g} hA hB := by
    have hB' := hB
    obtain ⟨k1, k2, k3, k4, k5⟩ := hB'
    simp only [MatArith.add]
    rw [if_pos ⟨hA.1.trans k1.symm, hA.2.1.trans k2.symm⟩]
    obtain ⟨C, e, hC⟩ := foldlM_inv (f := fun (R : SpMat α) e => do
        let x ← MatOps.get R e.1.1 e.1.2
        MatOps.set R e.1.1 e.1.2 (x + e.2))
      (fun t R => IsMat R n1 n2 (fun i j => f i j + if ∃ e ∈ B.elems.take t, e.1 = (i, j) then g i j else 0)) B.elems A
      (LawfulMat.congr hA fun i j _ _ => by simp [h0]) (by
        intro t e R he hR
        obtain ⟨ht, rfl⟩ := List.getElem?_eq_some_iff.1 he
        obtain ⟨l1, l2, l3⟩ := k4 _ (List.getElem_mem ht)
        obtain ⟨⟨⟨a, b⟩, v⟩, hev⟩ : ∃ p, p = B.elems[t] := ⟨_, rfl⟩
        rw [← hev] at l1 l2 l3
        simp only at l1 l2 l3
        have hno : ¬∃ e ∈ B.elems.take t, e.1 = (a, b) := by
          rintro ⟨e, h1, h2⟩
          obtain ⟨s, hs, rfl⟩ := List.getElem_of_mem h1
          rw [List.length_take] at hs
          have := List.pairwise_iff_getElem.1 k3 s t (by omega) ht (by omega)
          rw [List.getElem_take] at h2
          rw [h2, ← hev] at this
          exact posLt_ne this rfl
        rw [← hev]
        simp only
        rw [LawfulMat.get hR l1 l2, Out.ok_bind, if_neg hno, h0]
        obtain ⟨R', e, hR'⟩ := LawfulMat.set hR l1 l2 (f a b + v)
        refine ⟨R', e, LawfulMat.congr hR' fun i j hi hj => ?_⟩
        have hiff : (∃ e ∈ B.elems.take (t + 1), e.1 = (i, j)) ↔ (∃ e ∈ B.elems.take t, e.1 = (i, j)) ∨ (i = a ∧ j = b) := by
          rw [List.take_succ_eq_append_getElem ht, ← hev]
          constructor
          · rintro ⟨e, h1, h2⟩
            rcases List.mem_append.1 h1 with h1 | h1
            · exact Or.inl ⟨e, h1, h2⟩
            · rw [List.mem_singleton] at h1
              subst h1
              simp only [Prod.mk.injEq] at h2
              exact Or.inr ⟨h2.1.symm, h2.2.symm⟩
          · rintro (⟨e, h1, h2⟩ | ⟨rfl, rfl⟩)
            · exact ⟨e, List.mem_append.2 (Or.inl h1), h2⟩
            · exact ⟨_, List.mem_append.2 (Or.inr (List.mem_singleton.2 rfl)), rfl⟩
        by_cases hab : i = a ∧ j = b
        · rw [if_pos hab, if_pos (hiff.2 (Or.inr hab)), hab.1, hab.2, l3]
        · rw [if_neg hab]
          congr 1
          by_cases hm : ∃ e ∈ B.elems.take t, e.1 = (i, j)
          · rw [if_pos hm, if_pos (hiff.2 (Or.inl hm))]
          · rw [if_neg hm, if_neg (fun h => (hiff.1 h).elim hm hab)])
    refine ⟨C, e, LawfulMat.congr hC fun i j hi hj => ?_⟩
    rw [List.take_length]
    by_cases hm : ∃ e ∈ B.elems, e.1 = (i, j)
    · rw [if_pos hm]
    · rw [if_neg hm, k5 i j hi hj (fun e he hc => hm ⟨e, he, hc⟩)]
  scale {A n1 n2 f} x hA := by
    obtain ⟨h1, h2, h3, h4, h5⟩ := hA
    refine ⟨h1, h2, ?_, ?_, ?_⟩
    · simp only [MatArith.scale]
      rw [List.pairwise_map]
      exact h3
    · intro e he
      simp only [MatArith.scale] at he
      obtain ⟨e', he', rfl⟩ := List.mem_map.1 he
      obtain ⟨l1, l2, l3⟩ := h4 e' he'
      exact ⟨l1, l2, by simp only [l3]⟩
    · intro i j hi hj hne
      beta_reduce
      rw [h5 i j hi hj, h1']
      intro e he hc
      exact hne (e.1, e.2 * x) (List.mem_map.2 ⟨e, he, rfl⟩) hc

instance arithSpMat [NonUnitalNonAssocSemiring α] : LawfulArith (SpMat α) α := arithSpMat_of add_zero zero_mul

/-- The iteration over the stored elements visits every position at most once, and all positions with non-zero entries. -/
class LawfulStored (M : Type) (α : outParam Type) [Zero α] [Stored M α] [Meaning M α] : Prop where
  stored : ∀ {m : M} {n1 n2 f}, IsMat m n1 n2 f → (Stored.stored m).Pairwise (fun a b => a.1 ≠ b.1) ∧
    (∀ e ∈ Stored.stored m, e.1.1 < n1 ∧ e.1.2 < n2 ∧ e.2 = f e.1.1 e.1.2) ∧
    ∀ i j, i < n1 → j < n2 → (∀ e ∈ Stored.stored m, e.1 ≠ (i, j)) → f i j = 0

instance storedSpMat [Zero α] : LawfulStored (SpMat α) α where
  stored h := ⟨h.2.2.1.imp posLt_ne, h.2.2.2.1, h.2.2.2.2⟩

instance storedBMat [Zero α] : LawfulStored (BMat α) α where
  stored {m n1 n2 f} h := by
    obtain ⟨rfl, rfl, h3, h4⟩ := h
    refine ⟨?_, ?_, ?_⟩
    · simp only [Stored.stored]
      rw [List.pairwise_flatMap]
      constructor
      · intro i _
        rw [List.pairwise_map]
        refine (List.nodup_range (n := m.size2)).imp fun hne hc => ?_
        simp only [Prod.mk.injEq, true_and] at hc
        exact hne hc
      · refine (List.nodup_range (n := m.size1)).imp fun {a b} hne x hx y hy hc => ?_
        obtain ⟨j, _, rfl⟩ := List.mem_map.1 hx
        obtain ⟨j', _, rfl⟩ := List.mem_map.1 hy
        simp only [Prod.mk.injEq] at hc
        exact hne hc.1
    · intro e he
      simp only [Stored.stored, List.mem_flatMap, List.mem_range, List.mem_map] at he
      obtain ⟨i, hi, j, hj, rfl⟩ := he
      refine ⟨hi, hj, ?_⟩
      simp only
      rw [List.getD_eq_getElem?_getD, h4 i j hi hj]
      rfl
    · intro i j hi hj hne
      refine absurd rfl (hne ((i, j), m.data.getD (i * m.size2 + j) 0) ?_)
      simp only [Stored.stored, List.mem_flatMap, List.mem_range, List.mem_map]
      exact ⟨i, hi, j, hj, rfl⟩

end Hermipy
