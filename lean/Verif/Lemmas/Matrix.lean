import Verif.Spec.Matrix
import Verif.Lemmas.Loop

/-! # Laws of the matrix operations -/

namespace Hermipy

open Spec

/-- The laws of `construct`, `get`, `set`, sizes. -/
class LawfulMat (M : Type) (α : outParam Type) [Zero α] [MatOps M α] [Meaning M α] : Prop where
  construct : ∀ n1 n2, IsMat (MatOps.construct (M := M) n1 n2) n1 n2 (fun _ _ => (0 : α))
  size1 : ∀ {m : M} {n1 n2 f}, IsMat m n1 n2 f → MatOps.size1 m = n1
  size2 : ∀ {m : M} {n1 n2 f}, IsMat m n1 n2 f → 1 ≤ n1 → MatOps.size2 m = .ok n2
  get : ∀ {m : M} {n1 n2 f i j}, IsMat m n1 n2 f → i < n1 → j < n2 → MatOps.get m i j = .ok (f i j)
  set : ∀ {m : M} {n1 n2 f i j}, IsMat m n1 n2 f → i < n1 → j < n2 → ∀ x, ∃ m', MatOps.set m i j x = .ok m' ∧
    IsMat m' n1 n2 (fun a b => if a = i ∧ b = j then x else f a b)
  congr : ∀ {m : M} {n1 n2 f g}, IsMat m n1 n2 f → (∀ i j, i < n1 → j < n2 → f i j = g i j) → IsMat m n1 n2 g

variable {α : Type}

instance lawfulDMat [Zero α] : LawfulMat (DMat α) α where
  construct n1 n2 := by
    refine ⟨by simp [MatOps.construct], fun r hr => ?_, fun i j r x hr hx => ?_⟩
    · rw [List.eq_of_mem_replicate hr]; simp
    · rw [List.eq_of_mem_replicate (List.mem_of_getElem? hr)] at hx
      exact List.eq_of_mem_replicate (List.mem_of_getElem? hx)
  size1 h := h.1
  size2 {m n1 n2 f} h hn := by
    have h0 : 0 < m.length := by have := h.1; omega
    simp only [MatOps.size2, rd_of_lt h0, Out.ok_bind]
    rw [h.2.1 _ (List.getElem_mem h0)]
  get {m n1 n2 f i j} h hi hj := by
    have h0 : i < m.length := by have := h.1; omega
    have h1 : j < m[i].length := by rw [h.2.1 _ (List.getElem_mem h0)]; exact hj
    simp only [MatOps.get, rd_of_lt h0, Out.ok_bind, rd_of_lt h1]
    rw [h.2.2 i j m[i] m[i][j] (List.getElem?_eq_getElem h0) (List.getElem?_eq_getElem h1)]
  set {m n1 n2 f i j} h hi hj x := by
    have h0 : i < m.length := by have := h.1; omega
    have h1 : j < m[i].length := by rw [h.2.1 _ (List.getElem_mem h0)]; exact hj
    refine ⟨m.set i (m[i].set j x), ?_, ?_, ?_, ?_⟩
    · simp only [MatOps.set, rd_of_lt h0, Out.ok_bind, wr_of_lt h1, wr_of_lt h0]
    · simpa using h.1
    · intro r hr
      rcases List.mem_or_eq_of_mem_set hr with hr | hr
      · exact h.2.1 r hr
      · rw [hr, List.length_set]; exact h.2.1 _ (List.getElem_mem h0)
    · intro a b r y hr hy
      rw [List.getElem?_set] at hr
      by_cases ha : i = a
      · subst ha
        rw [if_pos rfl, if_pos h0] at hr
        obtain rfl := Option.some.inj hr
        rw [List.getElem?_set] at hy
        by_cases hb : j = b
        · subst hb
          rw [if_pos rfl, if_pos h1] at hy
          simp [Option.some.inj hy]
        · rw [if_neg hb] at hy
          beta_reduce
          rw [if_neg (by omega)]
          exact h.2.2 _ _ _ _ (List.getElem?_eq_getElem h0) hy
      · rw [if_neg ha] at hr
        beta_reduce
        rw [if_neg (by omega)]
        exact h.2.2 _ _ _ _ hr hy
  congr {m n1 n2 f g} h hfg := by
    refine ⟨h.1, h.2.1, fun i j r x hr hx => ?_⟩
    have hi := (List.getElem?_eq_some_iff.1 hr).1
    have hj := (List.getElem?_eq_some_iff.1 hx).1
    rw [h.2.2 i j r x hr hx]
    exact hfg i j (by rw [← h.1]; exact hi) (by rw [← h.2.1 r (List.mem_of_getElem? hr)]; exact hj)

/-! ## Sparse -/

theorem posLt_trans {p q r : Nat × Nat} (h : posLt p q) (h' : posLt q r) : posLt p r := by
  unfold posLt at *; omega

theorem posLt_ne {p q : Nat × Nat} (h : posLt p q) : p ≠ q := by
  rintro rfl; unfold posLt at h; omega

theorem posLt_of_not {p q : Nat × Nat} (h : p ≠ q) (h' : ¬ posLt p q) : posLt q p := by
  obtain ⟨a, b⟩ := p
  obtain ⟨c, d⟩ := q
  simp only [ne_eq, Prod.mk.injEq, not_and] at h
  unfold posLt at *
  simp only at *
  omega

theorem mem_insertElem {p : Nat × Nat} {v : α} {l : List ((Nat × Nat) × α)} (hs : l.Pairwise (fun a b => posLt a.1 b.1))
    (e : (Nat × Nat) × α) : e ∈ insertElem p v l ↔ e = (p, v) ∨ (e ∈ l ∧ e.1 ≠ p) := by
  induction l with
  | nil => simp [insertElem]
  | cons a l ih =>
    obtain ⟨q, w⟩ := a
    rw [List.pairwise_cons] at hs
    rw [insertElem]
    by_cases h : p = q
    · subst h
      rw [if_pos rfl, List.mem_cons, List.mem_cons]
      constructor
      · rintro (h | h)
        · exact Or.inl h
        · exact Or.inr ⟨Or.inr h, (posLt_ne (hs.1 e h)).symm⟩
      · rintro (h | ⟨rfl | h, h'⟩)
        · exact Or.inl h
        · exact absurd rfl h'
        · exact Or.inr h
    · rw [if_neg h]
      by_cases h2 : posLt p q
      · rw [if_pos h2, List.mem_cons]
        constructor
        · rintro (h | h)
          · exact Or.inl h
          · refine Or.inr ⟨h, ?_⟩
            rcases List.mem_cons.1 h with rfl | h
            · exact (posLt_ne h2).symm
            · exact (posLt_ne (posLt_trans h2 (hs.1 e h))).symm
        · rintro (h | ⟨h, -⟩)
          · exact Or.inl h
          · exact Or.inr h
      · rw [if_neg h2, List.mem_cons, ih hs.2, List.mem_cons]
        constructor
        · rintro (rfl | h' | ⟨h', h''⟩)
          · exact Or.inr ⟨Or.inl rfl, Ne.symm h⟩
          · exact Or.inl h'
          · exact Or.inr ⟨Or.inr h', h''⟩
        · rintro (h' | ⟨h' | h', h''⟩)
          · exact Or.inr (Or.inl h')
          · exact Or.inl h'
          · exact Or.inr (Or.inr ⟨h', h''⟩)

theorem insertElem_sorted {p : Nat × Nat} {v : α} {l : List ((Nat × Nat) × α)}
    (hs : l.Pairwise (fun a b => posLt a.1 b.1)) : (insertElem p v l).Pairwise (fun a b => posLt a.1 b.1) := by
  induction l with
  | nil => simp [insertElem]
  | cons a l ih =>
    obtain ⟨q, w⟩ := a
    have hs' := List.pairwise_cons.1 hs
    rw [insertElem]
    by_cases h : p = q
    · subst h
      rw [if_pos rfl]
      exact List.pairwise_cons.2 hs'
    · rw [if_neg h]
      by_cases h2 : posLt p q
      · rw [if_pos h2, List.pairwise_cons]
        refine ⟨fun e he => ?_, hs⟩
        rcases List.mem_cons.1 he with rfl | he
        · exact h2
        · exact posLt_trans h2 (hs'.1 e he)
      · rw [if_neg h2, List.pairwise_cons]
        refine ⟨fun e he => ?_, ih hs'.2⟩
        rcases (mem_insertElem hs'.2 e).1 he with rfl | ⟨he, -⟩
        · exact posLt_of_not h h2
        · exact hs'.1 e he

theorem lookup_eq_of_mem {l : List ((Nat × Nat) × α)} (hs : l.Pairwise (fun a b => posLt a.1 b.1)) {p : Nat × Nat} {v : α}
    (h : (p, v) ∈ l) : l.lookup p = some v := by
  induction l with
  | nil => simp at h
  | cons a l ih =>
    obtain ⟨q, w⟩ := a
    rw [List.pairwise_cons] at hs
    rcases List.mem_cons.1 h with h | h
    · obtain ⟨rfl, rfl⟩ := Prod.mk.inj h
      simp
    · have := posLt_ne (hs.1 _ h)
      rw [List.lookup_cons]
      have h3 : (p == q) = false := by simpa using Ne.symm this
      rw [h3]
      exact ih hs.2 h

theorem lookup_none {l : List ((Nat × Nat) × α)} {p : Nat × Nat} (h : ∀ e ∈ l, e.1 ≠ p) : l.lookup p = none := by
  rw [List.lookup_eq_none_iff]
  intro e he
  simpa using Ne.symm (h e he)

instance lawfulSpMat [Zero α] : LawfulMat (SpMat α) α where
  construct n1 n2 := ⟨rfl, rfl, by simp [MatOps.construct], by simp [MatOps.construct], fun _ _ _ _ _ => rfl⟩
  size1 h := h.1
  size2 h _ := by rw [← h.2.1]; rfl
  get {m n1 n2 f i j} h hi hj := by
    obtain ⟨rfl, rfl, h3, h4, h5⟩ := h
    simp only [MatOps.get]
    rw [if_pos ⟨hi, hj⟩]
    congr 1
    by_cases he : ∃ e ∈ m.elems, e.1 = (i, j)
    · obtain ⟨⟨p, w⟩, he, rfl⟩ := he
      rw [lookup_eq_of_mem h3 he]
      exact (h4 _ he).2.2
    · have hne : ∀ e ∈ m.elems, e.1 ≠ (i, j) := fun e h1 h2 => he ⟨e, h1, h2⟩
      rw [lookup_none hne, h5 i j hi hj hne]
      rfl
  set {m n1 n2 f i j} h hi hj x := by
    obtain ⟨rfl, rfl, h3, h4, h5⟩ := h
    refine ⟨{ m with elems := insertElem (i, j) x m.elems }, ?_, rfl, rfl, insertElem_sorted h3, ?_, ?_⟩
    · simp only [MatOps.set]
      rw [if_pos ⟨hi, hj⟩]
    · intro e he
      rcases (mem_insertElem h3 e).1 he with rfl | ⟨he, hne⟩
      · exact ⟨hi, hj, by simp⟩
      · refine ⟨(h4 e he).1, (h4 e he).2.1, ?_⟩
        beta_reduce
        rw [if_neg, (h4 e he).2.2]
        rintro ⟨rfl, rfl⟩
        exact hne rfl
    · intro a b ha hb hne
      by_cases hab : a = i ∧ b = j
      · obtain ⟨rfl, rfl⟩ := hab
        exact absurd rfl (hne _ ((mem_insertElem h3 _).2 (Or.inl rfl)))
      · beta_reduce
        rw [if_neg hab]
        refine h5 a b ha hb fun e he hc => hne e ((mem_insertElem h3 e).2 (Or.inr ⟨he, ?_⟩)) hc
        rw [hc]
        simpa using hab
  congr {m n1 n2 f g} h hfg := by
    obtain ⟨rfl, rfl, h3, h4, h5⟩ := h
    refine ⟨rfl, rfl, h3, fun e he => ⟨(h4 e he).1, (h4 e he).2.1, ?_⟩, fun i j hi hj hne => ?_⟩
    · rw [(h4 e he).2.2]; exact hfg _ _ (h4 e he).1 (h4 e he).2.1
    · rw [← hfg i j hi hj]; exact h5 i j hi hj hne

/-! ## Conversions -/

/-- Conversions preserve the meaning. -/
class LawfulConvert (S T : Type) (α : outParam Type) [Convert S T] [Meaning S α] [Meaning T α] : Prop where
  convert : ∀ {m : S} {n1 n2 f}, 1 ≤ n1 → IsMat m n1 n2 f → ∃ m' : T, Convert.convert m = .ok m' ∧ IsMat m' n1 n2 f

instance lawfulId {M : Type} [Meaning M α] : LawfulConvert M M α where
  convert _ h := ⟨_, rfl, h⟩

/-- Position `(i, j)` comes before row `a`, or in row `a` before column `b`. -/
def before (a b i j : Nat) : Prop := i < a ∨ (i = a ∧ j < b)

instance (a b i j : Nat) : Decidable (before a b i j) := by unfold before; infer_instance

theorem rect_loop {M : Type} {n1 n2 : Nat} {f : Nat → Nat → α} {z : α} (Q : M → (Nat → Nat → α) → Prop) {m0 : M}
    {body : Nat → Nat → M → Out M} (h0 : Q m0 (fun _ _ => z))
    (hcongr : ∀ {m g g'}, Q m g → (∀ i j, i < n1 → j < n2 → g i j = g' i j) → Q m g')
    (hs : ∀ i j m g, i < n1 → j < n2 → Q m g → (g i j = z) →
      ∃ m', body i j m = .ok m' ∧ Q m' (fun a b => if a = i ∧ b = j then f i j else g a b)) :
    ∃ m', forRange n1 m0 (fun i m => forRange n2 m (fun j m => body i j m)) = .ok m' ∧ Q m' f := by
  obtain ⟨m', e, h⟩ := forRange_inv (n := n1) (acc := m0) (body := fun i m => forRange n2 m (fun j m => body i j m))
    (fun i m => Q m (fun a b => if before i 0 a b then f a b else z))
    (by
      refine hcongr h0 fun i j _ _ => ?_
      rw [if_neg (by unfold before; omega)])
    (by
      intro i m hi hm
      obtain ⟨m', e, h⟩ := forRange_inv (n := n2) (acc := m) (body := fun j m => body i j m)
        (fun j m => Q m (fun a b => if before i j a b then f a b else z)) hm
        (by
          intro j m hj hm
          obtain ⟨m', e, h⟩ := hs i j m _ hi hj hm (if_neg (by unfold before; omega))
          refine ⟨m', e, hcongr h fun a b ha hb => ?_⟩
          by_cases hab : a = i ∧ b = j
          · rw [if_pos hab, if_pos (by unfold before; omega), hab.1, hab.2]
          · rw [if_neg hab]
            by_cases hbf : before i j a b
            · rw [if_pos hbf, if_pos (by unfold before at *; omega)]
            · rw [if_neg hbf, if_neg (by unfold before at *; omega)])
      refine ⟨m', e, hcongr h fun a b ha hb => ?_⟩
      by_cases hbf : before i n2 a b
      · rw [if_pos hbf, if_pos (by unfold before at *; omega)]
      · rw [if_neg hbf, if_neg (by unfold before at *; omega)])
  refine ⟨m', e, hcongr h fun a b ha hb => ?_⟩
  rw [if_pos (by unfold before; omega)]

instance lawfulFull [Zero α] : LawfulConvert (SpMat α) (DMat α) α where
  convert {m n1 n2 f} _ h := by
    have h1 := h.1
    have h2 := h.2.1
    show ∃ m', full m = .ok m' ∧ _
    rw [full, h1, h2]
    refine rect_loop (f := f) (z := (0 : α)) (fun M g => IsMat M n1 n2 g) (LawfulMat.construct _ _)
      (fun h hg => LawfulMat.congr h hg) ?_
    intro i j M g hi hj hM _
    rw [LawfulMat.get h hi hj]
    simp only [Out.ok_bind]
    exact LawfulMat.set hM hi hj (f i j)

instance lawfulSparse [Zero α] [DecidableEq α] : LawfulConvert (DMat α) (SpMat α) α where
  convert {m n1 n2 f} hn h := by
    have h0 : 0 < m.length := by have := h.1; omega
    have hr : (m[0]).length = n2 := h.2.1 _ (List.getElem_mem h0)
    show ∃ m', to_spmat m = .ok m' ∧ _
    rw [to_spmat, rd_of_lt h0]
    simp only [Out.ok_bind]
    rw [hr, h.1]
    refine rect_loop (f := f) (z := (0 : α)) (fun M g => IsMat M n1 n2 g)
      (LawfulMat.construct (M := SpMat α) _ _) (fun h hg => LawfulMat.congr h hg) ?_
    intro i j M g hi hj hM hz
    have hget := LawfulMat.get h hi hj
    simp only [MatOps.get] at hget
    have h2 : i < m.length := by rw [h.1]; exact hi
    rw [rd_of_lt h2] at hget ⊢
    simp only [Out.ok_bind] at hget ⊢
    rw [hget]
    simp only [Out.ok_bind]
    by_cases hx : f i j = 0
    · rw [if_neg (by simpa using hx)]
      refine ⟨M, rfl, LawfulMat.congr hM fun a b _ _ => ?_⟩
      by_cases hab : a = i ∧ b = j
      · rw [if_pos hab, hab.1, hab.2, hz, hx]
      · rw [if_neg hab]
    · rw [if_pos hx]
      exact LawfulMat.set hM hi hj (f i j)

theorem eye_ok {M : Type} [Zero α] [One α] [MatOps M α] [Meaning M α] [LawfulMat M α] (n : Nat) :
    ∃ m : M, eye n = .ok m ∧ IsMat m n n (fun i j => if i = j then (1 : α) else 0) := by
  obtain ⟨m, e, h⟩ := forRange_inv (n := n) (acc := MatOps.construct (M := M) n n)
    (body := fun i m => MatOps.set m i i 1)
    (fun k m => IsMat m n n (fun i j => if i = j ∧ i < k then (1 : α) else 0))
    (LawfulMat.congr (LawfulMat.construct n n) (fun i j _ _ => by simp))
    (by
      intro i m hi hm
      obtain ⟨m', e, h⟩ := LawfulMat.set hm hi hi (1 : α)
      refine ⟨m', e, LawfulMat.congr h fun a b _ _ => ?_⟩
      by_cases hab : a = i ∧ b = i
      · rw [if_pos hab, if_pos (by omega)]
      · rw [if_neg hab]
        by_cases h2 : a = b ∧ a < i
        · rw [if_pos h2, if_pos (by omega)]
        · rw [if_neg h2, if_neg (by omega)])
  exact ⟨m, e, LawfulMat.congr h fun i j hi _ => by simp [hi]⟩

end Hermipy
