import Verif.Lemmas.Converters
import Verif.Lemmas.Matrix
import Verif.Lemmas.Position
import Verif.Lemmas.Sparse
import Verif.Spec.Core
import Mathlib.Data.List.GetD

/-! # Conversions and choices of overloads in `core.py` -/

namespace Hermipy.Core

open Spec

/-! ## Names -/

theorem dispatch_name {β : Type} (s : IndexSet) (f : IndexSet → Out β) : dispatch (setName s) f = f s := by
  cases s <;> rfl

theorem lookup_name {β : Type} (s : IndexSet) (f : IndexSet → Out β) : lookup (setName s) f = f s := by
  cases s <;> rfl

theorem dispatch_unknown {β : Type} {name : String} (h : ∀ s, name ≠ setName s) (f : IndexSet → Out β) :
    dispatch name f = .stop (.exit 1) := by
  have h1 := h .triangle
  have h2 := h .cross
  have h3 := h .cross_nc
  have h4 := h .cube
  have h5 := h .rectangle
  simp only [setName] at h1 h2 h3 h4 h5
  rw [dispatch, if_neg h1, if_neg h2, if_neg h3, if_neg h4, if_neg h5]

theorem lookup_unknown {β : Type} {name : String} (h : ∀ s, name ≠ setName s) (f : IndexSet → Out β) :
    lookup name f = .throws := by
  have h1 := h .triangle
  have h2 := h .cross
  have h3 := h .cross_nc
  have h4 := h .cube
  have h5 := h .rectangle
  simp only [setName] at h1 h2 h3 h4 h5
  rw [lookup, if_neg h1, if_neg h2, if_neg h3, if_neg h4, if_neg h5]

/-! ## Conversions -/

theorem mapM_iff {β γ : Type} {f : β → Out γ} {g : γ → β} (hfg : ∀ b c, f b = .ok c ↔ b = g c) :
    ∀ (l : List β) (r : List γ), l.mapM f = .ok r ↔ l = r.map g
  | [], r => by
    rw [List.mapM_nil]
    constructor
    · intro h
      obtain rfl : [] = r := Out.ok.inj h
      rfl
    · intro h
      obtain rfl : r = [] := by simpa using h.symm
      rfl
  | b :: l, r => by
    rw [List.mapM_cons]
    constructor
    · intro h
      cases hb : f b with
      | ok c =>
        rw [hb, Out.ok_bind] at h
        cases hl : l.mapM f with
        | ok r' =>
          rw [hl, Out.ok_bind] at h
          obtain rfl : c :: r' = r := Out.ok.inj h
          rw [List.map_cons, (hfg b c).1 hb, (mapM_iff hfg l r').1 hl]
        | stop s => rw [hl] at h; cases h
        | diverge => rw [hl] at h; cases h
      | stop s => rw [hb] at h; cases h
      | diverge => rw [hb] at h; cases h
    · intro h
      match r, h with
      | [], h => simp at h
      | c :: r', h =>
        rw [List.map_cons, List.cons.injEq] at h
        rw [(hfg b c).2 h.1, Out.ok_bind, (mapM_iff hfg l r').2 h.2, Out.ok_bind]
        rfl

/-- What a conversion does: it gives a result or raises. -/
def Plain {β γ : Type} (f : β → Out γ) : Prop := ∀ b, (∃ c, f b = .ok c) ∨ f b = .throws

theorem mapM_plain {β γ : Type} {f : β → Out γ} (hf : Plain f) : Plain (List.mapM f : List β → Out (List γ))
  | [] => Or.inl ⟨[], rfl⟩
  | b :: l => by
    rw [List.mapM_cons]
    rcases hf b with ⟨c, hc⟩ | h
    · rw [hc, Out.ok_bind]
      rcases mapM_plain hf l with ⟨r, hr⟩ | h
      · rw [hr, Out.ok_bind]
        exact Or.inl ⟨_, rfl⟩
      · rw [h]
        exact Or.inr rfl
    · rw [h]
      exact Or.inr rfl

theorem toNum_iff (a : Nest) (x : ℝ) : toNum a = .ok x ↔ a = .num x := by
  cases a with
  | num y => simp [toNum]
  | seq l => simp [toNum, Out.throws]
  | other => simp [toNum, Out.throws]

theorem vec_iff (a : Nest) (v : List ℝ) : convert_to_cpp_vec a = .ok v ↔ a = nestVec v := by
  cases a with
  | num y => simp [convert_to_cpp_vec, Out.throws, nestVec]
  | seq l => rw [convert_to_cpp_vec, mapM_iff toNum_iff, nestVec, Nest.seq.injEq]
  | other => simp [convert_to_cpp_vec, Out.throws, nestVec]

theorem mat_iff (a : Nest) (m : List (List ℝ)) : convert_to_cpp_mat a = .ok m ↔ a = nestMat m := by
  cases a with
  | num y => simp [convert_to_cpp_mat, Out.throws, nestMat]
  | seq l => rw [convert_to_cpp_mat, mapM_iff vec_iff, nestMat, Nest.seq.injEq]
  | other => simp [convert_to_cpp_mat, Out.throws, nestMat]

theorem cube_iff (a : Nest) (c : List (List (List ℝ))) : convert_to_cpp_cube a = .ok c ↔ a = .seq (c.map nestMat) := by
  cases a with
  | num y => simp [convert_to_cpp_cube, Out.throws]
  | seq l => rw [convert_to_cpp_cube, mapM_iff mat_iff, Nest.seq.injEq]
  | other => simp [convert_to_cpp_cube, Out.throws]

theorem toNum_plain : Plain toNum := fun a => by cases a <;> simp [toNum]
theorem vec_plain : Plain convert_to_cpp_vec := fun a => by
  cases a with
  | seq l => exact mapM_plain toNum_plain l
  | num => exact Or.inr rfl
  | other => exact Or.inr rfl
theorem mat_plain : Plain convert_to_cpp_mat := fun a => by
  cases a with
  | seq l => exact mapM_plain vec_plain l
  | num => exact Or.inr rfl
  | other => exact Or.inr rfl
theorem cube_plain : Plain convert_to_cpp_cube := fun a => by
  cases a with
  | seq l => exact mapM_plain mat_plain l
  | num => exact Or.inr rfl
  | other => exact Or.inr rfl

theorem to_cpp_array_plain : Plain to_cpp_array := fun a => by
  cases a with
  | num x => exact Or.inl ⟨_, rfl⟩
  | other => exact Or.inl ⟨_, rfl⟩
  | seq l =>
    rw [to_cpp_array]
    match l with
    | [] => exact Or.inr rfl
    | .num x :: l =>
      simp only [pyget, List.getElem?_cons_zero, Out.ok_bind]
      rcases vec_plain (.seq (.num x :: l)) with ⟨v, h⟩ | h <;> rw [h]
      · exact Or.inl ⟨_, rfl⟩
      · exact Or.inr rfl
    | .other :: l =>
      simp only [pyget, List.getElem?_cons_zero, Out.ok_bind]
      rcases vec_plain (.seq (.other :: l)) with ⟨v, h⟩ | h <;> rw [h]
      · exact Or.inl ⟨_, rfl⟩
      · exact Or.inr rfl
    | .seq [] :: l => exact Or.inr rfl
    | .seq (.num x :: t) :: l =>
      simp only [pyget, List.getElem?_cons_zero, Out.ok_bind]
      rcases mat_plain (.seq (.seq (.num x :: t) :: l)) with ⟨v, h⟩ | h <;> rw [h]
      · exact Or.inl ⟨_, rfl⟩
      · exact Or.inr rfl
    | .seq (.other :: t) :: l =>
      simp only [pyget, List.getElem?_cons_zero, Out.ok_bind]
      rcases mat_plain (.seq (.seq (.other :: t) :: l)) with ⟨v, h⟩ | h <;> rw [h]
      · exact Or.inl ⟨_, rfl⟩
      · exact Or.inr rfl
    | .seq (.seq u :: t) :: l =>
      simp only [pyget, List.getElem?_cons_zero, Out.ok_bind]
      rcases cube_plain (.seq (.seq (.seq u :: t) :: l)) with ⟨v, h⟩ | h <;> rw [h]
      · exact Or.inl ⟨_, rfl⟩
      · exact Or.inr rfl

theorem to_cpp_vec {v : List ℝ} (h : v ≠ []) : to_cpp_array (nestVec v) = .ok (.vec v) := by
  match v, h with
  | x :: v, _ =>
    rw [nestVec, List.map_cons, to_cpp_array]
    simp only [pyget, List.getElem?_cons_zero, Out.ok_bind]
    have e : convert_to_cpp_vec (.seq (.num x :: v.map .num)) = .ok (x :: v) := (vec_iff _ _).2 rfl
    rw [e]
    rfl

theorem to_cpp_mat {m : List (List ℝ)} (h : m.getD 0 [] ≠ []) : to_cpp_array (nestMat m) = .ok (.mat m) := by
  match m, h with
  | [], h => simp at h
  | [] :: m, h => simp at h
  | (x :: v) :: m, _ =>
    rw [nestMat, List.map_cons, nestVec, List.map_cons, to_cpp_array]
    simp only [pyget, List.getElem?_cons_zero, Out.ok_bind]
    have e : convert_to_cpp_mat (.seq (.seq (.num x :: v.map .num) :: m.map nestVec)) = .ok ((x :: v) :: m) := (mat_iff _ _).2 rfl
    rw [e]
    rfl

theorem to_cpp_cube {c : List (List (List ℝ))} (h : c.getD 0 [] ≠ []) : to_cpp_array (.seq (c.map nestMat)) = .ok (.cube c) := by
  match c, h with
  | [], h => simp at h
  | [] :: c, h => simp at h
  | (v :: m) :: c, _ =>
    rw [List.map_cons, nestMat, List.map_cons, nestVec, to_cpp_array]
    simp only [pyget, List.getElem?_cons_zero, Out.ok_bind]
    have e : convert_to_cpp_cube (.seq (.seq (.seq (v.map .num) :: m.map nestVec) :: c.map nestMat)) = .ok ((v :: m) :: c) :=
      (cube_iff _ _).2 rfl
    rw [e]
    rfl

theorem ok_of_bind {β γ : Type} {x : Out β} {g : β → γ} {r : γ} (h : (do let c ← x; .ok (g c)) = .ok r) : ∃ c, x = .ok c ∧ g c = r := by
  cases x with
  | ok c => exact ⟨c, rfl, Out.ok.inj h⟩
  | stop s => cases h
  | diverge => cases h

/-- The results of `to_cpp_array`. -/
theorem to_cpp_array_inv {l : List Nest} {r : CppArr} (h : to_cpp_array (.seq l) = .ok r) :
    (∃ v, v ≠ [] ∧ .seq l = nestVec v ∧ r = .vec v) ∨ (∃ m, m.getD 0 [] ≠ [] ∧ .seq l = nestMat m ∧ r = .mat m) ∨
      ∃ c, c.getD 0 [] ≠ [] ∧ Nest.seq l = .seq (c.map nestMat) ∧ r = .cube c := by
  rw [to_cpp_array] at h
  match l, h with
  | [], h => cases h
  | .num x :: l, h =>
    simp only [pyget, List.getElem?_cons_zero, Out.ok_bind] at h
    obtain ⟨v, h1, h2⟩ := ok_of_bind h
    rw [vec_iff] at h1
    refine Or.inl ⟨v, ?_, h1, h2.symm⟩
    rintro rfl
    simp [nestVec] at h1
  | .other :: l, h =>
    simp only [pyget, List.getElem?_cons_zero, Out.ok_bind] at h
    obtain ⟨v, h1, h2⟩ := ok_of_bind h
    rw [vec_iff] at h1
    refine Or.inl ⟨v, ?_, h1, h2.symm⟩
    rintro rfl
    simp [nestVec] at h1
  | .seq [] :: l, h => cases h
  | .seq (.num x :: t) :: l, h =>
    simp only [pyget, List.getElem?_cons_zero, Out.ok_bind] at h
    obtain ⟨m, h1, h2⟩ := ok_of_bind h
    rw [mat_iff] at h1
    refine Or.inr (Or.inl ⟨m, ?_, h1, h2.symm⟩)
    intro hm
    match m, hm with
    | [], _ => simp [nestMat] at h1
    | [] :: m, _ => simp [nestMat, nestVec] at h1
  | .seq (.other :: t) :: l, h =>
    simp only [pyget, List.getElem?_cons_zero, Out.ok_bind] at h
    obtain ⟨m, h1, h2⟩ := ok_of_bind h
    rw [mat_iff] at h1
    refine Or.inr (Or.inl ⟨m, ?_, h1, h2.symm⟩)
    intro hm
    match m, hm with
    | [], _ => simp [nestMat] at h1
    | [] :: m, _ => simp [nestMat, nestVec] at h1
  | .seq (.seq u :: t) :: l, h =>
    simp only [pyget, List.getElem?_cons_zero, Out.ok_bind] at h
    obtain ⟨c, h1, h2⟩ := ok_of_bind h
    rw [cube_iff] at h1
    refine Or.inr (Or.inr ⟨c, ?_, h1, h2.symm⟩)
    intro hc
    match c, hc with
    | [], _ => simp at h1
    | [] :: c, _ => simp [nestMat] at h1

/-! ## Sparse and dense -/

theorem todense_isMat (A : Csr ℝ) : IsMat (todense A) A.size1 A.size2 (csrEntry A) := by
  refine ⟨by simp [todense], ?_, ?_⟩
  · intro r hr
    simp only [todense, List.mem_map] at hr
    obtain ⟨i, -, rfl⟩ := hr
    simp
  · intro i j r x hi hj
    simp only [todense, List.getElem?_map, Option.map_eq_some_iff] at hi
    obtain ⟨i', hi', rfl⟩ := hi
    simp only [List.getElem?_map, Option.map_eq_some_iff] at hj
    obtain ⟨j', hj', rfl⟩ := hj
    obtain ⟨-, rfl⟩ := List.getElem?_eq_some_iff.1 hi'
    obtain ⟨-, rfl⟩ := List.getElem?_eq_some_iff.1 hj'
    simp only [List.getElem_range]
    rfl

/-- The dense form of a matrix. -/
theorem dense_isArr {v : PyVal} {n1 n2 : ℕ} {f : ℕ → ℕ → ℝ} (h : IsArr v n1 n2 f) : ∃ m : DMat ℝ, dense v = .mat m ∧ IsMat m n1 n2 f := by
  match v, h with
  | .mat m, h => exact ⟨m, rfl, h⟩
  | .csr A, ⟨_, h1, h2, h3⟩ =>
    refine ⟨todense A, rfl, ?_⟩
    have := todense_isMat A
    rw [h1, h2] at this
    exact LawfulMat.congr this h3

theorem isMat_first {m : DMat ℝ} {n1 n2 : ℕ} {f : ℕ → ℕ → ℝ} (h : IsMat m n1 n2 f) (h1 : 1 ≤ n1) (h2 : 1 ≤ n2) : m.getD 0 [] ≠ [] := by
  have hl : 0 < m.length := by rw [h.1]; omega
  rw [List.getD_eq_getElem _ _ hl]
  intro he
  have := h.2.1 _ (List.getElem_mem hl)
  rw [he] at this
  simp at this
  omega

theorem ndRows_isMat {A : NdArray ℝ} {n m : ℕ} {f : ℕ → ℕ → ℝ} (h : Holds A n m m 1 f) : IsMat (ndRows A) n m f := by
  obtain ⟨h1, h2, h3⟩ := h
  refine ⟨by simp [ndRows, h1], ?_, ?_⟩
  · intro r hr
    simp only [ndRows, List.mem_map] at hr
    obtain ⟨i, -, rfl⟩ := hr
    simp [h1]
  · intro i j r x hi hj
    simp only [ndRows, List.getElem?_map, Option.map_eq_some_iff, h1] at hi
    obtain ⟨i', hi', rfl⟩ := hi
    simp only [List.getElem?_map, Option.map_eq_some_iff] at hj
    obtain ⟨j', hj', rfl⟩ := hj
    obtain ⟨hi2, rfl⟩ := List.getElem?_eq_some_iff.1 hi'
    obtain ⟨hj2, rfl⟩ := List.getElem?_eq_some_iff.1 hj'
    simp only [List.length_range, List.getD_cons_zero, List.getD_cons_succ] at hi2 hj2
    obtain ⟨k, hk, hb⟩ := h3 i j hi2 hj2
    simp only [List.getElem_range, h2, List.getD_cons_zero, List.getD_cons_succ]
    have e : (((i : ℤ) * (8 * m) + (j : ℤ) * (8 * 1)) / 8).toNat = i * m + j := by
      have : ((i : ℤ) * (8 * m) + (j : ℤ) * (8 * 1)) = 8 * ((i * m + j : ℕ) : ℤ) := by push_cast; ring
      rw [this, Int.mul_ediv_cancel_left _ (by norm_num), Int.toNat_natCast]
    rw [e]
    have ek : k = A.offset + (i * m + j) := by
      have : (k : ℤ) = ((A.offset + (i * m + j) : ℕ) : ℤ) := by rw [hk]; push_cast; ring
      exact_mod_cast this
    rw [← ek, List.getD_eq_getElem?_getD, hb]
    rfl

theorem to_csr_isArr {M : SpMat ℝ} {n1 n2 : ℕ} {f : ℕ → ℕ → ℝ} (h : IsMat M n1 n2 f) :
    ∃ A, to_csr M = .ok A ∧ IsArr (.csr A) n1 n2 f ∧ CsrCanonical A := by
  obtain ⟨A, e, h1, h2, h3, h4, h5⟩ := to_csr_ok h
  exact ⟨A, e, ⟨h3, h1, h2, h5⟩, h4⟩

end Hermipy.Core
