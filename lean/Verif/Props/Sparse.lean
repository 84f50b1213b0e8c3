import Verif.Lemmas.Sparse
import Mathlib.Algebra.Ring.Int.Defs

/-! # Property C43: sparse conversions -/

namespace Hermipy.Props

open Hermipy.Spec

variable {α : Type}

/-- C43. Dense to sparse to dense gives the same matrix. -/
theorem C43_dense_sparse_dense [Zero α] [DecidableEq α] (M : DMat α) (n1 n2 : Nat) (h1 : 1 ≤ n1) (f : Nat → Nat → α)
    (h : IsMat M n1 n2 f) : ∃ S, to_spmat M = .ok S ∧ IsMat S n1 n2 f ∧ full S = .ok M := by
  obtain ⟨S, e, hS⟩ := (lawfulSparse (α := α)).convert h1 h
  obtain ⟨M', e', hM'⟩ := (lawfulFull (α := α)).convert h1 hS
  refine ⟨S, e, hS, ?_⟩
  have e' : full S = .ok M' := e'
  rw [e']
  congr 1
  apply List.ext_getElem
  · rw [hM'.1, h.1]
  · intro i hi hi'
    have l1 := hM'.2.1 _ (List.getElem_mem hi)
    have l2 := h.2.1 _ (List.getElem_mem hi')
    apply List.ext_getElem
    · rw [l1, l2]
    · intro j hj hj'
      rw [hM'.2.2 i j _ _ (List.getElem?_eq_getElem hi) (List.getElem?_eq_getElem hj),
        h.2.2 i j _ _ (List.getElem?_eq_getElem hi') (List.getElem?_eq_getElem hj')]

/-- A matrix without rows is outside of the domain: `input[0]` is read. -/
theorem C43_empty_undefined [Zero α] [DecidableEq α] : to_spmat ([] : DMat α) = .ub := rfl

/-- C43. The triples are those of the stored elements, in order. -/
theorem C43_triples [Zero α] (M : SpMat α) :
    ∃ rows cols vals, row_col_val M = .ok (rows, cols, vals) ∧
      rows.zip (cols.zip vals) = M.elems.map fun e => (e.1.1, e.1.2, e.2) := by
  refine ⟨_, _, _, row_col_val_ok M, ?_⟩
  rw [List.zip_map', List.zip_map']

/-- C43. Conversion to scipy keeps the entries, and stores none twice. -/
theorem C43_to_csr [AddMonoid α] (M : SpMat α) (n1 n2 : Nat) (f : Nat → Nat → α) (h : IsMat M n1 n2 f) :
    ∃ A, to_csr M = .ok A ∧ A.size1 = n1 ∧ A.size2 = n2 ∧ CsrOk A ∧ CsrCanonical A ∧
      ∀ i j, i < n1 → j < n2 → csrEntry A i j = f i j := to_csr_ok h

/-- C43, partial: conversion from scipy keeps the entries, if no entry is stored twice. Missing: repeated entries, for which it is
false, see `C43_csr_last` and `C43_repeated_false`. -/
theorem C43_from_csr_partial [AddMonoid α] (A : Csr α) (h : CsrOk A) (hc : CsrCanonical A) :
    ∃ R, convert_to_cpp_sparse A = .ok R ∧ IsMat R A.size1 A.size2 (csrEntry A) := by
  obtain ⟨R, e, hR⟩ := to_spmat_csr_ok h
  exact ⟨R, e, LawfulMat.congr hR fun i j hi _ => csrLast_eq_entry (hc i j hi)⟩

/-- What the conversion from scipy computes in general: the entry stored last. -/
theorem C43_csr_last [Zero α] (A : Csr α) (h : CsrOk A) :
    ∃ R, convert_to_cpp_sparse A = .ok R ∧ IsMat R A.size1 A.size2 (fun i j =>
      ((csrPositions A i j).getLast?.map fun k => A.data.getD k 0).getD 0) := by
  obtain ⟨R, e, hR⟩ := to_spmat_csr_ok h
  refine ⟨R, e, LawfulMat.congr hR fun i j hi _ => ?_⟩
  rw [csrLast]
  cases (csrPositions A i j).getLast? <;> rfl

/-- C43 is false for repeated entries: a matrix with the two entries 1 and 2 at `(0, 0)` means 3 to scipy and becomes 2. -/
theorem C43_repeated_false : ∃ (A : Csr Int) (R : SpMat Int) (f : Nat → Nat → Int), CsrOk A ∧ csrEntry A 0 0 = 3 ∧
    convert_to_cpp_sparse A = .ok R ∧ IsMat R 1 1 f ∧ f 0 0 = 2 := by
  have hA : CsrOk (⟨[1, 2], [0, 0], [0, 2], 1, 1⟩ : Csr Int) :=
    ⟨rfl, by intro i hi; have : i = 0 := by have : i < 1 := hi; omega
             subst this; decide, by decide, rfl, by simp⟩
  obtain ⟨R, e, hR⟩ := C43_csr_last _ hA
  exact ⟨_, R, _, hA, rfl, e, hR, rfl⟩

/-- C43. Sparse to scipy to sparse keeps the entries. -/
theorem C43_sparse_csr_sparse [AddMonoid α] (M : SpMat α) (n1 n2 : Nat) (f : Nat → Nat → α) (h : IsMat M n1 n2 f) :
    ∃ A R, to_csr M = .ok A ∧ convert_to_cpp_sparse A = .ok R ∧ IsMat R n1 n2 f := by
  obtain ⟨A, e, s1, s2, hA, hc, hf⟩ := to_csr_ok h
  obtain ⟨R, e', hR⟩ := C43_from_csr_partial A hA hc
  rw [s1, s2] at hR
  exact ⟨A, R, e, e', LawfulMat.congr hR hf⟩

/-- C43. Scipy to sparse to scipy keeps the entries, if no entry is stored twice. -/
theorem C43_csr_sparse_csr_partial [AddMonoid α] (A : Csr α) (h : CsrOk A) (hc : CsrCanonical A) :
    ∃ R A', convert_to_cpp_sparse A = .ok R ∧ to_csr R = .ok A' ∧ A'.size1 = A.size1 ∧ A'.size2 = A.size2 ∧
      ∀ i j, i < A.size1 → j < A.size2 → csrEntry A' i j = csrEntry A i j := by
  obtain ⟨R, e, hR⟩ := C43_from_csr_partial A h hc
  obtain ⟨A', e', s1, s2, -, -, hf⟩ := to_csr_ok hR
  exact ⟨R, A', e, e', s1, s2, hf⟩

/-- A matrix meeting the hypotheses: `[[5, 0, 7], [0, 6, 0]]`. -/
example : CsrOk (⟨[5, 7, 6], [0, 2, 1], [0, 2, 3], 2, 3⟩ : Csr Int) ∧
    CsrCanonical (⟨[5, 7, 6], [0, 2, 1], [0, 2, 3], 2, 3⟩ : Csr Int) ∧
    csrEntry (⟨[5, 7, 6], [0, 2, 1], [0, 2, 3], 2, 3⟩ : Csr Int) 0 2 = 7 := by
  refine ⟨⟨rfl, ?_, by decide, rfl, by simp⟩, ?_, rfl⟩
  · intro i hi
    have hi : i < 2 := hi
    have : i = 0 ∨ i = 1 := by omega
    rcases this with rfl | rfl <;> decide
  · intro i j hi
    have hi : i < 2 := hi
    have : i = 0 ∨ i = 1 := by omega
    have hr : List.range 3 = [0, 1, 2] := rfl
    rcases this with rfl | rfl
    · by_cases h0 : j = 0
      · subst h0; decide
      · by_cases h2 : j = 2
        · subst h2; decide
        · simp [csrPositions, hr, Ne.symm h0, Ne.symm h2, List.filter_cons]
    · by_cases h1 : j = 1
      · subst h1; decide
      · simp [csrPositions, hr, Ne.symm h1, List.filter_cons]

end Hermipy.Props
