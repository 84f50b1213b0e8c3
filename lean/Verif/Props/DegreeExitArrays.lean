import Verif.Model.Inner
import Verif.Model.Project
import Verif.Model.Tensorize
import Verif.Props.DegreeExit

/-! # C15, C16, C17, C18, C21: vectors and matrices whose degree is not found -/

namespace Hermipy.Props
open Hermipy Hermipy.Spec
variable {α : Type}

/-- C15, C16, C17, C18, C21 in five and more directions, for triangles and cubes: projections, tensor products and inner products are undefined, whatever
the coefficients and the degree. -/
theorem C15_C21_dim5_undefined [CommRing α] {M : Type} [MatOps M α] {s : IndexSet} (hs : s = .triangle ∨ s = .cube) (v w : List α) (A : M) (B C : SpMat α)
    (vs : List (List α)) {dim : ℕ} (h5 : 5 ≤ dim) (dirs dirs' : List ℕ) {dirs1 : List ℕ} (h1 : dirs1.length = dim) (ds : List (List ℕ)) :
    project_vec s v dim dirs = .ub ∧ project_mat (α := α) s A dim dirs = .ub ∧ inner s v w dirs1 dirs' = .ub ∧
      tensorize_vecs_dirs s (v :: vs) (dirs1 :: ds) = .ub ∧ tensorize_pair s B C dirs1 dirs' = .ub := by
  have hx : ∀ n, s.s_get_degree dim n = .ub := by
    intro n
    rcases hs with rfl | rfl
    · exact (C10_dim5_undefined dim n h5).1
    · exact (C10_dim5_undefined dim n h5).2
  refine ⟨?_, ?_, ?_, ?_, ?_⟩
  · simp only [project_vec, hx]; rfl
  · simp only [project_mat, hx]; rfl
  · simp only [inner, h1, hx]; rfl
  · simp only [tensorize_vecs_dirs, rd, List.getElem?_cons_zero, Out.ok_bind, h1, hx]; rfl
  · simp only [tensorize_pair, h1, hx]; rfl

/-- The same in up to four directions, for the sets other than the cross: when the number of coefficients, or of rows, is below the size for degree 0 or
above the size for degree 250, the process exits with code 0; when it is in between and not a size, with code 1. -/
theorem C15_C21_exits [CommRing α] {M : Type} [MatOps M α] {s : IndexSet} (hs : s ≠ .cross) {dim : ℕ} (hdim : 1 ≤ dim) (h4 : dim ≤ 4) :
    ∃ a b, s.s_size dim 0 = .ok a ∧ s.s_size dim 250 = .ok b ∧ ∀ (n code : ℕ),
      (code = 0 ∧ (n < a ∨ b < n) ∨ code = 1 ∧ a ≤ n ∧ n ≤ b ∧ ∀ d ≤ 250, s.s_size dim d ≠ .ok n) →
      ∀ (v w : List α) (A : M) (B C : SpMat α) (vs : List (List α)) (dirs dirs' dirs1 : List ℕ) (ds : List (List ℕ)),
        v.length = n → MatOps.size1 A = n → B.size1 = n → dirs1.length = dim →
        project_vec s v dim dirs = .exit code ∧ project_mat (α := α) s A dim dirs = .exit code ∧ inner s v w dirs1 dirs' = .exit code ∧
          tensorize_vecs_dirs s (v :: vs) (dirs1 :: ds) = .exit code ∧ tensorize_pair s B C dirs1 dirs' = .exit code := by
  obtain ⟨a, b, ha, hb, h⟩ := C11_exit_code s hs dim hdim h4
  refine ⟨a, b, ha, hb, fun n code hn v w A B C vs dirs dirs' dirs1 ds hv hA hB h1 => ?_⟩
  have hx : s.s_get_degree dim n = .exit code := by
    rcases hn with ⟨rfl, hn⟩ | ⟨rfl, hn⟩
    · exact (h n).1.2 hn
    · exact (h n).2.2 hn
  refine ⟨?_, ?_, ?_, ?_, ?_⟩
  · simp only [project_vec, hv, hx]; rfl
  · simp only [project_mat, hA, hx]; rfl
  · simp only [inner, h1, hv, hx]; rfl
  · simp only [tensorize_vecs_dirs, rd, List.getElem?_cons_zero, Out.ok_bind, h1, hv, hx]; rfl
  · simp only [tensorize_pair, h1, hB, hx]; rfl

/-! ## The hypotheses can be met -/

/-- A vector of degree 1 in five directions. -/
example : project_vec (α := ℤ) .triangle [1, 2, 3, 4, 5, 6] 5 [0] = .ub :=
  (C15_C21_dim5_undefined (M := SpMat ℤ) (Or.inl rfl) [1, 2, 3, 4, 5, 6] [] ⟨0, 0, []⟩ ⟨0, 0, []⟩ ⟨0, 0, []⟩ [] le_rfl [0] [] (dirs1 := [0, 1, 2, 3, 4]) rfl []).1

/-- Two coefficients in two directions. -/
example : project_vec (α := ℤ) .triangle [1, 2] 2 [0] = .exit 1 := by
  obtain ⟨a, b, ha, hb, h⟩ := C15_C21_exits (α := ℤ) (M := SpMat ℤ) (s := .triangle) (by simp) (dim := 2) (by omega) (by omega)
  have hsz : ∀ d ≤ 250, IndexSet.triangle.s_size 2 d = .ok (Nat.choose (d + 2) 2) := by
    intro d hd
    have : Nat.choose (d + 2) 2 ≤ Nat.choose 252 2 := Nat.choose_le_choose _ (by omega)
    rw [Nat.choose_two_right 252] at this
    rw [IndexSet.s_size, Triangle.s_size, toU32, if_pos (by rw [u32]; omega)]
  have ha' := Out.ok.inj ((hsz 0 (by omega)).symm.trans ha)
  have hb' := Out.ok.inj ((hsz 250 le_rfl).symm.trans hb)
  rw [Nat.choose_two_right] at ha' hb'
  refine (h 2 1 (Or.inr ⟨rfl, by omega, by omega, fun d hd e => ?_⟩) [1, 2] [] ⟨2, 2, []⟩ ⟨2, 2, []⟩ ⟨0, 0, []⟩ [] [0] [] [0, 1] [] rfl rfl rfl rfl).1
  have e' := Out.ok.inj ((hsz d hd).symm.trans e)
  rcases d with _ | d
  · simp at e'
  · have : Nat.choose 3 2 ≤ Nat.choose (d + 1 + 2) 2 := Nat.choose_le_choose _ (by omega)
    rw [e', show Nat.choose 3 2 = 3 from rfl] at this
    omega

end Hermipy.Props
