import Verif.Lemmas.Converters

/-!
# Property C44: numpy matrices

`Holds A n m s0 s1 f`: an `n × m` array with entries `f` and strides `s0`, `s1` (in elements).
-/

namespace Hermipy.Props

open Hermipy.Spec

variable {α : Type}

/-- C44, partial, for `to_boost_mat`: correct if columns are contiguous and the rows are as far apart as the array has rows (or there
is only one row); in particular for contiguous square arrays. Missing: the other arrays, see `C44_boost_reads_outside`,
`C44_boost_wrong`, `C44_not_contiguous`. -/
theorem C44_to_boost_mat_partial [Zero α] (A : NdArray α) (n m : Nat) (s0 : Int) (f : Nat → Nat → α) (h : Holds A n m s0 1 f)
    (hw : n * n + m < 2 ^ 32) (hs : n ≤ 1 ∨ s0 = n) : ∃ R, to_boost_mat A = .ok R ∧ IsMat R n m f := by
  have hn : n < u32 := by
    rcases Nat.lt_or_ge n 1 with h0 | h0
    · simp only [u32]; omega
    · have := Nat.le_mul_of_pos_left n h0
      simp only [u32]; omega
  refine to_boost_mat_gen (checkArray_ok h hn (by simp only [u32]; omega)) (by simp only [u32]; omega) fun i j hi hj => ?_
  obtain ⟨k, hk, e⟩ := h.2.2 i j hi hj
  have : k = A.offset + (i * n + j) := by
    rcases hs with h1 | rfl
    · obtain rfl : i = 0 := by omega
      simp at hk
      omega
    · rw [mul_one] at hk
      have : (k : Int) = ((A.offset + (i * n + j) : Nat) : Int) := by rw [hk]; push_cast; ring
      exact_mod_cast this
  rw [← this]
  exact e

/-- C44, partial, for `to_bmat`: correct for contiguous arrays. -/
theorem C44_to_bmat_partial [Zero α] (A : NdArray α) (n m : Nat) (s0 : Int) (f : Nat → Nat → α) (h : Holds A n m s0 1 f)
    (hn : n < 2 ^ 32) (hm : m < 2 ^ 32) (hs : n ≤ 1 ∨ s0 = m) : ∃ R, to_bmat A = .ok R ∧ IsMat R n m f := by
  refine to_bmat_gen (checkArray_ok h hn hm) fun i j hi hj => ?_
  obtain ⟨k, hk, e⟩ := h.2.2 i j hi hj
  have : k = A.offset + (i * m + j) := by
    rcases hs with h1 | rfl
    · obtain rfl : i = 0 := by omega
      simp at hk
      omega
    · rw [mul_one] at hk
      have : (k : Int) = ((A.offset + (i * m + j) : Nat) : Int) := by rw [hk]; push_cast; ring
      exact_mod_cast this
  rw [← this]
  exact e

/-- C44, partial, for `to_mat`: correct for contiguous arrays. -/
theorem C44_to_mat_partial (A : NdArray α) (n m : Nat) (f : Nat → Nat → α) (h : Holds A n m m 1 f)
    (hn : n < 2 ^ 32) (hm : 8 * m < 2 ^ 32) (hw : n * m < 2 ^ 32) : ∃ R, to_mat A = .ok R ∧ IsMat R n m f := by
  have hc := checkArray_ok h hn (by simp only [u32]; omega)
  rw [strideOf_nat hm] at hc
  refine to_mat_gen hc hn hw fun i j hi hj => ?_
  obtain ⟨k, hk, e⟩ := h.2.2 i j hi hj
  rw [mul_one] at hk
  have : (k : Int) = ((A.offset + (i * m + j) : Nat) : Int) := by rw [hk]; push_cast; ring
  have : k = A.offset + (i * m + j) := by exact_mod_cast this
  rw [← this]
  exact e

/-- The hypotheses hold for a contiguous 3 × 3 array. -/
example : Holds (freshArray 3 3 [1, 2, 3, 4, 5, 6, 7, 8, 9]) 3 3 3 1 (fun i j => 3 * i + j + 1) :=
  holds_fresh fun i j hi hj => by
    have hi : i = 0 ∨ i = 1 ∨ i = 2 := by omega
    have hj : j = 0 ∨ j = 1 ∨ j = 2 := by omega
    rcases hi with rfl | rfl | rfl <;> rcases hj with rfl | rfl | rfl <;> rfl

/-- C44 is false for `to_boost_mat`: for any contiguous array with more rows than columns it reads behind the end. -/
theorem C44_boost_reads_outside [Zero α] (n m : Nat) (hm : 1 ≤ m) (hmn : m < n) (hw : n * n + m < 2 ^ 32) (data : List α)
    (hd : data.length = n * m) : to_boost_mat (freshArray n m data) = .ub := by
  have hn : n < u32 := by
    have := Nat.le_mul_of_pos_left n (by omega : 0 < n)
    simp only [u32]; omega
  cases hdat : data with
  | nil => rw [hdat] at hd; have : 0 < n * m := Nat.mul_pos (by omega) hm; simp at hd; omega
  | cons d t =>
    rw [← hdat]
    have hh : Holds (freshArray n m data) n m m 1 (fun i j => data.getD (i * m + j) d) := holds_fresh fun i j hi hj => by
      have hlt : i * m + j < data.length := by
        have : (i + 1) * m ≤ n * m := Nat.mul_le_mul_right _ (by omega)
        rw [Nat.succ_mul] at this
        omega
      simp [hlt]
    refine to_boost_mat_ub (checkArray_ok hh hn (by simp only [u32]; omega)) (by simp only [u32]; omega) (i := n - 1) (j := m - 1)
      (by omega) (by omega) ?_
    show data.length ≤ 0 + ((n - 1) * n + (m - 1))
    obtain ⟨n, rfl⟩ : ∃ k, n = k + 1 := ⟨n - 1, by omega⟩
    rw [hd, Nat.add_sub_cancel, Nat.succ_mul]
    have : n * (m + 1) ≤ n * (n + 1) := Nat.mul_le_mul_left _ (by omega)
    rw [Nat.mul_add] at this
    omega

/-- C44 is false for `to_boost_mat`: for any contiguous array with at least two rows and more columns than rows, the entry at `(1, 0)`
of the result is the entry at `(0, n)` of the array. -/
theorem C44_boost_wrong [Zero α] (A : NdArray α) (n m : Nat) (f : Nat → Nat → α) (h : Holds A n m m 1 f) (hn : 2 ≤ n) (hm : n < m)
    (hw : n * n + m < 2 ^ 32) : ∃ R g, to_boost_mat A = .ok R ∧ IsMat R n m g ∧ g 1 0 = f 0 n := by
  have hn' : n < u32 := by
    have := Nat.le_mul_of_pos_left n (by omega : 0 < n)
    simp only [u32]; omega
  obtain ⟨R, e, hR⟩ := to_boost_mat_gen (g := fun i j => f ((i * n + j) / m) ((i * n + j) % m)) (checkArray_ok h hn'
    (by simp only [u32]; omega)) (by simp only [u32]; omega) fun i j hi hj => by
    have hlt : i * n + j < m * n := by
      have h1 : i * n ≤ (n - 1) * m := Nat.mul_le_mul (by omega) (by omega)
      have h2 : (n - 1) * m + m = m * n := by rw [← Nat.succ_mul, Nat.mul_comm m]; congr 1; omega
      omega
    obtain ⟨k, hk, e⟩ := h.2.2 ((i * n + j) / m) ((i * n + j) % m) (Nat.div_lt_of_lt_mul hlt) (Nat.mod_lt _ (by omega))
    have : k = A.offset + (i * n + j) := by
      rw [mul_one] at hk
      have h3 := Nat.div_add_mod (i * n + j) m
      have : (k : Int) = ((A.offset + (m * ((i * n + j) / m) + (i * n + j) % m) : Nat) : Int) := by rw [hk]; push_cast; ring
      rw [h3] at this
      exact_mod_cast this
    rw [← this]
    exact e
  refine ⟨R, _, e, hR, ?_⟩
  beta_reduce
  rw [one_mul, Nat.add_zero, Nat.div_eq_of_lt hm, Nat.mod_eq_of_lt hm]

/-- C44 is false for `to_mat`: if the rows of the array are not adjacent (a slice of columns), the result has as many columns as the
array it was sliced from. -/
theorem C44_to_mat_shape (A : NdArray α) (n m s : Nat) (f g : Nat → Nat → α) (h : Holds A n m s 1 f) (hn : n < 2 ^ 32)
    (hm : m < 2 ^ 32) (hs : 8 * s < 2 ^ 32) (hw : n * s < 2 ^ 32)
    (hg : ∀ i j, i < n → j < s → A.base[A.offset + (i * s + j)]? = some (g i j)) :
    ∃ R, to_mat A = .ok R ∧ IsMat R n s g := by
  have hc := checkArray_ok h hn hm
  rw [strideOf_nat hs] at hc
  exact to_mat_gen hc hn hw hg

/-- C44 is false for `to_bmat` and `to_mat`: the first two columns of `[[0, 1, 2], [3, 4, 5]]`. -/
theorem C44_slice_false : ∃ (A : NdArray Int) (f : Nat → Nat → Int) (R : BMat Int) (g : Nat → Nat → Int) (S : DMat Int)
    (k : Nat → Nat → Int), Holds A 2 2 3 1 f ∧ to_bmat A = .ok R ∧ IsMat R 2 2 g ∧ f 1 0 = 3 ∧ g 1 0 = 2 ∧ to_mat A = .ok S ∧
      IsMat S 2 3 k := by
  let A : NdArray Int := ⟨[0, 1, 2, 3, 4, 5], 0, [2, 2], [8 * 3, 8 * 1]⟩
  have hh : Holds A 2 2 3 1 (fun i j => 3 * i + j) := ⟨rfl, rfl, fun i j hi hj => by
    refine ⟨3 * i + j, by simp [A]; omega, ?_⟩
    have hi : i = 0 ∨ i = 1 := by omega
    have hj : j = 0 ∨ j = 1 := by omega
    rcases hi with rfl | rfl <;> rcases hj with rfl | rfl <;> rfl⟩
  obtain ⟨R, e, hR⟩ := to_bmat_gen (checkArray_ok hh (by decide) (by decide)) (g := fun i j => 2 * i + j) (fun i j hi hj => by
    have hi : i = 0 ∨ i = 1 := by omega
    have hj : j = 0 ∨ j = 1 := by omega
    rcases hi with rfl | rfl <;> rcases hj with rfl | rfl <;> rfl)
  obtain ⟨S, e', hS⟩ := C44_to_mat_shape A 2 2 3 _ (fun i j => 3 * i + j) hh (by decide) (by decide) (by decide) (by decide)
    (fun i j hi hj => by
      have hi : i = 0 ∨ i = 1 := by omega
      have hj : j = 0 ∨ j = 1 ∨ j = 2 := by omega
      rcases hi with rfl | rfl <;> rcases hj with rfl | rfl | rfl <;> rfl)
  exact ⟨A, _, R, _, S, _, hh, e, hR, by decide, by decide, e', hS⟩

/-- C44 is false for arrays whose columns are not contiguous (transposed arrays, for example): all conversions throw. -/
theorem C44_not_contiguous [Zero α] (A : NdArray α) (n m : Nat) (s0 s1 : Int) (f : Nat → Nat → α) (h : Holds A n m s0 s1 f)
    (h1 : s1 ≠ 1) (h2 : -(2 ^ 29 - 1) < s1) (h3 : s1 < 2 ^ 29) :
    to_boost_mat A = .throws ∧ to_bmat A = .throws ∧ to_mat A = .throws := by
  have hc := checkArray_throws h h1 h2 h3
  exact ⟨by rw [to_boost_mat, hc]; rfl, by rw [to_bmat, hc]; rfl, by rw [to_mat, hc]; rfl⟩

/-- The other direction: matrices become contiguous arrays with the same entries. -/
theorem C44_to_numpy [Zero α] (n m : Nat) (f : Nat → Nat → α) :
    (∀ M : BMat α, IsMat M n m f → ∃ A, to_numpy_boost M = .ok A ∧ Holds A n m m 1 f) ∧
    (∀ M : DMat α, 1 ≤ n → IsMat M n m f → ∃ A, to_numpy_mat M = .ok A ∧ Holds A n m m 1 f) := by
  constructor
  · intro M h
    obtain ⟨A, e, hA, -⟩ := to_numpy_boost_ok h
    exact ⟨A, e, hA⟩
  · intro M hn h
    obtain ⟨A, e, hA, -⟩ := to_numpy_mat_ok hn h
    exact ⟨A, e, hA⟩

/-- Square dense matrices, the only ones the library converts, survive the way to Python and back. -/
theorem C44_square_round_trip [Zero α] (n : Nat) (hw : n * n + n < 2 ^ 32) (f : Nat → Nat → α) (M : BMat α) (h : IsMat M n n f) :
    ∃ A R, to_numpy_boost M = .ok A ∧ to_boost_mat A = .ok R ∧ IsMat R n n f := by
  obtain ⟨A, e, hA, -⟩ := to_numpy_boost_ok h
  obtain ⟨R, e', hR⟩ := C44_to_boost_mat_partial A n n n f hA hw (Or.inr rfl)
  exact ⟨A, R, e, e', hR⟩

end Hermipy.Props
