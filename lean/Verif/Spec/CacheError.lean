import Verif.Model.CacheError

/-! # When two results are the same up to a tolerance -/

namespace Hermipy.Spec
open Hermipy Hermipy.Cache

/-- The entry of a sparse matrix: the sum of what is stored at this place. -/
noncomputable def sparseEntry (e : List ((ℕ × ℕ) × ℝ)) (i j : ℕ) : ℝ := ((e.filter fun p => p.1 = (i, j)).map (·.2)).sum

/-- Two results of the same kind and shape whose entries differ by less than `ε`. -/
def Near (ε : ℝ) : Res → Res → Prop
  | .num _ q, .num _ r => |(q : ℝ) - r| < ε
  | .array s d, .array t e => s = t ∧ ∀ i < s.prod, |d.getD i 0 - e.getD i 0| < ε
  | .csr m n e, .csr m' n' e' => m = m' ∧ n = n' ∧ ∀ i < m, ∀ j < n, |sparseEntry e i j - sparseEntry e' i j| < ε
  | _, _ => False

/-- The number of entries that are compared. -/
def size : Res → ℕ
  | .array s _ => s.prod
  | .csr _ _ e => e.length
  | _ => 1

/-- Numbers, vectors, matrices with at least one row and one column, and sparse matrices whose entries are
inside. -/
inductive Checkable : Res → Prop
  | num (b : Bool) (q : ℚ) : Checkable (.num b q)
  | vector (n : ℕ) (d : List ℝ) : d.length = n → Checkable (.array [n] d)
  | matrix (m n : ℕ) (d : List ℝ) : d.length = m * n → 0 < m → 0 < n → Checkable (.array [m, n] d)
  | csr (n1 n2 : ℕ) (e : List ((ℕ × ℕ) × ℝ)) : (∀ p ∈ e, p.1.1 < n1 ∧ p.1.2 < n2) → Checkable (.csr n1 n2 e)

/-- Two results of the same kind; arrays have the same shape, and sparse matrices the same shape and places. Places occur only once. -/
def SamePlaces : Res → Res → Prop
  | .num .., .num .. => True
  | .array s _, .array t _ => s = t
  | .csr m n e, .csr m' n' e' => m = m' ∧ n = n' ∧ e.map (·.1) = e'.map (·.1) ∧ (e.map (·.1)).Nodup
  | _, _ => False

end Hermipy.Spec
