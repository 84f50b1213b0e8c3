import Mathlib.Data.Finset.Basic

/-! # Partitions of a finite set, for `finest_common` and `Function.split` -/

namespace Hermipy.Spec

variable {α : Type}

/-- `P` is a partition of `U` into non-empty blocks. -/
structure IsPartition [DecidableEq α] (U : Finset α) (P : Finset (Finset α)) : Prop where
  nonempty : ∀ b ∈ P, b.Nonempty
  disjoint : ∀ b ∈ P, ∀ c ∈ P, ∀ x, x ∈ b → x ∈ c → b = c
  cover : ∀ x, x ∈ U ↔ ∃ b ∈ P, x ∈ b

/-- `P` is finer than `Q`: each block of `P` lies in a block of `Q`. -/
def Finer (P Q : Finset (Finset α)) : Prop := ∀ b ∈ P, ∃ c ∈ Q, b ⊆ c

/-- `R` is the finest partition of `U` coarser than `P` and than `Q`. -/
structure IsJoin [DecidableEq α] (U : Finset α) (P Q R : Finset (Finset α)) : Prop where
  partition : IsPartition U R
  left : Finer P R
  right : Finer Q R
  least : ∀ T, IsPartition U T → Finer P T → Finer Q T → Finer R T

end Hermipy.Spec
