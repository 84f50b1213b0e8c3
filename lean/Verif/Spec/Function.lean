import Verif.Model.Function
import Verif.Spec.Partition

/-! # What `Function.split` and `Function.project` should return -/

namespace Hermipy.Spec

variable {F : Type}

/-- The groups `g` of the product of `args`: disjoint groups of variables covering the directions, and one for the constants; each with
the product of the factors whose variables belong to the group; as fine as possible. -/
structure SplitOk (dirs : List ℕ) (args : List (Factor F)) (g : List (Finset ℕ × (List ℕ × Product F))) : Prop where
  nodup : (g.map Prod.fst).Nodup
  constGroup : ∅ ∈ g.map Prod.fst
  partition : IsPartition dirs.toFinset ((g.map Prod.fst).toFinset.erase ∅)
  directions : ∀ e ∈ g, (∀ x, x ∈ e.2.1 ↔ x ∈ e.1) ∧ e.2.1.Pairwise (· < ·)
  own : ∀ e ∈ g, ∀ f ∈ e.2.2, f.1 ⊆ e.1
  consts : ∀ e ∈ g, e.1 ≠ ∅ → ∀ f ∈ e.2.2, f.1 ≠ ∅
  product : (g.map fun e => e.2.2).sum = (args : Product F)
  finest : ∀ T, IsPartition dirs.toFinset T → (∀ f ∈ args, f.1 ≠ ∅ → ∃ b ∈ T, f.1 ⊆ b) →
    Finer ((g.map Prod.fst).toFinset.erase ∅) T

/-- Some factor depends on `dirs` and on other variables. -/
def Couples (args : List (Factor F)) (dirs : List ℕ) : Prop := ∃ f ∈ args, (∃ x ∈ f.1, x ∈ dirs) ∧ ∃ y ∈ f.1, y ∉ dirs

/-- The factors that go to `dirs`: those depending on them, and the constants if the lowest direction `d0` is among them. -/
noncomputable def partOn (args : List (Factor F)) (d0 : ℕ) (dirs : List ℕ) : Product F :=
  open scoped Classical in
  Multiset.filter (fun f => (∃ x ∈ f.1, x ∈ dirs) ∨ (f.1 = ∅ ∧ d0 ∈ dirs)) (args : Product F)

end Hermipy.Spec
