import Verif.Model.Converters
import Mathlib.Data.Int.Cast.Basic

/-! # What a numpy array means -/

namespace Hermipy.Spec

variable {α : Type}

/-- `A` is an `n × m` array of doubles with entries `f`: the entry at `(i, j)` lies `i * s0 + j * s1` elements behind the first one,
where `s0`, `s1` are the strides in elements. -/
def Holds (A : NdArray α) (n m : Nat) (s0 s1 : Int) (f : Nat → Nat → α) : Prop :=
  A.shape = [n, m] ∧ A.strides = [8 * s0, 8 * s1] ∧
    ∀ i j, i < n → j < m → ∃ k : Nat, (k : Int) = A.offset + i * s0 + j * s1 ∧ A.base[k]? = some (f i j)

end Hermipy.Spec
