import Verif.Lemmas.FinestCommon
import Mathlib.Data.Finset.Lattice.Fold

/-! # Property C49: `finest_common` -/

namespace Hermipy.Props

open Spec

variable {α : Type} [DecidableEq α]

/-- C49. For two partitions of the same finite set, `finest_common` terminates and returns their finest common coarsening, in whatever
order Python iterates over the sets, at each step. The second partition may contain the empty set, as it does in `Quad.tensorize_at`
(quad.py:210-211). -/
theorem C49_finest_common {order : ℕ → Finset (Finset α) → List (Finset α)} (ho : OrderOk order) {U : Finset α}
    {P Q : Finset (Finset α)} (hP : IsPartition U P) (hQ : IsPartition U (Q.erase ∅)) (k : ℕ) :
    ∃ R, finest_common order k P Q = .ok R ∧ IsJoin U P (Q.erase ∅) R :=
  finest_common_spec ho _ k P Q rfl hP hQ

/-- The finest common coarsening is unique. -/
theorem isJoin_unique {U : Finset α} {P Q R S : Finset (Finset α)} (hR : IsJoin U P Q R) (hS : IsJoin U P Q S) : R = S := by
  have key : ∀ {R S}, IsJoin U P Q R → IsJoin U P Q S → R ⊆ S := by
    intro R S hR hS b hb
    obtain ⟨c, hc, hbc⟩ := hR.least S hS.partition hS.left hS.right b hb
    obtain ⟨d, hd, hcd⟩ := hS.least R hR.partition hR.left hR.right c hc
    obtain ⟨x, hx⟩ := hR.partition.nonempty b hb
    have : b = d := hR.partition.disjoint b hb d hd x hx (hcd (hbc hx))
    subst this
    rwa [Finset.Subset.antisymm hbc hcd]
  exact Finset.Subset.antisymm (key hR hS) (key hS hR)

/-- C49. The result does not depend on the iteration orders. -/
theorem C49_order_irrelevant {order order' : ℕ → Finset (Finset α) → List (Finset α)} (ho : OrderOk order) (ho' : OrderOk order')
    {U : Finset α} {P Q : Finset (Finset α)} (hP : IsPartition U P) (hQ : IsPartition U (Q.erase ∅)) (k k' : ℕ) :
    finest_common order k P Q = finest_common order' k' P Q := by
  obtain ⟨R, hR, jR⟩ := C49_finest_common ho hP hQ k
  obtain ⟨S, hS, jS⟩ := C49_finest_common ho' hP hQ k'
  rw [hR, hS, isJoin_unique jR jS]

/-- C49. The result does not depend on the order of the arguments. -/
theorem C49_symm {order order' : ℕ → Finset (Finset α) → List (Finset α)} (ho : OrderOk order) (ho' : OrderOk order')
    {U : Finset α} {P Q : Finset (Finset α)} (hP : IsPartition U P) (hQ : IsPartition U Q) (k k' : ℕ) :
    finest_common order k P Q = finest_common order' k' Q P := by
  have eP : P.erase ∅ = P := Finset.erase_eq_of_notMem fun h => (hP.nonempty ∅ h).ne_empty rfl
  have eQ : Q.erase ∅ = Q := Finset.erase_eq_of_notMem fun h => (hQ.nonempty ∅ h).ne_empty rfl
  obtain ⟨R, hR, jR⟩ := C49_finest_common ho hP (by rwa [eQ]) k
  obtain ⟨S, hS, jS⟩ := C49_finest_common ho' hQ (by rwa [eP]) k'
  rw [eQ] at jR
  rw [eP] at jS
  rw [hR, hS, isJoin_unique jR ⟨jS.partition, jS.right, jS.left, fun T hT h1 h2 => jS.least T hT h2 h1⟩]

/-- Such an order exists. -/
example : OrderOk (fun _ S => S.toList : ℕ → Finset (Finset α) → List (Finset α)) :=
  fun _ S => ⟨S.nodup_toList, fun _ => Finset.mem_toList⟩

/-- The partitions `{01|23|4}` and `{0|12|3|4}` of `{0,…,4}`: hypotheses of C49, and the result is `{0123|4}`. -/
example (order : ℕ → Finset (Finset ℕ) → List (Finset ℕ)) (ho : OrderOk order) :
    finest_common order 0 {{0, 1}, {2, 3}, {4}} {{0}, {1, 2}, {3}, {4}, ∅} = .ok {{0, 1, 2, 3}, {4}} := by
  have part : ∀ (P : Finset (Finset ℕ)), (∀ b ∈ P, b ≠ ∅) → (∀ b ∈ P, ∀ c ∈ P, b ≠ c → b ∩ c = ∅) →
      P.sup id = {0, 1, 2, 3, 4} → IsPartition {0, 1, 2, 3, 4} P := by
    intro P h1 h2 h3
    refine ⟨fun b hb => Finset.nonempty_iff_ne_empty.2 (h1 b hb), fun b hb c hc x hxb hxc => ?_, fun x => ?_⟩
    · by_contra hne
      exact inter_ne_empty.2 ⟨x, hxb, hxc⟩ (h2 b hb c hc hne)
    · rw [← h3, Finset.mem_sup]
      rfl
  have hP : IsPartition {0, 1, 2, 3, 4} ({{0, 1}, {2, 3}, {4}} : Finset (Finset ℕ)) :=
    part _ (by decide) (by decide) (by decide)
  have hQ : IsPartition {0, 1, 2, 3, 4} (({{0}, {1, 2}, {3}, {4}, ∅} : Finset (Finset ℕ)).erase ∅) :=
    part _ (by decide) (by decide) (by decide)
  obtain ⟨R, hR, jR⟩ := C49_finest_common ho hP hQ 0
  rw [hR]
  congr 1
  refine isJoin_unique jR ⟨part _ (by decide) (by decide) (by decide), ?_, ?_, ?_⟩
  · unfold Finer; decide
  · unfold Finer; decide
  · intro T hT h1 h2
    obtain ⟨a, ha, ha'⟩ := h1 {0, 1} (by decide)
    obtain ⟨b, hb, hb'⟩ := h2 {1, 2} (by decide)
    obtain ⟨c, hc, hc'⟩ := h1 {2, 3} (by decide)
    obtain ⟨d, hd, hd'⟩ := h1 {4} (by decide)
    have e1 := hT.disjoint a ha b hb 1 (ha' (by decide)) (hb' (by decide))
    have e2 := hT.disjoint b hb c hc 2 (hb' (by decide)) (hc' (by decide))
    subst e1 e2
    intro u hu
    simp only [Finset.mem_insert, Finset.mem_singleton] at hu
    rcases hu with rfl | rfl
    · refine ⟨a, ha, fun x hx => ?_⟩
      simp only [Finset.mem_insert, Finset.mem_singleton] at hx
      rcases hx with rfl | rfl | rfl | rfl
      · exact ha' (by decide)
      · exact ha' (by decide)
      · exact hc' (by decide)
      · exact hc' (by decide)
    · exact ⟨d, hd, hd'⟩

end Hermipy.Props
