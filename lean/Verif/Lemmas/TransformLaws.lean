import Verif.Lemmas.TransformEdge
import Verif.Lemmas.TensorizeVec

/-! # Laws of the transforms -/

namespace Hermipy

open Spec

theorem quadrature_sum {nodes weights : List (List ℝ)} {ι : Type} (S : Finset ι) (g : ι → Nat → List ℝ → ℝ) :
    quadrature nodes weights (fun i p => ∑ j ∈ S, g j i p) = ∑ j ∈ S, quadrature nodes weights (g j) := by
  simp only [quadrature, Finset.mul_sum]
  exact Finset.sum_comm

theorem quadrature_smul {nodes weights : List (List ℝ)} (a : ℝ) (g : Nat → List ℝ → ℝ) :
    quadrature nodes weights (fun i p => a * g i p) = a * quadrature nodes weights g := by
  simp only [quadrature, Finset.mul_sum]
  exact Finset.sum_congr rfl fun i _ => by ring

theorem quadrature_add {nodes weights : List (List ℝ)} (g h : Nat → List ℝ → ℝ) :
    quadrature nodes weights (fun i p => g i p + h i p) = quadrature nodes weights g + quadrature nodes weights h := by
  simp only [quadrature, mul_add, Finset.sum_add_distrib]

/-- Evaluating a series and transforming back. -/
theorem quadrature_series {nodes weights : List (List ℝ)} (hw : weights.map List.length = nodes.map List.length)
    {fourier : List Nat} {degree : Nat}
    (ho : ∀ k < nodes.length, Orthonormal degree (fourier.getD k 0) (nodes.getD k []) (weights.getD k []))
    {L : List IVec} (hnd : L.Nodup) (hlen : ∀ m ∈ L, m.length = nodes.length) (hle : ∀ m ∈ L, ∀ x ∈ m, x ≤ degree) (c : List ℝ)
    {j : Nat} (hj : j < L.length) :
    quadrature nodes weights (fun _ p => series nodes.length fourier L c p * basis nodes.length fourier L[j] p) = c.getD j 0 := by
  have e : (fun (_ : Nat) p => series nodes.length fourier L c p * basis nodes.length fourier L[j] p) =
      fun i p => ∑ t ∈ Finset.range L.length, (fun t (_ : Nat) p => c.getD t 0 * (basis nodes.length fourier (L.getD t []) p *
        basis nodes.length fourier L[j] p)) t i p := by
    funext _ p
    rw [series, Finset.sum_mul]
    exact Finset.sum_congr rfl fun t _ => by ring
  rw [e, quadrature_sum]
  have e2 : ∀ t ∈ Finset.range L.length, quadrature nodes weights ((fun t (_ : Nat) p => c.getD t 0 *
      (basis nodes.length fourier (L.getD t []) p * basis nodes.length fourier L[j] p)) t) =
      if t = j then c.getD j 0 else 0 := by
    intro t ht
    have ht := Finset.mem_range.1 ht
    have hg : L.getD t [] = L[t] := by simp [ht]
    rw [quadrature_smul, hg, basis_orthonormal hw ho (hlen _ (List.getElem_mem ht)) (hlen _ (List.getElem_mem hj))
      (hle _ (List.getElem_mem ht)) (hle _ (List.getElem_mem hj))]
    by_cases h : t = j
    · subst h; simp
    · rw [if_neg h, if_neg (fun h' => h ((hnd.getElem_inj_iff).1 h')), mul_zero]
  rw [Finset.sum_congr rfl e2, Finset.sum_ite_eq' , if_pos (Finset.mem_range.2 hj)]

end Hermipy
