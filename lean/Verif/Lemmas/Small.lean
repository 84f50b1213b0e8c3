import Verif.Lemmas.Usable
import Verif.Lemmas.Degree

/-! # Up to dimension 4 and degree 250, degrees are recovered -/

namespace Hermipy

open Spec

theorem usable_small (s : IndexSet) {dim degree : Nat} (h1 : 1 ≤ dim) (h4 : dim ≤ 4) (hd : degree ≤ 250) :
    Usable s dim degree := by
  obtain ⟨hf, hc⟩ := side_conditions (s := s) h1 h4
  have hf' := hf.mono hd
  have hc' := lt_of_le_of_lt (card_mono hd) hc
  refine ⟨sized_of hf' hc', ?_⟩
  obtain ⟨L, hL⟩ := iterOk_exists hf'
  by_cases hx : s = .cross ∧ degree = 0
  · obtain ⟨rfl, rfl⟩ := hx
    refine ⟨L, 1, hL.list, ?_, fun k m => Iff.rfl⟩
    rw [hL.length, card_cross_zero (Or.inl rfl)]
    exact get_degree_card hf hc (by omega) (by simp) (by simp)
  · by_cases hy : s = .cross_nc ∧ degree = 1
    · obtain ⟨rfl, rfl⟩ := hy
      refine ⟨L, 0, hL.list, ?_, fun k m => Iff.rfl⟩
      rw [hL.length, ← card_cross_zero (Or.inr rfl)]
      exact get_degree_card hf hc (by omega) (by simp) (by simp)
    · refine ⟨L, degree, hL.list, ?_, fun k m => Iff.rfl⟩
      rw [hL.length]
      exact get_degree_card hf hc hd (fun e h => hx ⟨e, h⟩) (fun e h => hy ⟨e, h⟩)

theorem usableTo_small (s : IndexSet) {dim degree : Nat} (h4 : dim ≤ 4) (hd : degree ≤ 250) : UsableTo s dim degree :=
  fun _ h1 h => usable_small s h1 (h.trans h4) hd

/-- The blocks of a small tensor product can be set up for every index set: the listing exists. -/
theorem list_exists (s : IndexSet) {dim degree : Nat} (h : Sized s dim degree) : ∃ L, s.s_list dim degree = .ok L :=
  ⟨_, (Classical.choose_spec (iterOk_exists h.fits')).list⟩

end Hermipy
