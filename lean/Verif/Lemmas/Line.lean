import Verif.Lemmas.TransformOk
import Verif.Lemmas.Usable

/-! # Index sets in one dimension -/

namespace Hermipy

open Spec

theorem setLt_one (s : IndexSet) {a b : Nat} (h : a < b) : setLt s 1 [a] [b] := by
  cases s
  · simp [setLt, triLt, h]
  · simp only [setLt, boxLt, top, List.replicate_one, Rectangle.scanMax]
    rcases Nat.eq_zero_or_pos a with rfl | ha
    · left; simp [h]
    · left; simp [h]
  · simp only [setLt, crossLt, ones, List.map_cons, List.map_nil, List.prod_singleton, colexLt, false_or, true_and]
    by_cases h1 : max1 a < max1 b
    · exact Or.inl h1
    · right
      have e : max1 a = max1 b := by unfold max1 at *; split_ifs at * <;> omega
      rw [e]
      exact ⟨rfl, Or.inr ⟨rfl, h⟩⟩
  · simp [setLt, triLt, h]
  · simp only [setLt, boxLt, top, Rectangle.factors]
    left
    simp [Rectangle.scanMax, h]

theorem inSet_one {s : IndexSet} {degree : Nat} (hc : s = .cross ∨ s = .cross_nc → 1 ≤ degree) (a : Nat) :
    InSet s 1 degree [a] ↔ a ≤ degree := by
  constructor
  · intro h
    exact inSet_le hc h a (by simp)
  · intro h
    cases s
    · exact ⟨rfl, by simpa using h⟩
    · exact ⟨rfl, by simpa using h⟩
    · have := hc (by simp)
      exact ⟨rfl, by simp; omega⟩
    · have := hc (by simp)
      exact ⟨rfl, by simp; omega⟩
    · refine ⟨rfl, fun i hi => ?_⟩
      have : i = 0 := by simpa using hi
      subst this
      simpa using h

/-- In one dimension every set lists `0, ..., degree`. -/
theorem IterOk.line {s : IndexSet} {degree : Nat} (hc : s = .cross ∨ s = .cross_nc → 1 ≤ degree) {L : List IVec}
    (h : IterOk s 1 degree L) : L = (List.range (degree + 1)).map fun a => [a] := by
  refine sorted_ext (setLt_strict s 1 (InSet s 1 degree) (fun x hx => inSet_length hx)) h.sorted ?_
    (fun x hx => (h.mem x).1 hx) ?_
  · rw [List.pairwise_map]
    exact List.pairwise_lt_range.imp fun hab => setLt_one s hab
  · intro x
    rw [h.mem]
    constructor
    · intro hx
      obtain ⟨a, rfl⟩ := List.length_eq_one_iff.1 (inSet_length hx)
      have := (inSet_one hc a).1 hx
      simp
      omega
    · intro hx
      obtain ⟨a, ha, rfl⟩ := List.mem_map.1 hx
      have := List.mem_range.1 ha
      exact (inSet_one hc a).2 (by omega)

theorem Spec.Sized.degree_lt {s : IndexSet} {dim degree : Nat} (h : Sized s dim degree) : degree < u32 := by
  rcases Nat.eq_zero_or_pos degree with rfl | hd
  · simp [u32]
  · have h1 := h.sub le_rfl h.dim_pos
    obtain ⟨L, hL⟩ := iterOk_exists h1.fits'
    have := h1.card_lt
    rw [← hL.length, hL.line (fun _ => hd)] at this
    simp at this
    omega

theorem Spec.Sized.succ_degree_lt {s : IndexSet} {dim degree : Nat} (h : Sized s dim degree) : degree + 1 < u32 := by
  rcases Nat.eq_zero_or_pos degree with rfl | hd
  · simp [u32]
  · have h1 := h.sub le_rfl h.dim_pos
    obtain ⟨L, hL⟩ := iterOk_exists h1.fits'
    have := h1.card_lt
    rw [← hL.length, hL.line (fun _ => hd)] at this
    simpa using this

end Hermipy
