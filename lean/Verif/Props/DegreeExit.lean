import Verif.Props.IndexSets

/-! # C11: what degree recovery does with numbers that are not sizes -/

namespace Hermipy.Props
open Hermipy Hermipy.Spec

/-- C11: the exit code. The process exits with code 0 (which stands for success) exactly for the numbers below the size for degree 0 and above the size
for degree 250, and with code 1 for the numbers in between that are not the size for any degree. -/
theorem C11_exit_code (s : IndexSet) (hs : s ≠ .cross) (dim : Nat) (hdim : 1 ≤ dim) (h4 : dim ≤ 4) :
    ∃ a b, s.s_size dim 0 = .ok a ∧ s.s_size dim 250 = .ok b ∧ ∀ n,
      (s.s_get_degree dim n = .exit 0 ↔ n < a ∨ b < n) ∧
      (s.s_get_degree dim n = .exit 1 ↔ a ≤ n ∧ n ≤ b ∧ ∀ d ≤ 250, s.s_size dim d ≠ .ok n) := by
  obtain ⟨hf, hc⟩ := side_conditions (s := s) hdim h4
  have hsz : ∀ d, d ≤ 250 → s.s_size dim d = .ok (card s dim d) := fun d hd =>
    size_eq_card (hf.mono hd) (lt_of_le_of_lt (card_mono hd) hc)
  refine ⟨_, _, hsz 0 (by omega), hsz 250 le_rfl, fun n => ?_⟩
  have hne : ∀ {a b : ℕ}, a ≠ b → (Out.exit a : Out ℕ) ≠ .exit b := by
    intro a b h e
    injection e with e
    injection e with e
    exact h e
  rcases get_degree_bissect hs (n := n) hf hc with ⟨d, e, hd, h⟩ | ⟨e, h⟩ | ⟨e, x, h1, h2, h3⟩
  · have ha := card_mono (s := s) (dim := dim) (Nat.zero_le d)
    have hb := card_mono (s := s) (dim := dim) hd
    rw [e]
    refine ⟨⟨nofun, fun h' => ?_⟩, ⟨nofun, fun h' => ?_⟩⟩
    · omega
    · exact absurd (by rw [hsz d hd, h]) (h'.2.2 d hd)
  · rw [e]
    exact ⟨⟨fun _ => h, fun _ => rfl⟩, ⟨fun h' => absurd h' (hne zero_ne_one), fun h' => by omega⟩⟩
  · have ha := card_mono (s := s) (dim := dim) (Nat.zero_le x)
    have hb := card_mono (s := s) (dim := dim) h1
    rw [e]
    refine ⟨⟨fun h' => absurd h' (hne one_ne_zero), fun h' => by omega⟩, ⟨fun _ => ⟨by omega, by omega, fun d hd h' => ?_⟩, fun _ => rfl⟩⟩
    rw [hsz d hd] at h'
    injection h' with h'
    rcases Nat.lt_or_ge x d with hx | hx
    · have := card_mono (s := s) (dim := dim) (show x + 1 ≤ d from hx)
      omega
    · have := card_mono (s := s) (dim := dim) hx
      omega

/-- C11, C10: degrees above the bound of the search. The size of a set of degree above 250 is computed, but when its degree is asked for, the process exits
with code 0. -/
theorem C11_high_degree_false (s : IndexSet) (hs : s ≠ .cross) (dim degree : Nat) (hdim : 1 ≤ dim) (h4 : dim ≤ 4) (hd : 250 < degree)
    (hfit : s = .cross_nc → ∀ m : List Nat, m.length = dim → m.sum ≤ max 1 degree + dim - 1 → (m.map (max 1)).prod < 2 ^ 32)
    (hcard : ∃ L, s.s_list dim degree = .ok L ∧ L.length < 2 ^ 32) :
    ∃ n, s.s_size dim degree = .ok n ∧ s.s_get_degree dim n = .exit 0 := by
  obtain ⟨a, b, -, hb, h⟩ := C11_exit_code s hs dim hdim h4
  have hf : Fits s dim degree := ⟨hdim, hfit⟩
  obtain ⟨L, hL, hlen⟩ := hcard
  have hc : card s dim degree < u32 := by rw [← (IterOk.of_list hf hL).length]; exact hlen
  refine ⟨_, size_eq_card hf hc, (h _).1.2 (Or.inr ?_)⟩
  obtain ⟨hf', hc'⟩ := side_conditions (s := s) hdim h4
  rw [size_eq_card hf' hc'] at hb
  injection hb with hb
  rw [← hb]
  exact card_strict hdim hd (by omega)

/-- C11: the `cross` set. A degree is returned for all numbers from 1 to the size for degree 250 (also for those which are not sizes,
`C11_cross_invents`), and the access to the list is out of range for all others. -/
theorem C11_cross_range (dim : Nat) (hdim : 1 ≤ dim) :
    ∃ L, IndexSet.cross.s_list dim 250 = .ok L ∧ ∀ n,
      (IndexSet.cross.s_get_degree dim n = .ub ↔ n = 0 ∨ L.length < n) ∧ ((∃ d, IndexSet.cross.s_get_degree dim n = .ok d) ↔ 1 ≤ n ∧ n ≤ L.length) := by
  obtain ⟨L, hL⟩ := iterOk_exists (s := .cross) (dim := dim) (degree := 250) ⟨hdim, by simp⟩
  refine ⟨L, hL.list, fun n => ?_⟩
  have e : IndexSet.cross.s_get_degree dim n = if n = 0 then .ub else (rd L (n - 1) >>= fun m => rd m 0) := by
    simp only [IndexSet.s_get_degree, DEGREE_BISSECT_MAX, hL.iter, Out.ok_bind]
    rfl
  rw [e]
  by_cases h0 : n = 0
  · rw [if_pos h0]
    exact ⟨⟨fun _ => Or.inl h0, fun _ => rfl⟩, ⟨fun ⟨_, h⟩ => by simp at h, fun h => by omega⟩⟩
  rw [if_neg h0]
  by_cases hl : n ≤ L.length
  · have hlt : n - 1 < L.length := by omega
    have hlen : (L[n - 1]).length = dim := inSet_length ((hL.mem _).1 (List.getElem_mem hlt))
    have e1 : rd L (n - 1) = .ok L[n - 1] := by rw [rd, List.getElem?_eq_getElem hlt]
    have e2 : rd L[n - 1] 0 = .ok (L[n - 1][0]'(by omega)) := by rw [rd, List.getElem?_eq_getElem (by omega)]
    rw [e1, Out.ok_bind, e2]
    exact ⟨⟨nofun, fun h => by omega⟩, ⟨fun _ => ⟨by omega, hl⟩, fun _ => ⟨_, rfl⟩⟩⟩
  · have e1 : rd L (n - 1) = .ub := by rw [rd, List.getElem?_eq_none (by omega)]
    rw [e1]
    exact ⟨⟨fun _ => Or.inr (by omega), fun _ => rfl⟩, ⟨fun ⟨_, h⟩ => by simp at h, fun h => by omega⟩⟩

/-! ## The hypotheses can be met -/

/-- One direction: the process exits for 0 and from 252 on. -/
example (n : ℕ) : IndexSet.triangle.s_get_degree 1 n = .exit 0 ↔ n < 1 ∨ 251 < n := by
  obtain ⟨a, b, ha, hb, h⟩ := C11_exit_code .triangle (by simp) 1 le_rfl (by omega)
  have h0 : IndexSet.triangle.s_size 1 0 = .ok 1 := by decide
  have h1 : IndexSet.triangle.s_size 1 250 = .ok 251 := by
    rw [IndexSet.s_size, Triangle.s_size, Nat.choose_one_right, toU32, if_pos (by norm_num [u32])]
  rw [h0] at ha
  rw [h1] at hb
  injection ha with ha
  injection hb with hb
  subst ha hb
  exact (h n).1

/-- The triangle of degree 300 in two directions. -/
example : ∃ n, IndexSet.triangle.s_size 2 300 = .ok n ∧ IndexSet.triangle.s_get_degree 2 n = .exit 0 := by
  obtain ⟨⟨L, hL, hlen⟩, -⟩ := C06_closed_forms 2 300 (by omega)
  exact C11_high_degree_false .triangle (by simp) 2 300 (by omega) (by omega) (by omega) (by simp)
    ⟨L, hL, by rw [hlen, show 300 + 2 = 302 from rfl, Nat.choose_two_right]; norm_num⟩

end Hermipy.Props
