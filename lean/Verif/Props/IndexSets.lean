import Verif.Lemmas.Degree
import Verif.Lemmas.Grid
import Verif.Spec.Protocol

/-!
# Properties C01 - C14: index sets and iterators
-/

namespace Hermipy.Props

open Hermipy.Spec

/-! ## C01 - C05: the listings -/

/-- C01. The triangle listing terminates normally and is exactly the simplex, each element once, zero first. -/
theorem C01_triangle_listing (dim degree : Nat) (hdim : 1 ≤ dim) :
    ∃ L, IndexSet.triangle.s_list dim degree = .ok L ∧ Lists L (fun m => m.length = dim ∧ m.sum ≤ degree) ∧
      L.head? = some (List.replicate dim 0) := by
  obtain ⟨L, hL⟩ := iterOk_exists (s := .triangle) (dim := dim) (degree := degree) ⟨hdim, by simp⟩
  obtain ⟨t, ht⟩ := hL.runs.head
  exact ⟨L, hL.list, ⟨hL.nodup, hL.mem⟩, by rw [ht]; rfl⟩

example : IndexSet.triangle.s_increment [0, 3, 1] 5 = .ok (false, [1, 2, 1]) := by decide

/-- C02. The cube listing terminates normally and is exactly the cube, each element once, zero first. -/
theorem C02_cube_listing (dim degree : Nat) (hdim : 1 ≤ dim) :
    ∃ L, IndexSet.cube.s_list dim degree = .ok L ∧ Lists L (fun m => m.length = dim ∧ ∀ x ∈ m, x ≤ degree) ∧
      L.head? = some (List.replicate dim 0) := by
  obtain ⟨L, hL⟩ := iterOk_exists (s := .cube) (dim := dim) (degree := degree) ⟨hdim, by simp⟩
  obtain ⟨t, ht⟩ := hL.runs.head
  exact ⟨L, hL.list, ⟨hL.nodup, hL.mem⟩, by rw [ht]; rfl⟩

example : IndexSet.cube.s_increment [1, 2, 2] 3 = .ok (false, [2, 2, 2]) := by decide

/-- C03. The rectangle listing terminates normally and is exactly the box `[0, degree] × [0, degree/2]^(dim-1)`. -/
theorem C03_rectangle_listing (dim degree : Nat) (hdim : 1 ≤ dim) :
    ∃ L, IndexSet.rectangle.s_list dim degree = .ok L ∧
      Lists L (fun m => m.length = dim ∧ ∀ i (h : i < m.length), m[i] ≤ if i = 0 then degree else degree / 2) ∧
      L.head? = some (List.replicate dim 0) := by
  obtain ⟨L, hL⟩ := iterOk_exists (s := .rectangle) (dim := dim) (degree := degree) ⟨hdim, by simp⟩
  obtain ⟨t, ht⟩ := hL.runs.head
  exact ⟨L, hL.list, ⟨hL.nodup, hL.mem⟩, by rw [ht]; rfl⟩

example : IndexSet.rectangle.s_increment [3, 1] 4 = .ok (false, [4, 0]) := by decide

/-- C04. The cross listing terminates normally and is exactly the hyperbolic cross; degree 0 gives the set of degree 1. -/
theorem C04_cross_listing (dim degree : Nat) (hdim : 1 ≤ dim) :
    ∃ L, IndexSet.cross.s_list dim degree = .ok L ∧
      Lists L (fun m => m.length = dim ∧ (m.map (max 1)).prod ≤ max 1 degree) ∧
      L.head? = some (List.replicate dim 0) := by
  obtain ⟨L, hL⟩ := iterOk_exists (s := .cross) (dim := dim) (degree := degree) ⟨hdim, by simp⟩
  obtain ⟨t, ht⟩ := hL.runs.head
  exact ⟨L, hL.list, ⟨hL.nodup, hL.mem⟩, by rw [ht]; rfl⟩

example : IndexSet.cross.s_increment [1, 1, 6] 8 = .ok (false, [0, 2, 3]) := by decide

/-- C05. The `cross_nc` listing terminates normally (in particular it does not take the internal process exit), is exactly
the hyperbolic cross, and is the triangle listing with the elements outside the cross left out. The hypothesis says
that no product of an element of that triangle reaches 2^32. -/
theorem C05_cross_nc_listing (dim degree : Nat) (hdim : 1 ≤ dim)
    (hfit : ∀ m : List Nat, m.length = dim → m.sum ≤ max 1 degree + dim - 1 → (m.map (max 1)).prod < 2 ^ 32) :
    ∃ L, IndexSet.cross_nc.s_list dim degree = .ok L ∧
      Lists L (fun m => m.length = dim ∧ (m.map (max 1)).prod ≤ max 1 degree) ∧
      L.head? = some (List.replicate dim 0) ∧
      ∃ T, IndexSet.triangle.s_list dim (max 1 degree + dim - 1) = .ok T ∧
        L = T.filter (fun m => (m.map (max 1)).prod ≤ max 1 degree) := by
  obtain ⟨L, hL⟩ := iterOk_exists (s := .cross_nc) (dim := dim) (degree := degree) ⟨hdim, fun _ => hfit⟩
  obtain ⟨T, hT⟩ := iterOk_exists (s := .triangle) (dim := dim) (degree := max 1 degree + dim - 1) ⟨hdim, by simp⟩
  obtain ⟨t, ht⟩ := hL.runs.head
  refine ⟨L, hL.list, ⟨hL.nodup, hL.mem⟩, by rw [ht]; rfl, T, hT.list, ?_⟩
  have hmem : ∀ x, x ∈ T.filter (fun m => (m.map (max 1)).prod ≤ max 1 degree) ↔ x ∈ L := by
    intro x
    rw [List.mem_filter, hT.mem, hL.mem]
    simp only [InSet, decide_eq_true_eq]
    constructor
    · rintro ⟨h1, h2⟩; exact ⟨h1.1, h2⟩
    · intro h; exact ⟨⟨h.1, cross_sum hdim h⟩, h.2⟩
  have ho := setLt_strict .cross_nc dim (InSet .cross_nc dim degree) (fun x hx => inSet_length hx)
  have hs : (T.filter (fun m => (m.map (max 1)).prod ≤ max 1 degree)).Pairwise triLt := hT.sorted.filter _
  have h1 := prefix_of_sorted ho hL.sorted hs (fun x hx => (hL.mem x).1 ((hmem x).1 hx)) (fun x hx => (hmem x).2 hx)
    (fun x _ y hy _ => (hmem y).1 hy)
  have h2 := prefix_of_sorted ho hs hL.sorted (fun x hx => (hL.mem x).1 hx) (fun x hx => (hmem x).1 hx)
    (fun x _ y hy _ => (hmem y).2 hy)
  exact h1.eq_of_length_le h2.length_le

/-- The hypothesis of C05 holds for all dimensions and degrees used in practice, e.g. dimension 4 and degree 250. -/
example : ∀ m : List Nat, m.length = 4 → m.sum ≤ max 1 250 + 4 - 1 → (m.map (max 1)).prod < 2 ^ 32 :=
  noWrap_of_pow (dim := 4) (degree := 250) (by omega) (by decide)

/-! ## C06: sizes -/

/-- C06. The reported size is the number of listed elements, whenever that number fits in 32 bits. -/
theorem C06_size (s : IndexSet) (dim degree : Nat) (hdim : 1 ≤ dim)
    (hfit : s = .cross_nc → ∀ m : List Nat, m.length = dim → m.sum ≤ max 1 degree + dim - 1 →
      (m.map (max 1)).prod < 2 ^ 32) :
    ∃ L, s.s_list dim degree = .ok L ∧ (L.length < 2 ^ 32 → s.s_size dim degree = .ok L.length) := by
  obtain ⟨L, hL⟩ := iterOk_exists (s := s) (dim := dim) (degree := degree) ⟨hdim, hfit⟩
  exact ⟨L, hL.list, fun h => hL.size hdim h⟩

/-- The closed forms behind C06: binomial coefficient, power, product. -/
theorem C06_closed_forms (dim degree : Nat) (hdim : 1 ≤ dim) :
    (∃ L, IndexSet.triangle.s_list dim degree = .ok L ∧ L.length = Nat.choose (degree + dim) dim) ∧
    (∃ L, IndexSet.cube.s_list dim degree = .ok L ∧ L.length = (degree + 1) ^ dim) ∧
    (∃ L, IndexSet.rectangle.s_list dim degree = .ok L ∧ L.length = (degree + 1) * (degree / 2 + 1) ^ (dim - 1)) := by
  refine ⟨?_, ?_, ?_⟩
  · obtain ⟨L, hL⟩ := iterOk_exists (s := .triangle) (dim := dim) (degree := degree) ⟨hdim, by simp⟩
    exact ⟨L, hL.list, hL.length_triangle⟩
  · obtain ⟨L, hL⟩ := iterOk_exists (s := .cube) (dim := dim) (degree := degree) ⟨hdim, by simp⟩
    exact ⟨L, hL.list, hL.length_cube⟩
  · obtain ⟨L, hL⟩ := iterOk_exists (s := .rectangle) (dim := dim) (degree := degree) ⟨hdim, by simp⟩
    exact ⟨L, hL.list, hL.length_rectangle hdim⟩

example : IndexSet.rectangle.s_size 3 5 = .ok 54 := by decide

/-! ## C07: nested listings -/

/-- C07. For triangle, cube, rectangle and cross, smaller degrees are prefixes of larger ones. -/
theorem C07_prefix (s : IndexSet) (hs : s ≠ .cross_nc) (dim d d' : Nat) (hdim : 1 ≤ dim) (hdd : d ≤ d') :
    ∃ L L', s.s_list dim d = .ok L ∧ s.s_list dim d' = .ok L' ∧ L <+: L' := by
  obtain ⟨L, hL⟩ := iterOk_exists (s := s) (dim := dim) (degree := d) ⟨hdim, fun h => absurd h hs⟩
  obtain ⟨L', hL'⟩ := iterOk_exists (s := s) (dim := dim) (degree := d') ⟨hdim, fun h => absurd h hs⟩
  exact ⟨L, L', hL.list, hL'.list, IterOk.prefix hs hdim hdd hL hL'⟩

example : (IndexSet.cross ≠ .cross_nc) ∧ 1 ≤ 2 ∧ 3 ≤ 7 := by decide

/-- C07, the excluded case: `cross_nc` listings are not nested. -/
theorem C07_cross_nc_not_prefix :
    ∃ L L', IndexSet.cross_nc.s_list 2 1 = .ok L ∧ IndexSet.cross_nc.s_list 2 2 = .ok L' ∧ ¬ L <+: L' := by
  obtain ⟨L, hL⟩ := iterOk_exists (s := .cross_nc) (dim := 2) (degree := 1)
    ⟨by omega, fun _ => noWrap_of_pow (by omega) (by decide)⟩
  obtain ⟨L', hL'⟩ := iterOk_exists (s := .cross_nc) (dim := 2) (degree := 2)
    ⟨by omega, fun _ => noWrap_of_pow (by omega) (by decide)⟩
  refine ⟨L, L', hL.list, hL'.list, ?_⟩
  rintro ⟨t, rfl⟩
  have h1 : [1, 1] ∈ L := (hL.mem _).2 ⟨rfl, by decide⟩
  have h2 : [0, 2] ∈ L ++ t := (hL'.mem _).2 ⟨rfl, by decide⟩
  have h3 : [0, 2] ∉ L := fun h => by
    have := ((hL.mem _).1 h).2
    simp at this
  have h4 : [0, 2] ∈ t := by simpa [h3] using h2
  have h5 : triLt [1, 1] [0, 2] := (List.pairwise_append.1 hL'.sorted).2.2 _ h1 _ h4
  simp [triLt, colexLt] at h5

/-! ## C08, C09: closed-form indices -/

/-- C08. `iterator_index` of the triangle is the position in the listing. -/
theorem C08_triangle_index (dim degree : Nat) (hdim : 1 ≤ dim) :
    ∃ L, IndexSet.triangle.s_list dim degree = .ok L ∧
      ∀ k m, L[k]? = some m → k < 2 ^ 32 → Triangle.s_index m = .ok k := by
  obtain ⟨L, hL⟩ := iterOk_exists (s := .triangle) (dim := dim) (degree := degree) ⟨hdim, by simp⟩
  exact ⟨L, hL.list, fun k m hk hfit => hL.index_triangle hk hfit⟩

example : Triangle.s_index [1, 2, 1] = .ok 27 := by decide

/-- C09 (partial: the zero multi-index is excluded). `iterator_index` of the cube is the position in the listing.
The full statement has no condition `m ≠ 0`; it is false, see `C09_zero_undefined`. -/
theorem C09_cube_index_partial (dim degree : Nat) (hdim : 1 ≤ dim) :
    ∃ L, IndexSet.cube.s_list dim degree = .ok L ∧
      ∀ k m, L[k]? = some m → k < 2 ^ 32 → m ≠ List.replicate dim 0 → Cube.s_index m = .ok k := by
  obtain ⟨L, hL⟩ := iterOk_exists (s := .cube) (dim := dim) (degree := degree) ⟨hdim, by simp⟩
  exact ⟨L, hL.list, fun k m hk hfit hm => hL.index_cube hdim hk hfit hm⟩

example : Cube.s_index [1, 2, 1] = .ok 16 := by decide

/-- C09, counterexample in every dimension: at the zero multi-index the formula converts `-1.0` to an unsigned integer. -/
theorem C09_zero_undefined (dim : Nat) (hdim : 1 ≤ dim) : Cube.s_index (List.replicate dim 0) = .ub :=
  cube_index_zero dim hdim

/-! ## C10, C11: recovering the degree -/

/-- C10 (partial). Degree recovery inverts size, for every index set in dimension at most 4 and degree at most 250, except
cross degree 0 and cross_nc degree 1. The full statement has no bound on the dimension and no exceptions; it is false, see
`C10_dim5_undefined`, `C10_rectangle_dim8`, `C10_cross_zero` and `C10_cross_nc_one`. -/
theorem C10_degree_of_size_partial (s : IndexSet) (dim degree : Nat) (hdim : 1 ≤ dim) (h4 : dim ≤ 4) (hdeg : degree ≤ 250)
    (h1 : s = .cross → degree ≠ 0) (h2 : s = .cross_nc → degree ≠ 1) :
    ∃ n, s.s_size dim degree = .ok n ∧ s.s_get_degree dim n = .ok degree := by
  obtain ⟨hf, hc⟩ := side_conditions (s := s) hdim h4
  exact ⟨_, size_eq_card (hf.mono hdeg) (lt_of_le_of_lt (card_mono hdeg) hc), get_degree_card hf hc hdeg h1 h2⟩

example : (1 ≤ 3) ∧ 3 ≤ 4 ∧ 100 ≤ 250 ∧ (IndexSet.cross_nc = .cross → 100 ≠ 0) ∧ (IndexSet.cross_nc = .cross_nc → 100 ≠ 1) := by
  decide

/-- C10 in any dimension, as long as the listing for the search bound 250 has fewer than 2^32 elements. -/
theorem C10_degree_of_size_general_partial (s : IndexSet) (dim degree : Nat) (hdim : 1 ≤ dim) (hdeg : degree ≤ 250)
    (hfit : s = .cross_nc → ∀ m : List Nat, m.length = dim → m.sum ≤ 250 + dim - 1 → (m.map (max 1)).prod < 2 ^ 32)
    (hcard : ∃ L, s.s_list dim 250 = .ok L ∧ L.length < 2 ^ 32)
    (h1 : s = .cross → degree ≠ 0) (h2 : s = .cross_nc → degree ≠ 1) :
    ∃ n, s.s_size dim degree = .ok n ∧ s.s_get_degree dim n = .ok degree := by
  have hf : Fits s dim 250 := ⟨hdim, hfit⟩
  obtain ⟨L, hL, hlen⟩ := hcard
  have hc : card s dim 250 < u32 := by rw [← (IterOk.of_list hf hL).length]; exact hlen
  exact ⟨_, size_eq_card (hf.mono hdeg) (lt_of_le_of_lt (card_mono hdeg) hc), get_degree_card hf hc hdeg h1 h2⟩

theorem choose_255_5 : Nat.choose 255 250 = 8637487551 := by
  rw [Nat.choose_symm_of_eq_add (show 255 = 250 + 5 from rfl), Nat.choose_eq_descFactorial_div_factorial]
  decide

/-- C10, counterexample: from dimension 5 on, the search for the degree of a triangle or cube converts a number of at least
2^32 to a 32-bit unsigned integer, whatever the argument. -/
theorem C10_dim5_undefined (dim n : Nat) (hdim : 5 ≤ dim) :
    IndexSet.triangle.s_get_degree dim n = .ub ∧ IndexSet.cube.s_get_degree dim n = .ub := by
  constructor
  · have h0 : Triangle.s_size dim 0 = .ok 1 := by simp [Triangle.s_size, toU32, u32]
    have h1 : Triangle.s_size dim 250 = .ub := by
      have : Nat.choose 255 250 ≤ Nat.choose (250 + dim) 250 := Nat.choose_le_choose _ (by omega)
      rw [choose_255_5] at this
      have h2 : Nat.choose (250 + dim) dim = Nat.choose (250 + dim) 250 :=
        Nat.choose_symm_of_eq_add (by omega)
      simp only [Triangle.s_size, toU32, h2, u32]
      rw [if_neg (by omega)]
    simp only [IndexSet.s_get_degree, pos_bissect, IndexSet.s_size, DEGREE_BISSECT_MAX, h0, h1, Out.ok_bind]
    rfl
  · have h0 : Cube.s_size dim 0 = .ok 1 := by simp [Cube.s_size, toU32, u32]
    have h1 : Cube.s_size dim 250 = .ub := by
      have : 251 ^ 5 ≤ 251 ^ dim := Nat.pow_le_pow_right (by omega) hdim
      simp only [Cube.s_size, toU32]
      exact if_neg (by norm_num [u32] at *; omega)
    simp only [IndexSet.s_get_degree, pos_bissect, IndexSet.s_size, DEGREE_BISSECT_MAX, h0, h1, Out.ok_bind]
    rfl

/-- C10, counterexample: in dimension 8 the 32-bit size of the rectangle wraps, and asking for the degree of the two-element
rectangle of degree 1 terminates the process. -/
theorem C10_rectangle_dim8 :
    IndexSet.rectangle.s_size 8 1 = .ok 2 ∧ IndexSet.rectangle.s_get_degree 8 2 = .exit 1 := by
  refine ⟨by decide, ?_⟩
  have low : ∀ x1 x2 y, IndexSet.rectangle.s_size 8 ((x1 + x2) / 2) = .ok y → y < 2 → (x1 + x2) / 2 ≠ x1 →
      bissectLoop (IndexSet.rectangle.s_size 8) 2 x1 x2 =
        bissectLoop (IndexSet.rectangle.s_size 8) 2 ((x1 + x2) / 2) x2 := by
    intro x1 x2 y h1 h2 h3
    conv => lhs; rw [bissectLoop]
    simp only [h1, Out.ok_bind]
    rw [if_pos h2, if_neg h3]
  have high : ∀ x1 x2 y, IndexSet.rectangle.s_size 8 ((x1 + x2) / 2) = .ok y → 2 < y →
      bissectLoop (IndexSet.rectangle.s_size 8) 2 x1 x2 =
        bissectLoop (IndexSet.rectangle.s_size 8) 2 x1 ((x1 + x2) / 2) := by
    intro x1 x2 y h1 h2
    conv => lhs; rw [bissectLoop]
    simp only [h1, Out.ok_bind]
    rw [if_neg (by omega), if_pos h2]
  have fin : ∀ x1 x2 y, IndexSet.rectangle.s_size 8 ((x1 + x2) / 2) = .ok y → y < 2 → (x1 + x2) / 2 = x1 →
      bissectLoop (IndexSet.rectangle.s_size 8) 2 x1 x2 = .exit 1 := by
    intro x1 x2 y h1 h2 h3
    rw [bissectLoop]
    simp only [h1, Out.ok_bind]
    rw [if_pos h2, if_pos h3]
  have e0 : IndexSet.rectangle.s_size 8 0 = .ok 1 := by decide
  have e250 : IndexSet.rectangle.s_size 8 250 = .ok 2116231808 := by decide
  simp only [IndexSet.s_get_degree, pos_bissect, DEGREE_BISSECT_MAX, e0, e250, Out.ok_bind]
  rw [if_neg (by omega), if_neg (by omega), if_neg (by omega),
    high 0 250 2319678466 (by decide) (by decide), low 0 125 0 (by decide) (by decide) (by decide),
    high 62 125 4270912770 (by decide) (by decide), high 62 93 960019330 (by decide) (by decide),
    high 62 77 2625055042 (by decide) (by decide), high 62 69 3908624898 (by decide) (by decide),
    low 62 65 0 (by decide) (by decide) (by decide), high 63 65 4239854881 (by decide) (by decide),
    fin 63 64 0 (by decide) (by decide) (by decide)]

/-- C10, counterexample: the cross of degree 0 has the size of the cross of degree 1 and is read back as degree 1. -/
theorem C10_cross_zero (dim : Nat) (hdim : 1 ≤ dim) (h4 : dim ≤ 4) :
    ∃ n, IndexSet.cross.s_size dim 0 = .ok n ∧ IndexSet.cross.s_get_degree dim n = .ok 1 := by
  obtain ⟨hf, hc⟩ := side_conditions (s := .cross) hdim h4
  refine ⟨_, size_eq_card (hf.mono (Nat.zero_le _)) (lt_of_le_of_lt (card_mono (Nat.zero_le _)) hc), ?_⟩
  rw [card_cross_zero (Or.inl rfl)]
  exact get_degree_card hf hc (by omega) (by simp) (by simp)

/-- C10, counterexample: the cross_nc set of degree 1 is read back as degree 0. -/
theorem C10_cross_nc_one (dim : Nat) (hdim : 1 ≤ dim) (h4 : dim ≤ 4) :
    ∃ n, IndexSet.cross_nc.s_size dim 1 = .ok n ∧ IndexSet.cross_nc.s_get_degree dim n = .ok 0 := by
  obtain ⟨hf, hc⟩ := side_conditions (s := .cross_nc) hdim h4
  refine ⟨_, size_eq_card (hf.mono (show 1 ≤ 250 by omega)) (lt_of_le_of_lt (card_mono (show 1 ≤ 250 by omega)) hc), ?_⟩
  rw [← card_cross_zero (Or.inr rfl)]
  exact get_degree_card hf hc (by omega) (by simp) (by simp)

/-- C11 (partial: `cross` is excluded and the dimension is at most 4). Degree recovery terminates for every `n`, and a degree
it returns has size `n`; otherwise the process exits. The full statement includes `cross` and every dimension; it is
false, see `C11_cross_invents` and `C10_dim5_undefined`. -/
theorem C11_sound_partial (s : IndexSet) (hs : s ≠ .cross) (dim n : Nat) (hdim : 1 ≤ dim) (h4 : dim ≤ 4) :
    (∃ d, s.s_get_degree dim n = .ok d ∧ s.s_size dim d = .ok n) ∨
    (∃ code, s.s_get_degree dim n = .exit code ∧ ∀ d ≤ 250, s.s_size dim d ≠ .ok n) := by
  obtain ⟨hf, hc⟩ := side_conditions (s := s) hdim h4
  have hsz : ∀ d, d ≤ 250 → s.s_size dim d = .ok (card s dim d) := fun d hd =>
    size_eq_card (hf.mono hd) (lt_of_le_of_lt (card_mono hd) hc)
  rcases get_degree_bissect hs (n := n) hf hc with ⟨d, e, hd, h⟩ | ⟨e, h⟩ | ⟨e, x, h1, h2, h3⟩
  · exact Or.inl ⟨d, e, by rw [hsz d hd, h]⟩
  · refine Or.inr ⟨0, e, fun d hd h' => ?_⟩
    rw [hsz d hd] at h'
    simp at h'
    have ha := card_mono (s := s) (dim := dim) (Nat.zero_le d)
    have hb := card_mono (s := s) (dim := dim) hd
    omega
  · refine Or.inr ⟨1, e, fun d hd h' => ?_⟩
    rw [hsz d hd] at h'
    simp at h'
    rcases Nat.lt_or_ge x d with h | h
    · have := card_mono (s := s) (dim := dim) (show x + 1 ≤ d from h)
      omega
    · have := card_mono (s := s) (dim := dim) h
      omega

example : (IndexSet.cube ≠ .cross) ∧ 1 ≤ 2 ∧ 2 ≤ 4 := by decide

/-- C11, counterexample: for 5 coefficients in dimension 2 the cross answers degree 0, which has 4 coefficients. -/
theorem C11_cross_invents :
    IndexSet.cross.s_get_degree 2 5 = .ok 0 ∧ IndexSet.cross.s_size 2 0 = .ok 4 := by
  have hr2 : Runs (fun m => IndexSet.cross.s_increment m 2) (List.replicate 2 0)
      [[0, 0], [1, 0], [0, 1], [1, 1], [0, 2], [1, 2], [2, 0], [2, 1]] :=
    .next rfl (.next rfl (.next rfl (.next rfl (.next rfl (.next rfl (.next rfl (.last rfl)))))))
  have hr0 : Runs (fun m => IndexSet.cross.s_increment m 0) (List.replicate 2 0) [[0, 0], [1, 0], [0, 1], [1, 1]] :=
    .next rfl (.next rfl (.next rfl (.last rfl)))
  obtain ⟨L, hL⟩ := iterOk_exists (s := .cross) (dim := 2) (degree := 250) ⟨by omega, by simp⟩
  obtain ⟨L2, hL2⟩ := iterOk_exists (s := .cross) (dim := 2) (degree := 2) ⟨by omega, by simp⟩
  have e2 := hL2.runs.unique hr2
  subst e2
  obtain ⟨t, rfl⟩ := IterOk.prefix (s := .cross) (by simp) (by omega) (by omega) hL2 hL
  constructor
  · simp only [IndexSet.s_get_degree, DEGREE_BISSECT_MAX, hL.iter, Out.ok_bind]
    rfl
  · have := mkIter_of_runs hr0
    simp only [IndexSet.s_size, IndexSet.iter, this, Out.ok_bind]
    rfl

/-! ## C12: lookup -/

/-- C12. In a constructed iterator, `index m = k` exactly when `m` is the `k`-th listed multi-index, `has m` exactly when it is
listed, `index m` throws exactly when it is not; and the textual keys of different multi-indices differ. -/
theorem C12_lookup (s : IndexSet) (dim degree : Nat) (hdim : 1 ≤ dim)
    (hfit : s = .cross_nc → ∀ m : List Nat, m.length = dim → m.sum ≤ max 1 degree + dim - 1 →
      (m.map (max 1)).prod < 2 ^ 32) :
    ∃ it L, s.iter dim degree = .ok it ∧ s.s_list dim degree = .ok L ∧ ∀ m : List Nat,
      (∀ k, it.index m = .ok k ↔ L[k]? = some m) ∧ (it.has m = true ↔ m ∈ L) ∧ (it.index m = .throws ↔ m ∉ L) := by
  obtain ⟨L, hL⟩ := iterOk_exists (s := s) (dim := dim) (degree := degree) ⟨hdim, hfit⟩
  exact ⟨_, L, hL.iter, hL.list, fun m => ⟨fun k => freshIter_index hL.nodup m k, freshIter_has hL.nodup m,
    freshIter_index_throws hL.nodup m⟩⟩

theorem C12_keys (v w : List Nat) (h : hash_print v = hash_print w) : v = w := hash_print_inj h

example : hash_print [1, 23] = "1-23-" ∧ hash_print [12, 3] = "12-3-" := by decide

/-! ## C13: iteration protocol -/

/-- Issue a history of calls on an iterator object. -/
def runCalls (it : Iter) : List Call → Out Iter
  | [] => .ok it
  | .increment :: h => do
    let it ← it.increment
    runCalls it h
  | .reset :: h => runCalls it.reset h

/-- C13. After any history of calls the current multi-index is the listed element under the cursor, and the `full` flag is
the exhausted flag of the cursor. -/
theorem C13_protocol (s : IndexSet) (dim degree : Nat) (hdim : 1 ≤ dim)
    (hfit : s = .cross_nc → ∀ m : List Nat, m.length = dim → m.sum ≤ max 1 degree + dim - 1 →
      (m.map (max 1)).prod < 2 ^ 32) :
    ∃ it L, s.iter dim degree = .ok it ∧ s.s_list dim degree = .ok L ∧ ∀ h : List Call,
      ∃ it', runCalls it h = .ok it' ∧ (cursor L.length h).1 < L.length ∧
        L[(cursor L.length h).1]? = some it'.multi_index ∧ it'.full = (cursor L.length h).2 := by
  obtain ⟨L, hL⟩ := iterOk_exists (s := s) (dim := dim) (degree := degree) ⟨hdim, hfit⟩
  refine ⟨_, L, hL.iter, hL.list, ?_⟩
  obtain ⟨t, ht⟩ := hL.runs.head
  have key : ∀ (h : List Call) (it : Iter) (c : Nat × Bool), it.list = L → it.index_list = c.1 → it.full = c.2 →
      L[c.1]? = some it.multi_index → it.multi_index.length = dim →
      ∃ it', runCalls it h = .ok it' ∧ (h.foldl (step L.length) c).1 < L.length ∧
        L[(h.foldl (step L.length) c).1]? = some it'.multi_index ∧ it'.full = (h.foldl (step L.length) c).2 := by
    intro h
    induction h with
    | nil =>
      intro it c h1 h2 h3 h4 _
      exact ⟨it, rfl, (List.getElem?_eq_some_iff.1 h4).1, h4, h3⟩
    | cons a h ih =>
      intro it c h1 h2 h3 h4 h5
      have hlt := (List.getElem?_eq_some_iff.1 h4).1
      rw [List.foldl_cons]
      cases a with
      | reset =>
        rw [runCalls]
        refine ih it.reset (0, false) h1 rfl rfl ?_ (by simp [Iter.reset, h5])
        rw [ht]
        simp [Iter.reset, h5]
      | increment =>
        rw [runCalls, Iter.increment]
        by_cases hc : c.1 + 1 = L.length
        · have hst : step L.length c .increment = (c.1, true) := by simp [step, hc]
          rw [if_pos (by rw [h1, h2]; omega), hst]
          simp only [Out.ok_bind]
          exact ih _ (c.1, true) h1 h2 rfl h4 h5
        · have hst : step L.length c .increment = (c.1 + 1, c.2) := by simp [step, hc]
          rw [if_neg (by rw [h1, h2]; omega), hst]
          have h6 : c.1 + 1 < L.length := by omega
          have hrd : rd it.list (it.index_list + 1) = .ok L[c.1 + 1] := by
            rw [h1, h2]; exact rd_of_lt h6
          simp only [hrd, Out.ok_bind]
          exact ih _ (c.1 + 1, c.2) h1 (by simp [h2]) h3 (by simp [h6])
            (inSet_length ((hL.mem _).1 (List.getElem_mem h6)))
  intro h
  exact key h _ (0, false) rfl rfl rfl (by rw [ht]; rfl) (by simp [freshIter])

example : cursor 3 [.increment, .increment, .increment, .reset, .increment] = (1, false) ∧
    cursor 3 [.increment, .increment, .increment, .increment] = (2, true) := by decide

/-! ## C14: grids -/

/-- All multi-indices below the bounds, by nested loops with the last coordinate innermost. -/
def nestedLoops : List Nat → List (List Nat)
  | [] => [[]]
  | b :: bs => (List.range b).flatMap (fun a => (nestedLoops bs).map (fun m => a :: m))

theorem nestedLoops_eq (bs : List Nat) : nestedLoops bs = boxList bs := by
  induction bs with
  | nil => rfl
  | cons b bs ih => simp [nestedLoops, boxList, ih]

/-- C14. For a non-empty vector of positive bounds the grid listing terminates normally and is the nested-loop enumeration;
it contains exactly the multi-indices below the bounds, once each; and the grid index of the `k`-th one is `k`. -/
theorem C14_grid (bounds : List Nat) (hne : bounds ≠ []) (hb : ∀ b ∈ bounds, 1 ≤ b ∧ b < 2 ^ 32) :
    Grid.list bounds = .ok (nestedLoops bounds) ∧
    Lists (nestedLoops bounds) (fun m => List.Forall₂ (· < ·) m bounds) ∧
    ∀ k m, (nestedLoops bounds)[k]? = some m → k < 2 ^ 32 → Grid.index bounds m = k := by
  rw [nestedLoops_eq]
  refine ⟨grid_list hne hb, ⟨nodup_boxList bounds, fun m => mem_boxList⟩, fun k m hk hfit => ?_⟩
  have hr := boxList_rank hk
  have hm := mem_boxList.1 (List.mem_of_getElem? hk)
  rw [grid_index hm.length_eq (by rw [hr]; exact hfit), hr]

example : nestedLoops [2, 3] = [[0, 0], [0, 1], [0, 2], [1, 0], [1, 1], [1, 2]] := by decide

/-- C14, the conditions are needed: without directions the increment leaves the vector; with a zero bound the comparison with
`bound - 1` wraps around and elements are listed although the grid is empty. -/
theorem C14_conditions : Grid.list [] = .ub ∧ GridIter.increment (mkGrid [0]) = .ok ⟨[0], [1], false⟩ := by
  constructor
  · rw [Grid.list, gridListLoop]; rfl
  · rfl

end Hermipy.Props
