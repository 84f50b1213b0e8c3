import Verif.Lemmas.TransformLaws
import Verif.Props.Blocks

/-!
# Properties C24, C26 - C29, C31, C32: evaluation and transforms

`Spec.Grid` and `Spec.DegreeOk` state what is asked of grid and degree. `slack` is the number of unused doubles behind each
buffer; the C++ language guarantees 0, see DESIGN.md.
-/

namespace Hermipy.Props

open Hermipy.Spec

/-- C24, partial: for degrees at least 1 the recursion fills entry `i` with the normalised Hermite polynomial of degree `i` and
writes nothing outside the `degree + 1` entries. Missing: degree 0, see `C24_degree_zero_undefined`. -/
theorem C24_hermite_eval_partial (x : ℝ) (degree : Nat) (h : 1 ≤ degree) (values : List ℝ) (hl : values.length = degree + 1) :
    hermite_eval 0 x degree values = .ok ((List.range (degree + 1)).map fun i => herm i x) :=
  hermite_eval_ok (Or.inl h) x hl

example : (1 : Nat) ≤ 5 ∧ (List.replicate 6 (0 : ℝ)).length = 5 + 1 := by simp

/-- C24 for degree 0: the write to entry 1 is out of range. -/
theorem C24_degree_zero_undefined (x a : ℝ) : hermite_eval 0 x 0 [a] = .ub := hermite_eval_zero x rfl

/-- C24 for degree 0 when a spare double follows the buffer: the result is still right. -/
theorem C24_degree_zero_slack (x a : ℝ) (slack : Nat) (h : 1 ≤ slack) : hermite_eval slack x 0 [a] = .ok [1] := by
  rw [hermite_eval_ok (Or.inr h) x (by rfl)]
  simp [table, herm_zero]

/-- C26. The forward transform is the quadrature of the function against each basis function. -/
theorem C26_forward (slack : Nat) (s : IndexSet) (degree : Nat) (nodes weights : List (List ℝ)) (fourier : List Nat)
    (hz : Sized s nodes.length degree) (hg : Grid nodes fourier) (hd : DegreeOk slack s degree fourier)
    (hw : weights.map List.length = nodes.map List.length) (L : List (List Nat))
    (hL : s.s_list nodes.length degree = .ok L) (f : List ℝ) (hf : f.length = (gridPoints nodes).length) :
    transform slack s degree f nodes weights fourier true = .ok (L.map fun m =>
      quadrature nodes weights fun i p => f.getD i 0 * basis nodes.length fourier m p) :=
  transform_forward_ok hz hg hd hw (IterOk.of_list hz.fits' hL) hf

/-- C26. The backward transform evaluates the series at every point of the grid. -/
theorem C26_backward (slack : Nat) (s : IndexSet) (degree : Nat) (nodes weights : List (List ℝ)) (fourier : List Nat)
    (hz : Sized s nodes.length degree) (hg : Grid nodes fourier) (hd : DegreeOk slack s degree fourier) (L : List (List Nat))
    (hL : s.s_list nodes.length degree = .ok L) (c : List ℝ) (hc : c.length = L.length) :
    transform slack s degree c nodes weights fourier false = .ok ((gridPoints nodes).map (series nodes.length fourier L c)) :=
  transform_backward_ok weights hz hg hd (IterOk.of_list hz.fits' hL) hc

/-- The hypotheses of C26 hold for a grid with a Hermite and a Fourier direction. -/
example : Sized .cross 2 6 ∧ Grid [[-1, 0, 2], [0, 3]] [0, 1] ∧ DegreeOk 0 .cross 6 [0, 1] ∧
    ([[1, 2, 1], [5, 5]] : List (List ℝ)).map List.length = ([[-1, 0, 2], [0, 3]] : List (List ℝ)).map List.length ∧
    ([1, 2, 3, 4, 5, 6] : List ℝ).length = (gridPoints [[-1, 0, 2], [0, 3]]).length :=
  ⟨(usable_small _ (by omega) (by omega) (by omega)).toSized, ⟨by simp, by simp, by simp, by simp [gridPoints, cartesian]⟩,
    ⟨by simp, by simp, by simp⟩, by simp, by simp [gridPoints, cartesian]⟩

/-- C26 fails for the crosses at degree 0: the set contains the multi-index 1, and the table of basis functions has one column. -/
theorem C26_cross_zero_undefined (slack : Nat) (f x w : ℝ) (forward : Bool) :
    transform slack .cross 0 (if forward then [f] else [f, f]) [[x]] [[w]] [1] forward = .ub := by
  have hz := (usable_small .cross (dim := 1) (degree := 0) (by omega) (by omega) (by omega)).toSized
  obtain ⟨L, hL⟩ := iterOk_exists hz.fits'
  have hmem : ∀ m, m ∈ L ↔ m ∈ [[0], [1]] := by
    intro m
    rw [hL.mem]
    simp only [InSet, InCross, List.mem_cons, List.not_mem_nil, or_false]
    constructor
    · rintro ⟨h1, h2⟩
      obtain ⟨a, rfl⟩ := List.length_eq_one_iff.1 h1
      simp at h2
      have : a = 0 ∨ a = 1 := by omega
      rcases this with rfl | rfl <;> simp
    · rintro (rfl | rfl) <;> simp
  have hL2 : L = [[0], [1]] := by
    have hp : L.Perm [[0], [1]] := (List.perm_ext_iff_of_nodup hL.nodup (by decide)).2 hmem
    obtain ⟨t, ht⟩ := hL.runs.head
    subst ht
    have : t.Perm [[1]] := by
      have h2 : ([0] :: t).Perm ([0] :: [[1]]) := hp
      exact h2.cons_inv
    rw [List.perm_singleton.1 this]
    rfl
  subst hL2
  have hsize := hL.size (by omega) (by simp [u32])
  have hb : basisCube slack 0 [[x]] [1] = .ok [[[1 / √(2 * Real.pi)]]] := by
    rw [basisCube_ok rfl (by simpa using ⟨le_rfl, by simp, by simp⟩)]
    simp [table, phi, trig_zero]
  have hit := hL.iter
  rw [transform]
  simp only [List.length_cons, List.length_nil, Nat.zero_add, hsize, hb, hit, Out.ok_bind]
  cases forward <;>
  simp [gridLoop, countLoop, forRange, List.range_succ, mkGrid, freshIter, Iter.reset, Iter.increment, valAt, weightAt, wrap32,
    u32, rd, wr, Out.ub]

/-- C27. The transform of a product of functions of blocks of directions is the tensor product of the transforms of the
factors. -/
theorem C27_transform_product (slack : Nat) (s : IndexSet) (degree : Nat) (nodes weights : List (List ℝ)) (fourier : List Nat)
    (hz : Sized s nodes.length degree) (hg : Grid nodes fourier) (hd : DegreeOk slack s degree fourier)
    (hw : weights.map List.length = nodes.map List.length) (blocks : List (List Nat)) (hp : Partition nodes.length blocks)
    (hu : ∀ b ∈ blocks, Usable s b.length degree) (F : Nat → List ℝ → ℝ) :
    ∃ (vs : List (List ℝ)) (r : List ℝ), vs.length = blocks.length ∧
      (∀ b < blocks.length, transform slack s degree ((gridPoints (sub [] (blocks.getD b []) nodes)).map (F b))
        (sub [] (blocks.getD b []) nodes) (sub [] (blocks.getD b []) weights) (sub 0 (blocks.getD b []) fourier) true =
          .ok (vs.getD b [])) ∧
      tensorize_vecs_dirs s vs blocks = .ok r ∧
      transform slack s degree
        ((gridPoints nodes).map fun p => ∏ b ∈ Finset.range blocks.length, F b (sub 0 (blocks.getD b []) p))
        nodes weights fourier true = .ok r := by
  obtain ⟨L, hL⟩ := list_exists s hz
  have hok := IterOk.of_list hz.fits' hL
  have hlist : ∀ b ∈ blocks, ∃ Lb, IterOk s b.length degree Lb := fun b hb => iterOk_exists (hu b hb).toSized.fits'
  choose! LB hLB using hlist
  -- the blocks
  let Q : List Nat → (List ℝ → ℝ) → List Nat → ℝ := fun b F m => quadrature (sub [] b nodes) (sub [] b weights)
    fun _ q => F q * basis b.length (sub 0 b fourier) m q
  let bl : List (Block ℝ) := (List.range blocks.length).map fun b =>
    ⟨blocks.getD b [], LB (blocks.getD b []), (LB (blocks.getD b [])).map (Q (blocks.getD b []) (F b))⟩
  have hget : ∀ b < blocks.length, blocks.getD b [] ∈ blocks := fun b hb => by simp [hb]
  have hlt : ∀ b < blocks.length, ∀ k ∈ blocks.getD b [], k < nodes.length := fun b hb k hk => hp.mem_lt (hget b hb) hk
  have hdirs : bl.map (·.dirs) = blocks := by
    apply List.ext_getElem
    · simp [bl]
    · intro i h1 h2
      simp [bl, h2]
  have hvec : ∀ b < blocks.length, transform slack s degree ((gridPoints (sub [] (blocks.getD b []) nodes)).map (F b))
        (sub [] (blocks.getD b []) nodes) (sub [] (blocks.getD b []) weights) (sub 0 (blocks.getD b []) fourier) true =
          .ok ((bl.map (·.vec)).getD b []) := by
    intro b hb
    have hbm := hget b hb
    have hnd : (blocks.getD b []).Nodup := (hp.inc _ hbm).2.imp Nat.ne_of_lt
    have hlen : (sub [] (blocks.getD b []) nodes).length = (blocks.getD b []).length := sub_length _ _ _
    rw [transform_forward_ok (L := LB (blocks.getD b [])) (by rw [hlen]; exact (hu _ hbm).toSized)
      (hg.sub (hp.inc _ hbm).1 hnd (hlt b hb)) (hd.sub (by rw [hg.flags.1]; exact hlt b hb)) (sub_lengths_eq hw _)
      (by rw [hlen]; exact hLB _ hbm) (by simp)]
    have : (bl.map (·.vec)).getD b [] = (LB (blocks.getD b [])).map (Q (blocks.getD b []) (F b)) := by
      simp [bl, hb]
    rw [this]
    congr 1
    apply List.map_congr_left
    intro m _
    apply quadrature_congr
    intro i p hi
    rw [hlen, List.getD_eq_getElem?_getD, List.getElem?_map, hi]
    rfl
  have hbne : bl ≠ [] := by
    intro h
    have h0 : blocks = [] := by rw [← hdirs, h]; rfl
    have := hp.perm.length_eq
    rw [h0] at this
    have hpos := hz.dim_pos
    simp at this
    omega
  obtain ⟨b0, bs, hbs⟩ := List.exists_cons_of_ne_nil hbne
  have hbl : ∀ b ∈ bl, ∃ i, i < blocks.length ∧ b.dirs = blocks.getD i [] ∧ b.list = LB (blocks.getD i []) ∧
      b.vec = (LB (blocks.getD i [])).map (Q (blocks.getD i []) (F i)) := by
    intro b hb
    obtain ⟨i, hi, rfl⟩ := List.mem_map.1 hb
    exact ⟨i, List.mem_range.1 hi, rfl, rfl, rfl⟩
  obtain ⟨r, er, hrl, hr⟩ := C17_tensorize_vec s nodes.length degree b0 bs
    (by
      obtain ⟨i, hi, e, -, -⟩ := hbl b0 (by rw [hbs]; simp)
      rw [e]
      exact hu _ (hget i hi)) hz
    (by
      have e : bl.map (fun b => b.dirs.length) = blocks.map List.length := by
        conv_rhs => rw [← hdirs, List.map_map]
        rfl
      rw [← hbs, e, ← List.length_flatten, hp.perm.length_eq, List.length_range])
    (by
      intro b hb
      rw [← hbs] at hb
      obtain ⟨i, hi, e1, e2, e3⟩ := hbl b hb
      have hbm := hget i hi
      refine ⟨⟨?_, ?_⟩, ?_⟩
      · rw [e1, e2]; exact (hLB _ hbm).list
      · rw [e2, e3]; simp
      · rw [e1]; exact C15_increasing_dirs s _ _ (hp.inc _ hbm).1 (hp.inc _ hbm).2 (hlt i hi))
    L hL
  rw [← hbs, hdirs] at er
  refine ⟨bl.map (·.vec), r, by simp [bl], hvec, er, ?_⟩
  rw [transform_forward_ok hz hg hd hw hok (by simp)]
  congr 1
  apply List.ext_getElem?
  intro j
  rw [List.getElem?_map]
  by_cases hj : j < L.length
  · have hm := List.getElem?_eq_getElem hj
    have hmem := (hok.mem _).1 (List.getElem_mem hj)
    rw [hr j _ hm, hm, Option.map_some, ← hbs]
    congr 1
    have e1 : quadrature nodes weights (fun i p => ((gridPoints nodes).map fun p => ∏ b ∈ Finset.range blocks.length,
        F b (sub 0 (blocks.getD b []) p)).getD i 0 * basis nodes.length fourier L[j] p) =
        quadrature nodes weights (fun _ p => ∏ b ∈ Finset.range blocks.length, (fun b q => F b q *
          basis (blocks.getD b []).length (sub 0 (blocks.getD b []) fourier) (restrict (blocks.getD b []) L[j]) q) b
          (sub 0 (blocks.getD b []) p)) := by
      apply quadrature_congr
      intro i p hi
      rw [List.getD_eq_getElem?_getD, List.getElem?_map, hi, Option.map_some, Option.getD_some, basis_blocks hp,
        ← Finset.prod_mul_distrib]
    rw [e1, quadrature_blocks hw hp (fun b q => F b q *
          basis (blocks.getD b []).length (sub 0 (blocks.getD b []) fourier) (restrict (blocks.getD b []) L[j]) q),
      Finset.prod_range, ← List.prod_ofFn]
    congr 1
    apply List.ext_getElem
    · simp [bl]
    · intro b h1 h2
      have hb : b < blocks.length := by simpa using h1
      simp only [List.getElem_ofFn, List.getElem_map, bl, List.getElem_range, Block.coef]
      rw [coef]
      have hbm := hget b hb
      have hres : restrict (blocks.getD b []) L[j] ∈ LB (blocks.getD b []) :=
        ((hLB _ hbm).mem _).2 (inSet_restrict (C15_increasing_dirs s _ _ (hp.inc _ hbm).1 (hp.inc _ hbm).2 (hlt b hb)) hmem)
      have hidx := List.idxOf_lt_length_iff.2 hres
      obtain ⟨d, hdd⟩ : ∃ d, d = blocks.getD b [] := ⟨_, rfl⟩
      rw [← hdd] at hidx ⊢
      rw [List.getD_eq_getElem?_getD, List.getElem?_map, List.getElem?_eq_getElem hidx, Option.map_some, Option.getD_some,
        List.getElem_idxOf]
  · rw [List.getElem?_eq_none (by omega), List.getElem?_eq_none (by omega)]
    rfl

example : Partition 3 [[1], [0, 2]] ∧ ∀ b ∈ [[1], [0, 2]], Usable .triangle b.length 5 :=
  ⟨⟨by simp, by decide⟩, fun b hb => usable_small _ (by simp at hb; rcases hb with rfl | rfl <;> simp)
    (by simp at hb; rcases hb with rfl | rfl <;> simp) (by omega)⟩

/-- C28. If the rules are discretely orthonormal then the transform of the values of a series is the series. -/
theorem C28_round_trip (slack : Nat) (s : IndexSet) (degree : Nat) (nodes weights : List (List ℝ)) (fourier : List Nat)
    (hz : Sized s nodes.length degree) (hg : Grid nodes fourier) (hd : DegreeOk slack s degree fourier)
    (hw : weights.map List.length = nodes.map List.length)
    (ho : ∀ k < nodes.length, Orthonormal degree (fourier.getD k 0) (nodes.getD k []) (weights.getD k []))
    (n : Nat) (hn : s.s_size nodes.length degree = .ok n) (c : List ℝ) (hc : c.length = n) :
    ∃ f, transform slack s degree c nodes weights fourier false = .ok f ∧
      transform slack s degree f nodes weights fourier true = .ok c := by
  obtain ⟨L, hL⟩ := list_exists s hz
  have hok := IterOk.of_list hz.fits' hL
  have hsz := hok.size hz.dim_pos (by rw [hok.length]; exact hz.card_lt)
  rw [hn] at hsz
  obtain rfl : n = L.length := by simpa using hsz
  refine ⟨_, transform_backward_ok weights hz hg hd hok hc, ?_⟩
  rw [transform_forward_ok hz hg hd hw hok (by simp)]
  congr 1
  apply List.ext_getElem
  · simp [hc]
  · intro j h1 h2
    have hj : j < L.length := by simpa using h1
    rw [List.getElem_map]
    have e : quadrature nodes weights (fun i p => ((gridPoints nodes).map (series nodes.length fourier L c)).getD i 0 *
        basis nodes.length fourier L[j] p) =
        quadrature nodes weights (fun _ p => series nodes.length fourier L c p * basis nodes.length fourier L[j] p) := by
      apply quadrature_congr
      intro i p hi
      rw [List.getD_eq_getElem?_getD, List.getElem?_map, hi]
      rfl
    rw [e, quadrature_series hw ho hok.nodup (fun m hm => inSet_length ((hok.mem m).1 hm))
      (fun m hm => inSet_le hd.cross ((hok.mem m).1 hm)) c hj]
    simp [h2]

/-- The hypothesis of C28 holds for the two-point Gauss rule and degree 1. -/
example : Orthonormal 1 0 [-1, 1] [1 / 2, 1 / 2] := by
  intro i j hi hj
  have : i = 0 ∨ i = 1 := by omega
  have : j = 0 ∨ j = 1 := by omega
  rcases ‹i = 0 ∨ i = 1› with rfl | rfl <;> rcases ‹j = 0 ∨ j = 1› with rfl | rfl <;>
    simp [Finset.sum_range_succ, phi, herm_zero, herm_one] <;> norm_num

/-- C29. The forward transform is linear. -/
theorem C29_forward_linear (slack : Nat) (s : IndexSet) (degree : Nat) (nodes weights : List (List ℝ)) (fourier : List Nat)
    (hz : Sized s nodes.length degree) (hg : Grid nodes fourier) (hd : DegreeOk slack s degree fourier)
    (hw : weights.map List.length = nodes.map List.length) (f g : List ℝ) (hf : f.length = (gridPoints nodes).length)
    (hgl : g.length = (gridPoints nodes).length) (a b : ℝ) :
    ∃ rf rg, transform slack s degree f nodes weights fourier true = .ok rf ∧
      transform slack s degree g nodes weights fourier true = .ok rg ∧ rf.length = rg.length ∧
      transform slack s degree (List.zipWith (fun x y => a * x + b * y) f g) nodes weights fourier true =
        .ok (List.zipWith (fun x y => a * x + b * y) rf rg) := by
  obtain ⟨L, hL⟩ := list_exists s hz
  have hok := IterOk.of_list hz.fits' hL
  refine ⟨_, _, transform_forward_ok hz hg hd hw hok hf, transform_forward_ok hz hg hd hw hok hgl, by simp, ?_⟩
  rw [transform_forward_ok hz hg hd hw hok (by simp; omega), List.zipWith_map]
  congr 1
  rw [List.zipWith_self]
  apply List.map_congr_left
  intro m _
  rw [← quadrature_smul, ← quadrature_smul, ← quadrature_add]
  apply quadrature_congr
  intro i p hi
  have hlt := (List.getElem?_eq_some_iff.1 hi).1
  have hif : i < f.length := by omega
  have hig : i < g.length := by omega
  have : (List.zipWith (fun x y => a * x + b * y) f g).getD i 0 = a * f.getD i 0 + b * g.getD i 0 := by
    simp [hif, hig]
  rw [this]
  ring

/-- C29. The backward transform is linear. -/
theorem C29_backward_linear (slack : Nat) (s : IndexSet) (degree : Nat) (nodes weights : List (List ℝ)) (fourier : List Nat)
    (hz : Sized s nodes.length degree) (hg : Grid nodes fourier) (hd : DegreeOk slack s degree fourier)
    (n : Nat) (hn : s.s_size nodes.length degree = .ok n) (c d : List ℝ) (hc : c.length = n) (hdl : d.length = n) (a b : ℝ) :
    ∃ rc rd, transform slack s degree c nodes weights fourier false = .ok rc ∧
      transform slack s degree d nodes weights fourier false = .ok rd ∧ rc.length = rd.length ∧
      transform slack s degree (List.zipWith (fun x y => a * x + b * y) c d) nodes weights fourier false =
        .ok (List.zipWith (fun x y => a * x + b * y) rc rd) := by
  obtain ⟨L, hL⟩ := list_exists s hz
  have hok := IterOk.of_list hz.fits' hL
  have hsz := hok.size hz.dim_pos (by rw [hok.length]; exact hz.card_lt)
  rw [hn] at hsz
  obtain rfl : n = L.length := by simpa using hsz
  refine ⟨_, _, transform_backward_ok weights hz hg hd hok hc, transform_backward_ok weights hz hg hd hok hdl, by simp, ?_⟩
  rw [transform_backward_ok weights hz hg hd hok (by simp; omega), List.zipWith_map]
  congr 1
  rw [List.zipWith_self]
  apply List.map_congr_left
  intro p _
  rw [series, series, series, Finset.mul_sum, Finset.mul_sum, ← Finset.sum_add_distrib]
  apply Finset.sum_congr rfl
  intro i hi
  have hlt := Finset.mem_range.1 hi
  have hif : i < c.length := by omega
  have hig : i < d.length := by omega
  have : (List.zipWith (fun x y => a * x + b * y) c d).getD i 0 = a * c.getD i 0 + b * d.getD i 0 := by
    simp [hif, hig]
  rw [this]
  ring

/-- C29. The two transforms are adjoint. -/
theorem C29_adjoint (slack : Nat) (s : IndexSet) (degree : Nat) (nodes weights : List (List ℝ)) (fourier : List Nat)
    (hz : Sized s nodes.length degree) (hg : Grid nodes fourier) (hd : DegreeOk slack s degree fourier)
    (hw : weights.map List.length = nodes.map List.length) (f : List ℝ) (hf : f.length = (gridPoints nodes).length)
    (n : Nat) (hn : s.s_size nodes.length degree = .ok n) (c : List ℝ) (hc : c.length = n) :
    ∃ r v, transform slack s degree f nodes weights fourier true = .ok r ∧
      transform slack s degree c nodes weights fourier false = .ok v ∧ r.length = n ∧
      ∑ j ∈ Finset.range n, r.getD j 0 * c.getD j 0 = quadrature nodes weights (fun i _ => f.getD i 0 * v.getD i 0) := by
  obtain ⟨L, hL⟩ := list_exists s hz
  have hok := IterOk.of_list hz.fits' hL
  have hsz := hok.size hz.dim_pos (by rw [hok.length]; exact hz.card_lt)
  rw [hn] at hsz
  obtain rfl : n = L.length := by simpa using hsz
  refine ⟨_, _, transform_forward_ok hz hg hd hw hok hf, transform_backward_ok weights hz hg hd hok hc, by simp, ?_⟩
  have e : quadrature nodes weights
      (fun i _ => f.getD i 0 * ((gridPoints nodes).map (series nodes.length fourier L c)).getD i 0) =
      quadrature nodes weights (fun i p => ∑ j ∈ Finset.range L.length,
        (fun j i p => c.getD j 0 * (f.getD i 0 * basis nodes.length fourier (L.getD j []) p)) j i p) := by
    apply quadrature_congr
    intro i p hi
    rw [List.getD_eq_getElem?_getD (l := List.map _ _), List.getElem?_map, hi, Option.map_some, Option.getD_some, series,
      Finset.mul_sum]
    exact Finset.sum_congr rfl fun j _ => by ring
  rw [e, quadrature_sum]
  apply Finset.sum_congr rfl
  intro j hj
  have hj := Finset.mem_range.1 hj
  rw [quadrature_smul, mul_comm]
  congr 1
  simp [hj]

/-- C31, partial: `integrate` is the plain weighted sum when no direction is of Hermite type, or when a spare double follows
each buffer. Missing: Hermite directions without spare memory, see `C31_hermite_undefined`. -/
theorem C31_integrate_partial (slack : Nat) (nodes weights : List (List ℝ)) (fourier : List Nat) (hg : Grid nodes fourier)
    (hs : 0 ∈ fourier → 1 ≤ slack) (hw : weights.map List.length = nodes.map List.length) (f : List ℝ)
    (hf : f.length = (gridPoints nodes).length) :
    integrate slack f nodes weights fourier =
      .ok (∑ i ∈ Finset.range (gridPoints nodes).length, (gridWeights weights).getD i 0 * f.getD i 0) :=
  integrate_ok hg hs hw hf

example : Grid [[-1, 0, 2], [0, 3]] [1, 1] ∧ (0 ∈ [1, 1] → 1 ≤ 0) ∧ Grid [[-1, 0, 2], [0, 3]] [0, 1] :=
  ⟨⟨by simp, by simp, by simp, by simp [gridPoints, cartesian]⟩, by simp,
    ⟨by simp, by simp, by simp, by simp [gridPoints, cartesian]⟩⟩

/-- C31 fails in the language: as soon as one direction is of Hermite type, `integrate` writes out of range. -/
theorem C31_hermite_undefined (nodes weights : List (List ℝ)) (fourier : List Nat) (hg : Grid nodes fourier) (h0 : 0 ∈ fourier)
    (f : List ℝ) : integrate 0 f nodes weights fourier = .ub := integrate_hermite_ub hg h0 f

/-- C32 for the transforms: with a Fourier direction and an odd degree no value is returned, whatever the input. -/
theorem C32_transform_odd (slack : Nat) (s : IndexSet) (degree : Nat) (h : degree % 2 = 1) (input : List ℝ)
    (nodes weights : List (List ℝ)) (fourier : List Nat) (forward : Bool) (k : Nat) (hf : fourier[k]? = some 1)
    (hn : nodes.getD k [] ≠ []) (r : List ℝ) :
    transform slack s degree input nodes weights fourier forward ≠ .ok r :=
  transform_odd h s input nodes weights fourier forward k hf hn r

example : (7 : Nat) % 2 = 1 ∧ [0, 1][1]? = some 1 ∧ ([[0, 1], [2]] : List (List ℝ)).getD 1 [] ≠ [] := by simp

end Hermipy.Props
