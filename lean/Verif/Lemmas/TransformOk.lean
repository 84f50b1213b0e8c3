import Verif.Lemmas.Transform

/-! # The transforms -/

namespace Hermipy

open Spec

theorem inSet_le {s : IndexSet} {dim degree : Nat} (hc : s = .cross ∨ s = .cross_nc → 1 ≤ degree) {m : IVec}
    (h : InSet s dim degree m) : ∀ x ∈ m, x ≤ degree := by
  intro x hx
  have cross : InCross dim (max 1 degree) m → 1 ≤ degree → x ≤ degree := by
    intro h hd
    have h1 : max 1 x ∣ (m.map (max 1)).prod := List.dvd_prod (List.mem_map.2 ⟨x, hx, rfl⟩)
    have h2 : 0 < (m.map (max 1)).prod := by
      apply Nat.pos_of_ne_zero
      apply List.prod_ne_zero
      simp
    have := Nat.le_of_dvd h2 h1
    have := h.2
    omega
  cases s with
  | triangle => exact (List.single_le_sum (by simp) x hx).trans h.2
  | cube => exact h.2 x hx
  | rectangle =>
    obtain ⟨i, hi, rfl⟩ := List.mem_iff_getElem.1 hx
    have := h.2 i hi
    split at this <;> omega
  | cross => exact cross h (hc (by simp))
  | cross_nc => exact cross h (hc (by simp))

theorem Spec.DegreeOk.row {slack degree : Nat} {s : IndexSet} {fourier : List Nat} (h : DegreeOk slack s degree fourier)
    (hf : ∀ f ∈ fourier, f = 0 ∨ f = 1) : ∀ f ∈ fourier, RowOk slack degree f := by
  intro f hm
  refine ⟨by rcases hf f hm with rfl | rfl <;> omega, fun h0 => h.hermite (h0 ▸ hm), fun h1 => h.even (h1 ▸ hm)⟩

theorem Spec.Grid.bounds {nodes : List (List ℝ)} {fourier : List Nat} (h : Spec.Grid nodes fourier) :
    nodes.map List.length ≠ [] ∧ (∀ b ∈ nodes.map List.length, 1 ≤ b ∧ b < u32) ∧
      (boxList (nodes.map List.length)).length = (gridPoints nodes).length ∧
      (nodes.map List.length).foldl (fun t n => wrap32 (t * n)) 1 = (gridPoints nodes).length := by
  have hpos : ∀ b ∈ nodes.map List.length, 1 ≤ b := by
    intro b hb
    obtain ⟨n, hn, rfl⟩ := List.mem_map.1 hb
    exact List.length_pos_iff.2 (h.nodes_pos n hn)
  have hlen : (gridPoints nodes).length = (nodes.map List.length).prod := length_cartesian nodes
  have hsm := h.small
  rw [hlen] at hsm
  refine ⟨by simpa using h.dim_pos, fun b hb => ⟨hpos b hb, ?_⟩, by rw [length_boxList, hlen], ?_⟩
  · have hd := List.dvd_prod hb
    have hp : 0 < (nodes.map List.length).prod := Nat.pos_of_ne_zero (List.prod_ne_zero fun h0 => by
      have := hpos 0 h0; omega)
    exact lt_of_le_of_lt (Nat.le_of_dvd hp hd) hsm
  · rw [hlen, foldl_wrap _ _ hpos (by rw [Nat.one_mul]; exact hsm), Nat.one_mul]

/-- Partial sums over the grid. -/
noncomputable def partialSum (nodes weights : List (List ℝ)) (g : Nat → List ℝ → ℝ) (n : Nat) : ℝ :=
  ∑ i ∈ Finset.range n, (gridWeights weights).getD i 0 * g i ((gridPoints nodes).getD i [])

theorem grid_getD {nodes : List (List ℝ)} {i : Nat} {p : IVec} (h : (boxList (nodes.map List.length))[i]? = some p) :
    (gridPoints nodes)[i]? = some (pick 0 nodes p) := by
  rw [gridPoints, cartesian_pick 0, List.getElem?_map, h]
  rfl

theorem gridWeights_getD {nodes weights : List (List ℝ)} (hw : weights.map List.length = nodes.map List.length) {i : Nat}
    {p : IVec} (h : (boxList (nodes.map List.length))[i]? = some p) :
    (gridWeights weights).getD i 0 = (pick 0 weights p).prod := by
  rw [gridWeights, cartesian_pick 0, hw, List.getD_eq_getElem?_getD, List.getElem?_map, List.getElem?_map, h]
  rfl

theorem transform_forward_ok {slack : Nat} {s : IndexSet} {degree : Nat} {nodes weights : List (List ℝ)} {fourier : List Nat}
    (hz : Sized s nodes.length degree) (hg : Spec.Grid nodes fourier) (hd : DegreeOk slack s degree fourier)
    (hw : weights.map List.length = nodes.map List.length) {L : List IVec} (hL : IterOk s nodes.length degree L)
    {f : List ℝ} (hf : f.length = (gridPoints nodes).length) :
    transform slack s degree f nodes weights fourier true = .ok (L.map fun m =>
      quadrature nodes weights (fun i p => f.getD i 0 * basis nodes.length fourier m p)) := by
  obtain ⟨hne, hb, hN, htot⟩ := hg.bounds
  have hsize := hL.size hz.dim_pos (by rw [hL.length]; exact hz.card_lt)
  have hwl : weights.length = nodes.length := by simpa using congrArg List.length hw
  obtain ⟨g, ⟨it, out⟩, e, -, hlen, hval⟩ := gridLoop_inv hne hb
    (acc := (freshIter nodes.length L, List.replicate L.length (0 : ℝ)))
    (body := fun i p st => do
      let weight ← weightAt nodes.length weights p
      countLoop L.length st.1.reset st.2 fun j m output => do
        let val ← valAt nodes.length
          (List.zipWith (fun n f => n.map fun x => table (degree + 1) (fun i => phi f i x)) nodes fourier) p m
        let old ← rd output j
        let x ← rd f i
        wr output j (old + x * weight * val))
    (fun i st => st.1.reset = freshIter nodes.length L ∧ st.2.length = L.length ∧ ∀ (j : Nat) (m : IVec), L[j]? = some m →
      st.2[j]? = some (partialSum nodes weights (fun i p => f.getD i 0 * basis nodes.length fourier m p) i))
    ⟨freshIter_reset _ _, by simp, fun j m hm => by
      have := (List.getElem?_eq_some_iff.1 hm).1
      simp [partialSum, this]⟩
    (by
      rintro i p ⟨it, out⟩ hp ⟨hre, hlen, hval⟩
      simp only at hre hlen hval
      have hpm := mem_boxList.1 (List.mem_of_getElem? hp)
      have hi : i < (gridPoints nodes).length := by rw [← hN]; exact (List.getElem?_eq_some_iff.1 hp).1
      have hpt := grid_getD hp
      have hwt := gridWeights_getD hw hp
      have e1 : weightAt nodes.length weights p = .ok (pick 0 weights p).prod := by
        have := weightAt_ok hw hpm
        rwa [hwl] at this
      rw [e1, hre]
      simp only [Out.ok_bind]
      obtain ⟨it', out', e2, hre', hlen', hval1, hval2⟩ := hL.countLoop (acc := out)
        (body := fun j m output => do
          let val ← valAt nodes.length
            (List.zipWith (fun n f => n.map fun x => table (degree + 1) (fun i => phi f i x)) nodes fourier) p m
          let old ← rd output j
          let x ← rd f i
          wr output j (old + x * (pick 0 weights p).prod * val))
        (fun j o => o.length = L.length ∧
          (∀ (t : Nat) (m : IVec), L[t]? = some m → t < j →
            o[t]? = some (partialSum nodes weights (fun i p => f.getD i 0 * basis nodes.length fourier m p) (i + 1))) ∧
          ∀ t, j ≤ t → o[t]? = out[t]?)
        ⟨hlen, fun t m _ h => absurd h (Nat.not_lt_zero _), fun _ _ => rfl⟩
        (by
          rintro j m o hm ⟨ho, ho1, ho2⟩
          have hj := (List.getElem?_eq_some_iff.1 hm).1
          have hin := (hL.mem m).1 (List.mem_of_getElem? hm)
          rw [valAt_ok rfl hg.flags.1 hpm (inSet_length hin) (inSet_le hd.cross hin)]
          have r1 : rd o j = .ok (partialSum nodes weights (fun i p => f.getD i 0 * basis nodes.length fourier m p) i) := by
            rw [rd, ho2 j le_rfl, hval j m hm]
          rw [r1, rd_getD 0 (show i < f.length by omega)]
          simp only [Out.ok_bind]
          rw [wr_of_lt (by omega)]
          refine ⟨_, rfl, by simpa using ho, fun t m' ht htj => ?_, fun t ht => ?_⟩
          · by_cases htj' : j = t
            · subst htj'
              rw [hm] at ht
              obtain rfl := Option.some.inj ht
              rw [List.getElem?_set_self (by omega), partialSum, partialSum, Finset.sum_range_succ, hwt,
                List.getD_eq_getElem?_getD (l := gridPoints nodes), hpt, Option.getD_some]
              congr 1
              ring
            · rw [List.getElem?_set_ne htj']
              exact ho1 t m' ht (by omega)
          · rw [List.getElem?_set_ne (by omega)]
            exact ho2 t (by omega))
      exact ⟨(it', out'), e2, hre', hlen', fun j m hm => hval1 j m hm (List.getElem?_eq_some_iff.1 hm).1⟩)
  rw [hN] at e hval
  simp only at hlen hval
  have hout : out = L.map fun m => quadrature nodes weights (fun i p => f.getD i 0 * basis nodes.length fourier m p) := by
    apply List.ext_getElem?
    intro j
    rw [List.getElem?_map]
    by_cases hj : j < L.length
    · have hm := List.getElem?_eq_getElem hj
      rw [hval j _ hm, hm]
      rfl
    · rw [List.getElem?_eq_none (by omega), List.getElem?_eq_none (by omega)]
      rfl
  rw [transform]
  simp only [hsize, Out.ok_bind, if_true, htot, basisCube_ok hg.flags.1 (hd.row hg.flags.2), hL.iter]
  rw [e]
  simp only [Out.ok_bind]
  rw [hout]

theorem transform_backward_ok {slack : Nat} {s : IndexSet} {degree : Nat} {nodes : List (List ℝ)} (weights : List (List ℝ))
    {fourier : List Nat} (hz : Sized s nodes.length degree) (hg : Spec.Grid nodes fourier)
    (hd : DegreeOk slack s degree fourier) {L : List IVec} (hL : IterOk s nodes.length degree L) {c : List ℝ}
    (hc : c.length = L.length) :
    transform slack s degree c nodes weights fourier false =
      .ok ((gridPoints nodes).map (series nodes.length fourier L c)) := by
  obtain ⟨hne, hb, hN, htot⟩ := hg.bounds
  have hsize := hL.size hz.dim_pos (by rw [hL.length]; exact hz.card_lt)
  obtain ⟨g, ⟨it, out⟩, e, -, hlen, hval, -⟩ := gridLoop_inv hne hb
    (acc := (freshIter nodes.length L, List.replicate (gridPoints nodes).length (0 : ℝ)))
    (body := fun i p st => do
      countLoop L.length st.1.reset st.2 fun j m output => do
        let val ← valAt nodes.length
          (List.zipWith (fun n f => n.map fun x => table (degree + 1) (fun i => phi f i x)) nodes fourier) p m
        let old ← rd output i
        let x ← rd c j
        wr output i (old + x * 1 * val))
    (fun i st => st.1.reset = freshIter nodes.length L ∧ st.2.length = (gridPoints nodes).length ∧
      (∀ (t : Nat) (p : List ℝ), (gridPoints nodes)[t]? = some p → t < i →
        st.2[t]? = some (series nodes.length fourier L c p)) ∧
      ∀ t < (gridPoints nodes).length, i ≤ t → st.2[t]? = some 0)
    ⟨freshIter_reset _ _, by simp, fun t p _ h => absurd h (Nat.not_lt_zero _), fun t ht _ => by simp [ht]⟩
    (by
      rintro i p ⟨it, out⟩ hp ⟨hre, hlen, hval, hrest⟩
      simp only at hre hlen hval hrest
      have hpm := mem_boxList.1 (List.mem_of_getElem? hp)
      have hi : i < (gridPoints nodes).length := by rw [← hN]; exact (List.getElem?_eq_some_iff.1 hp).1
      have hpt := grid_getD hp
      rw [hre]
      obtain ⟨it', out', e2, hre', hlen', hval1, hval2⟩ := hL.countLoop (acc := out)
        (body := fun j m output => do
          let val ← valAt nodes.length
            (List.zipWith (fun n f => n.map fun x => table (degree + 1) (fun i => phi f i x)) nodes fourier) p m
          let old ← rd output i
          let x ← rd c j
          wr output i (old + x * 1 * val))
        (fun j o => o.length = (gridPoints nodes).length ∧
          o[i]? = some (∑ t ∈ Finset.range j, c.getD t 0 * basis nodes.length fourier (L.getD t []) (pick 0 nodes p)) ∧
          ∀ t, t ≠ i → o[t]? = out[t]?)
        ⟨hlen, by rw [hrest i hi le_rfl]; simp, fun _ _ => rfl⟩
        (by
          rintro j m o hm ⟨ho, ho1, ho2⟩
          have hj := (List.getElem?_eq_some_iff.1 hm).1
          have hin := (hL.mem m).1 (List.mem_of_getElem? hm)
          rw [valAt_ok rfl hg.flags.1 hpm (inSet_length hin) (inSet_le hd.cross hin)]
          have r1 : rd o i = .ok (∑ t ∈ Finset.range j,
              c.getD t 0 * basis nodes.length fourier (L.getD t []) (pick 0 nodes p)) := by
            rw [rd, ho1]
          rw [r1, rd_getD 0 (show j < c.length by omega)]
          simp only [Out.ok_bind]
          rw [wr_of_lt (by omega)]
          refine ⟨_, rfl, by simpa using ho, ?_, fun t ht => ?_⟩
          · rw [List.getElem?_set_self (by omega), Finset.sum_range_succ, mul_one]
            have : L.getD j [] = m := by rw [List.getD_eq_getElem?_getD, hm]; rfl
            rw [this]
          · rw [List.getElem?_set_ne (fun h => ht h.symm)]
            exact ho2 t ht)
      refine ⟨(it', out'), e2, hre', hlen', fun t q ht hti => ?_, fun t ht hit => ?_⟩
      · by_cases h : t = i
        · subst h
          rw [hpt] at ht
          obtain rfl := Option.some.inj ht
          exact hval1
        · simp only
          rw [hval2 t h]
          exact hval t q ht (by omega)
      · simp only
        rw [hval2 t (by omega)]
        exact hrest t ht (by omega))
  rw [hN] at e hval
  simp only at hlen hval
  have hout : out = (gridPoints nodes).map (series nodes.length fourier L c) := by
    apply List.ext_getElem?
    intro j
    rw [List.getElem?_map]
    by_cases hj : j < (gridPoints nodes).length
    · have hm := List.getElem?_eq_getElem hj
      rw [hval j _ hm hj, hm]
      rfl
    · rw [List.getElem?_eq_none (by omega), List.getElem?_eq_none (by omega)]
      rfl
  rw [transform]
  simp only [hsize, Out.ok_bind, htot, basisCube_ok hg.flags.1 (hd.row hg.flags.2), hL.iter,
    Bool.false_eq_true, if_false]
  rw [e]
  simp only [Out.ok_bind]
  rw [hout]

end Hermipy
