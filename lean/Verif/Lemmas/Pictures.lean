import Verif.Spec.Pictures
import Verif.Lemmas.Arithmetic
import Verif.Lemmas.Degree
import Verif.Lemmas.Line

namespace Hermipy
open Spec
variable {Φ : Type}

/-! ## The lines -/

theorem natFoldl_max_le (l : List ℕ) : ∀ (a d : ℕ), l.foldl max a ≤ d ↔ a ≤ d ∧ ∀ x ∈ l, x ≤ d := by
  induction l with
  | nil => simp
  | cons b l ih =>
    intro a d
    rw [List.foldl_cons, ih]
    simp
    tauto

/-- The value of `lineFunction` on multi-indices that are not empty. -/
def lineValue (s : IndexSet) (m : IVec) : ℕ := if s = .triangle then m.sum else m.foldl max 0

theorem lineFunction_eq (s : IndexSet) {m : IVec} (hm : m ≠ []) : lineFunction s m = .ok (lineValue s m) := by
  unfold lineFunction lineValue
  split
  · rfl
  · cases m with
    | nil => exact absurd rfl hm
    | cons a l => simp

theorem degreeLines_eq {fn : IVec → Out ℕ} {g : IVec → ℕ} {L : List IVec} {D : ℕ} {c : ℕ → ℕ} (hg : ∀ m ∈ L, fn m = .ok (g m))
    (hle : ∀ d ≤ D, ∀ i (h : i < L.length), i < c d → g L[i] ≤ d) (hgt : ∀ d < D, ∀ h : c d < L.length, d < g L[c d])
    (hmono : ∀ d < D, c d < c (d + 1)) (hD : c D = L.length) :
    ∀ k i deg, L.length = i + k → i ≤ c deg → deg ≤ D → degreeLines fn i deg (L.drop i) = .ok ((List.range' deg (D - deg)).map c) := by
  have hlt : ∀ n deg, deg + n = D → 0 < n → c deg < c D := by
    intro n
    induction n with
    | zero => intro deg _ h; omega
    | succ n ih =>
      intro deg h _
      rcases Nat.eq_zero_or_pos n with rfl | hn
      · rw [← h]; exact hmono deg (by omega)
      · exact (hmono deg (by omega)).trans (ih (deg + 1) (by omega) hn)
  intro k
  induction k with
  | zero =>
    intro i deg h1 h2 h3
    have : D = deg := by
      by_contra hne
      have := hlt (D - deg) deg (by omega) (by omega)
      omega
    subst this
    simp [List.drop_eq_nil_of_le (show L.length ≤ i by omega), degreeLines]
  | succ k ih =>
    intro i deg h1 h2 h3
    have hi : i < L.length := by omega
    rw [List.drop_eq_getElem_cons hi, degreeLines, hg _ (List.getElem_mem _), Out.ok_bind]
    by_cases hc : i < c deg
    · have := hle deg h3 i hi hc
      rw [if_neg (by omega)]
      exact ih (i + 1) deg (by omega) (by omega) h3
    · have e : i = c deg := by omega
      have hd : deg < D := by
        by_contra hne
        have : deg = D := by omega
        subst this
        omega
      have hv : deg < g L[i] := by
        subst e
        exact hgt deg hd hi
      have h4 := hmono deg hd
      rw [if_pos hv, ih (i + 1) (deg + 1) (by omega) (by omega) (by omega), Out.ok_bind]
      obtain ⟨n, hn⟩ : ∃ n, D - deg = n + 1 := ⟨D - deg - 1, by omega⟩
      rw [hn, List.range'_succ, List.map_cons, e, show D - (deg + 1) = n by omega]

/-- The listing of a lower degree is the beginning of the listing. -/
theorem IterOk.index_lt {s : IndexSet} (hs : s ≠ .cross_nc) {dim d D : ℕ} (hdim : 1 ≤ dim) (hd : d ≤ D) {L : List IVec}
    (h : IterOk s dim D L) {i : ℕ} (hi : i < L.length) : InSet s dim d L[i] ↔ i < card s dim d := by
  obtain ⟨L', h'⟩ := iterOk_exists (s := s) (dim := dim) (degree := d) ⟨hdim, fun e => absurd e hs⟩
  obtain ⟨t, ht⟩ := h'.prefix hs hdim hd h
  rw [← h'.mem, ← h'.length]
  have hget : ∀ k (hk : k < L'.length), L[k]'(by rw [← ht]; simp; omega) = L'[k] := by
    intro k hk
    simp only [← ht]
    rw [List.getElem_append_left hk]
  constructor
  · intro hm
    obtain ⟨k, hk, e⟩ := List.getElem_of_mem hm
    rw [← hget k hk] at e
    have := (List.Nodup.getElem_inj_iff h.nodup).1 e
    omega
  · intro hk
    rw [hget i hk]
    exact List.getElem_mem _

theorem lineValue_le {s : IndexSet} (hs : s = .triangle ∨ s = .cube) {dim d : ℕ} {m : IVec} (hm : m.length = dim) :
    lineValue s m ≤ d ↔ InSet s dim d m := by
  rcases hs with rfl | rfl
  · simp [lineValue, InSet, InTriangle, hm]
  · simp [lineValue, InSet, InCube, hm, natFoldl_max_le]

theorem degreeLines_graded {s : IndexSet} (hs : s = .triangle ∨ s = .cube) {dim D : ℕ} (hdim : 1 ≤ dim) {L : List IVec}
    (h : IterOk s dim D L) : degreeLines (lineFunction s) 0 0 L = .ok ((List.range D).map fun d => card s dim d) := by
  have hne : s ≠ .cross_nc := by rcases hs with rfl | rfl <;> simp
  have hlen : ∀ m ∈ L, m.length = dim := fun m hm => inSet_length ((h.mem m).1 hm)
  have := degreeLines_eq (fn := lineFunction s) (g := lineValue s) (L := L) (D := D) (c := fun d => card s dim d)
    (fun m hm => lineFunction_eq s (by rw [← List.length_pos_iff, hlen m hm]; omega))
    (fun d hd i hi hc => (lineValue_le hs (hlen _ (List.getElem_mem _))).2 ((h.index_lt hne hdim hd hi).2 hc))
    (fun d hd hi => by
      by_contra hcon
      have := (h.index_lt hne hdim hd.le hi).1 ((lineValue_le hs (hlen _ (List.getElem_mem _))).1 (by omega))
      exact lt_irrefl _ this)
    (fun d _ => card_strict hdim (by omega) (by rcases hs with rfl | rfl <;> simp)) h.length.symm L.length 0 0 (by omega) (by omega) (by omega)
  rw [List.drop_zero] at this
  rw [this, List.range_eq_range', Nat.sub_zero]

/-! ### The cross -/

theorem colexLt_last : ∀ {a b : IVec}, a.length = b.length → colexLt a b → a.getLastD 0 ≤ b.getLastD 0
  | [], _, _, h => by simp [colexLt] at h
  | _ :: _, [], hl, _ => by simp at hl
  | [x], [y], _, h => by
    simp [colexLt] at h
    simpa using h.le
  | x :: a :: l, y :: b :: l', hl, h => by
    have hl' : (a :: l).length = (b :: l').length := by simpa using hl
    have e : ∀ (z : ℕ) (w : ℕ) (v : IVec), (z :: w :: v).getLastD 0 = (w :: v).getLastD 0 := by
      intro z w v
      simp [List.getLastD_cons]
    rw [e, e]
    rcases h with h | ⟨h, -⟩
    · exact colexLt_last hl' h
    · rw [h]
  | [_], _ :: _ :: _, hl, _ => by simp at hl
  | _ :: _ :: _, [_], hl, _ => by simp at hl

theorem getLastD_ones {y : IVec} (hy : y ≠ []) : (ones y).getLastD 0 = max1 (y.getLastD 0) := by
  rw [List.getLastD_eq_getLast?, List.getLastD_eq_getLast?, ones, List.getLast?_map, List.getLast?_eq_some_getLast hy]
  rfl

/-- The multi-index `(0, .., 0, d)`. -/
theorem cross_last_in {dim d : ℕ} (hdim : 1 ≤ dim) (hd : 1 ≤ d) : InSet .cross dim d (List.replicate (dim - 1) 0 ++ [d]) := by
  refine ⟨by simp; omega, ?_⟩
  simp

theorem degreeLines_cross {dim D : ℕ} (hdim : 1 ≤ dim) (hD : 1 ≤ D) {L : List IVec} (h : IterOk .cross dim D L) :
    degreeLines (lineFunction .cross) 0 0 L = .ok (1 :: (List.range' 1 (D - 1)).map fun d => card .cross dim d) := by
  have hlen : ∀ m ∈ L, m.length = dim := fun m hm => inSet_length ((h.mem m).1 hm)
  have hne : ∀ m ∈ L, m ≠ [] := fun m hm => by rw [← List.length_pos_iff, hlen m hm]; omega
  have hzero : ∀ h0 : 0 < L.length, L[0] = List.replicate dim 0 := by
    intro h0
    obtain ⟨t, ht⟩ := h.runs.head
    simp [ht]
  have hval : ∀ m, lineValue .cross m = m.foldl max 0 := fun m => by simp [lineValue]
  have hone : 1 < card .cross dim 1 := by
    have hs : ({List.replicate dim 0, List.replicate (dim - 1) 0 ++ [1]} : Set IVec) ⊆ {m | InSet .cross dim 1 m} := by
      rintro m (rfl | rfl)
      · exact inSet_zero .cross dim 1
      · exact cross_last_in hdim le_rfl
    have := Set.ncard_le_ncard hs (finite_inSet .cross dim 1)
    rw [Set.ncard_pair] at this
    · exact this
    · intro e
      have : (1 : ℕ) ∈ List.replicate dim 0 := by rw [e]; simp
      simp at this
  have := degreeLines_eq (fn := lineFunction .cross) (g := lineValue .cross) (L := L) (D := D)
    (c := fun d => if d = 0 then 1 else card .cross dim d)
    (fun m hm => lineFunction_eq _ (hne m hm))
    (fun d hd i hi hc => by
      rw [hval, natFoldl_max_le]
      by_cases h0 : d = 0
      · have : i = 0 := by simp [h0] at hc; exact hc
        subst this
        rw [hzero hi]
        simp
      · have := (h.index_lt (by simp) hdim hd hi).2 (by simpa [h0] using hc)
        exact ⟨by omega, inSet_le (fun _ => by omega) this⟩)
    (fun d hd hi => by
      rw [hval]
      by_contra hcon
      have hle := (natFoldl_max_le _ _ _).1 (show (L[if d = 0 then 1 else card .cross dim d]).foldl max 0 ≤ d by omega)
      by_cases h0 : d = 0
      · subst h0
        simp only [if_true] at hle hi
        have hz := hzero (by omega)
        have e : L[1] = List.replicate dim 0 := List.eq_replicate_iff.2 ⟨hlen _ (List.getElem_mem _), fun x hx => by
          have := hle.2 x hx
          omega⟩
        rw [← hz] at e
        have := (List.Nodup.getElem_inj_iff h.nodup).1 e
        omega
      · simp only [h0, if_false] at hle hi
        have hnot : ¬ InSet .cross dim d L[card .cross dim d] := fun hm => by
          have := (h.index_lt (by simp) hdim hd.le hi).1 hm
          omega
        have hx := cross_last_in (d := d + 1) hdim (by omega)
        have hxn : ¬ InSet .cross dim d (List.replicate (dim - 1) 0 ++ [d + 1]) := fun hm => by
          have := inSet_le (s := .cross) (fun _ => by omega) hm (d + 1) (by simp)
          omega
        obtain ⟨k, hk, e⟩ := List.getElem_of_mem ((h.mem _).2 (inSet_mono (show d + 1 ≤ D by omega) hx))
        have hkge : ¬ k < card .cross dim d := fun hlt => hxn (e ▸ (h.index_lt (by simp) hdim hd.le hk).2 hlt)
        have hlast : d + 1 ≤ (L[card .cross dim d]).getLastD 0 := by
          rcases Nat.lt_or_ge (card .cross dim d) k with hlt | hge
          · have hs := List.pairwise_iff_getElem.1 h.sorted _ k hi hk hlt
            rw [e] at hs
            have hyl := hlen _ (List.getElem_mem hi)
            have hyne := hne _ (List.getElem_mem hi)
            have hxo : (ones (List.replicate (dim - 1) 0 ++ [d + 1])).getLastD 0 = d + 1 := by
              rw [getLastD_ones (by simp)]
              simp [max1]
            have hfin : (ones (List.replicate (dim - 1) 0 ++ [d + 1])).getLastD 0 ≤ (ones L[card .cross dim d]).getLastD 0 → d + 1 ≤ (L[card .cross dim d]).getLastD 0 := by
              intro hq
              rw [hxo, getLastD_ones hyne, max1] at hq
              split at hq <;> omega
            rcases hs with hs | ⟨-, hs | ⟨hs, -⟩⟩
            · exfalso
              refine hnot ⟨hyl, ?_⟩
              have h2 := hx.2
              rw [← ones_eq] at h2 ⊢
              have : max 1 d = d := by omega
              rw [this]
              have : max 1 (d + 1) = d + 1 := by omega
              rw [this] at h2
              omega
            · exact hfin (colexLt_last (by simp [ones, hyl]; omega) hs)
            · exact hfin (by rw [hs])
          · have : card .cross dim d = k := by omega
            simp only [this, e]
            simp
        have hmem : (L[card .cross dim d]).getLastD 0 ∈ L[card .cross dim d] := by
          have hyne := hne _ (List.getElem_mem hi)
          rw [List.getLastD_eq_getLast?, List.getLast?_eq_some_getLast hyne]
          exact List.getLast_mem hyne
        have := hle.2 _ hmem
        omega)
    (fun d hd => by
      by_cases h0 : d = 0
      · simp [h0, hone]
      · simp only [h0, if_false, Nat.add_eq_zero_iff, one_ne_zero, and_false]
        exact card_strict hdim (by omega) (fun _ => by omega))
    (by simp [show ¬ D = 0 by omega, h.length]) L.length 0 0 (by omega) (by omega) (by omega)
  rw [List.drop_zero] at this
  rw [this]
  obtain ⟨n, rfl⟩ : ∃ n, D = n + 1 := ⟨D - 1, by omega⟩
  rw [Nat.sub_zero, List.range'_succ, List.map_cons, if_pos rfl, Nat.add_sub_cancel]
  congr 2
  refine List.map_congr_left fun d hd => ?_
  have := (List.mem_range'_1.1 hd).1
  rw [if_neg (by omega)]

/-! ### The rectangle -/

theorem degreeLines_rectangle {dim D : ℕ} (hdim : 1 ≤ dim) {L : List IVec} (h : IterOk .rectangle dim D L) :
    degreeLines (lineFunction .rectangle) 0 0 L = .ok ((List.range D).map fun d => card .rectangle dim d) := by
  have hlen : ∀ m ∈ L, m.length = dim := fun m hm => inSet_length ((h.mem m).1 hm)
  have hne : ∀ m ∈ L, m ≠ [] := fun m hm => by rw [← List.length_pos_iff, hlen m hm]; omega
  have hval : ∀ m, lineValue .rectangle m = m.foldl max 0 := fun m => by simp [lineValue]
  have hfl : (Rectangle.factors dim).length = dim := Rectangle.factors_length dim
  have := degreeLines_eq (fn := lineFunction .rectangle) (g := lineValue .rectangle) (L := L) (D := D) (c := fun d => card .rectangle dim d)
    (fun m hm => lineFunction_eq _ (hne m hm))
    (fun d hd i hi hc => by
      rw [hval, natFoldl_max_le]
      exact ⟨by omega, inSet_le (by simp) ((h.index_lt (by simp) hdim hd hi).2 hc)⟩)
    (fun d hd hi => by
      rw [hval]
      by_contra hcon
      have hle := (natFoldl_max_le _ _ _).1 (show (L[card .rectangle dim d]).foldl max 0 ≤ d by omega)
      have hnot : ¬ InSet .rectangle dim d L[card .rectangle dim d] := fun hm => by
        have := (h.index_lt (by simp) hdim hd.le hi).1 hm
        omega
      have hyl := hlen _ (List.getElem_mem hi)
      have hyne := hne _ (List.getElem_mem hi)
      obtain ⟨n, rfl⟩ : ∃ n, dim = n + 1 := ⟨dim - 1, by omega⟩
      have hf0 : (Rectangle.factors (n + 1))[0]? = some 1 := by rw [Rectangle.factors_succ]; rfl
      have gx : Good (d + 1) 0 0 (Rectangle.factors (n + 1)) (single (Rectangle.factors (n + 1)).length 0 (d + 1)) :=
        good_single' hf0 (by simp) (by omega)
      have hxl : (single (Rectangle.factors (n + 1)).length 0 (d + 1)).length = n + 1 := by rw [gx.length, hfl]
      have tx := top_eq gx (by omega)
      have hx : ∀ e, InSet .rectangle (n + 1) e (single (Rectangle.factors (n + 1)).length 0 (d + 1)) ↔ d + 1 ≤ e := fun e => by
        rw [← allLe_iff gx (by omega)]
        exact (allLe_factors hdim).symm
      obtain ⟨k, hk, e⟩ := List.getElem_of_mem ((h.mem _).2 ((hx D).2 (by omega)))
      have hkge : ¬ k < card .rectangle (n + 1) d := fun hlt => by
        have := (hx d).1 (e ▸ (h.index_lt (by simp) hdim hd.le hk).2 hlt)
        omega
      have gy := top_good (fs := Rectangle.factors (n + 1)) (m := L[card .rectangle (n + 1) d]) (by omega) hyne
      have hM : ¬ (top (Rectangle.factors (n + 1)) L[card .rectangle (n + 1) d]).1 ≤ d := fun hm =>
        hnot ((allLe_factors hdim).1 ((allLe_iff gy.1 gy.2).2 hm))
      have g : Good (d + 1) 0 0 (Rectangle.factors (n + 1)) L[card .rectangle (n + 1) d] := by
        rcases Nat.lt_or_ge (card .rectangle (n + 1) d) k with hlt | hge
        · have hs : boxLt _ _ _ := List.pairwise_iff_getElem.1 h.sorted _ k hi hk hlt
          rw [e, boxLt, tx] at hs
          obtain ⟨e1, e2⟩ : (top (Rectangle.factors (n + 1)) L[card .rectangle (n + 1) d]).1 = d + 1 ∧
              (top (Rectangle.factors (n + 1)) L[card .rectangle (n + 1) d]).2 = 0 := by
            rcases hs with hs | ⟨hs, hs' | ⟨hs', -⟩⟩
            · simp only at hs; omega
            · simp only at hs'; omega
            · exact ⟨hs, hs'⟩
          have := gy.1
          rwa [e1, e2] at this
        · have : card .rectangle (n + 1) d = k := by omega
          simp only [this, e]
          exact gx
      rw [Rectangle.factors_succ] at g
      cases hy : L[card .rectangle (n + 1) d] with
      | nil => exact hyne hy
      | cons a l =>
        rw [hy, Good, if_pos rfl] at g
        have := hle.2 a (by rw [hy]; simp)
        omega)
    (fun d _ => card_strict hdim (by omega) (by simp)) h.length.symm L.length 0 0 (by omega) (by omega) (by omega)
  rw [List.drop_zero] at this
  rw [this, List.range_eq_range', Nat.sub_zero]

end Hermipy
