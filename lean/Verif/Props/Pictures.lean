import Verif.Lemmas.Pictures
import Verif.Lemmas.CText
import Verif.Lemmas.Position
import Verif.Props.VarfTensorize
import Mathlib.Data.List.GetD

/-! # C94: pictures of series and forms -/

namespace Hermipy.Props
open Hermipy Spec
variable {Φ : Type}

/-! ## Forms -/

theorem degreeLines_runs (s : IndexSet) : ∀ (L : List IVec) (i d : ℕ), (∀ m ∈ L, m ≠ []) → ∃ l, degreeLines (lineFunction s) i d L = .ok l
  | [], _, _, _ => ⟨[], rfl⟩
  | m :: L, i, d, h => by
    rw [degreeLines, lineFunction_eq s (h m (by simp)), Out.ok_bind]
    split
    · obtain ⟨l, e⟩ := degreeLines_runs s L (i + 1) (d + 1) fun m hm => h m (by simp [hm])
      exact ⟨i :: l, by rw [e, Out.ok_bind]⟩
    · exact degreeLines_runs s L (i + 1) d fun m hm => h m (by simp [hm])

/-- The picture of an accepted form, apart from the lines. -/
theorem varf_plot_runs {A : HVarf Φ} (hA : VarfOk A) (coo : List (ℕ × ℕ × ℝ)) (lines : Bool) : ∃ l, varf_plot coo A lines =
    .ok ⟨if A.is_sparse then coo else densePoints A.matrix A.matrix.length A.matrix.length, A.matrix.length, A.matrix.length, l⟩ := by
  obtain ⟨L, hL, hlen⟩ := hA.list
  have h1 := Nat.one_le_iff_ne_zero.2 (PosOk.dim_pos hA.pos hA.dirs)
  have hcol : (A.matrix.getD 0 []).length = A.matrix.length := by
    have : 0 < A.matrix.length := by rw [hlen]; exact hL.length_pos
    rw [List.getD_eq_getElem _ _ this]
    exact hA.square _ (List.getElem_mem _)
  obtain ⟨l, e⟩ := degreeLines_runs A.index_set L 0 0 fun m hm => by
    rw [← List.length_pos_iff, inSet_length ((hL.mem m).1 hm)]; omega
  cases lines
  · exact ⟨[], by simp only [varf_plot, hcol, Bool.false_eq_true, if_false, Out.ok_bind]⟩
  · exact ⟨l, by simp only [varf_plot, hcol, if_true, hL.list, Out.ok_bind, e]⟩

theorem entryIs_iff {M : List (List ℝ)} {n : ℕ} (hn : M.length = n) (hsq : ∀ r ∈ M, r.length = n) {i j : ℕ} {v : ℝ} :
    EntryIs M i j v ↔ i < n ∧ j < n ∧ entryOf M i j = v := by
  constructor
  · rintro ⟨r, h1, h2⟩
    obtain ⟨hi, e⟩ := List.getElem?_eq_some_iff.1 h1
    have := hsq r (List.mem_of_getElem? h1)
    obtain ⟨hj, e'⟩ := List.getElem?_eq_some_iff.1 h2
    refine ⟨by omega, by omega, ?_⟩
    rw [entryOf, List.getD_eq_getElem _ _ hi, e, List.getD_eq_getElem _ _ hj, e']
  · rintro ⟨hi, hj, e⟩
    have hi' : i < M.length := by omega
    have hj' : j < (M[i]).length := by rw [hsq _ (List.getElem_mem _)]; exact hj
    refine ⟨M[i], by simp, ?_⟩
    rw [entryOf, List.getD_eq_getElem _ _ hi', List.getD_eq_getElem _ _ hj'] at e
    rw [List.getElem?_eq_getElem hj', e]

/-- **C94.** The picture of a dense form shows every entry above 1e-9, once, with its absolute value; row `i` and column `j` are at abscissa `i`
and ordinate `j`. -/
theorem C94_dense {A : HVarf Φ} (hA : VarfOk A) (hd : A.is_sparse = false) (coo : List (ℕ × ℕ × ℝ)) (lines : Bool) :
    ∃ P, varf_plot coo A lines = .ok P ∧ Shows P.points A.matrix ∧ P.xlim = A.matrix.length ∧ P.ylim = A.matrix.length := by
  obtain ⟨l, e⟩ := varf_plot_runs hA coo lines
  refine ⟨_, e, ⟨?_, ?_⟩, rfl, rfl⟩
  · simp only [hd, Bool.false_eq_true, if_false, densePoints]
    rw [List.nodup_flatMap]
    constructor
    · intro i _
      refine List.Nodup.filterMap ?_ List.nodup_range
      intro a b c ha hb
      simp only [Option.mem_def] at ha hb
      split at ha
      · split at hb
        · have := (Option.some.inj ha).trans (Option.some.inj hb).symm
          simp at this
          exact this.1
        · cases hb
      · cases ha
    · refine List.nodup_range.imp ?_
      intro a b hab
      refine List.disjoint_left.2 fun x hx hy => hab ?_
      obtain ⟨j, -, hj⟩ := List.mem_filterMap.1 hx
      obtain ⟨k, -, hk⟩ := List.mem_filterMap.1 hy
      split at hj
      · split at hk
        · have := (Option.some.inj hj).trans (Option.some.inj hk).symm
          simp at this
          exact this.1
        · cases hk
      · cases hj
  · intro i j c
    simp only [hd, Bool.false_eq_true, if_false, densePoints, List.mem_flatMap, List.mem_range, List.mem_filterMap]
    constructor
    · rintro ⟨i', hi, j', hj, h⟩
      split at h
      · rename_i hlt
        have := Option.some.inj h
        simp only [Prod.mk.injEq] at this
        obtain ⟨rfl, rfl, rfl⟩ := this
        exact ⟨_, (entryIs_iff rfl hA.square).2 ⟨hi, hj, rfl⟩, hlt, rfl⟩
      · cases h
    · rintro ⟨v, hv, hlt, rfl⟩
      obtain ⟨hi, hj, rfl⟩ := (entryIs_iff rfl hA.square).1 hv
      exact ⟨i, hi, j, hj, by rw [if_pos hlt]⟩

/-- **C94, partial.** The picture of a sparse form is the same if the stored entries are above 1e-9. Missing: other forms
(`C94_sparse_false`). -/
theorem C94_sparse_partial {A : HVarf Φ} (hA : VarfOk A) (hd : A.is_sparse = true) {coo : List (ℕ × ℕ × ℝ)} (hc : Stores coo A.matrix)
    (hpos : ∀ e ∈ coo, 1 / 10 ^ 9 < e.2.2) (lines : Bool) :
    ∃ P, varf_plot coo A lines = .ok P ∧ Shows P.points A.matrix ∧ P.xlim = A.matrix.length ∧ P.ylim = A.matrix.length := by
  obtain ⟨l, e⟩ := varf_plot_runs hA coo lines
  have habs : ∀ {v : ℝ}, 1 / 10 ^ 9 < v → |v| = v := fun h => abs_of_pos (lt_trans (by norm_num) h)
  refine ⟨_, e, ⟨?_, ?_⟩, rfl, rfl⟩
  · simp only [hd, if_true]
    exact hc.once.of_map _
  · intro i j c
    simp only [hd, if_true]
    constructor
    · intro h
      have := hpos _ h
      exact ⟨c, hc.entry i j c h, by rw [habs this]; exact this, (habs this).symm⟩
    · rintro ⟨v, hv, hlt, rfl⟩
      have h0 : v ≠ 0 := by
        rintro rfl
        rw [abs_zero] at hlt
        norm_num at hlt
      have := hc.all i j v hv h0
      rw [habs (hpos _ this)]
      exact this

/-- A sparse form in one direction with the single entry `a`. -/
theorem point_form [Inhabited Φ] (b : Bool) (a : ℝ) : ∃ A : HVarf Φ, VarfOk A ∧ A.is_sparse = b ∧ A.matrix = [[a]] := by
  obtain ⟨L, hL⟩ := iterOk_exists (s := .triangle) (dim := 1) (degree := 0) ⟨le_rfl, by simp⟩
  have hl : L.length = 1 := by rw [hL.line (by simp)]; rfl
  obtain ⟨A, -, ok, h1, h2, -⟩ := mkVarf_ok (Φ := Φ) (b := b) (M := [[a]]) (p := ⟨1, [0], [0], [[1]], ["hermite"]⟩) (factor := default)
    (s := .triangle) (d := 0) (onePos_ok 0) (by simp) (usable_small _ le_rfl (by simp) (by simp)) hL (by simp [hl]) (by simp)
  exact ⟨A, ok, h1, h2⟩

/-- The hypotheses of `C94_dense` hold for the form with the entry −1, whose picture is one point. -/
example : ∃ (A : HVarf Unit) (P : MatrixPicture), varf_plot [] A true = .ok P ∧ (0, 0, 1) ∈ P.points := by
  obtain ⟨A, ok, h1, h2⟩ := point_form (Φ := Unit) false (-1)
  obtain ⟨P, e, hs, -⟩ := C94_dense ok h1 [] true
  refine ⟨A, P, e, (hs.2 0 0 1).2 ⟨-1, ⟨[-1], by simp [h2], by simp⟩, by norm_num, by norm_num⟩⟩

/-- Those of `C94_sparse_partial` hold for the form with the entry 2. -/
example : ∃ (A : HVarf Unit), VarfOk A ∧ A.is_sparse = true ∧ Stores [(0, 0, 2)] A.matrix ∧ ∀ e ∈ [((0 : ℕ), (0 : ℕ), (2 : ℝ))], 1 / 10 ^ 9 < e.2.2 := by
  obtain ⟨A, ok, h1, h2⟩ := point_form (Φ := Unit) true 2
  refine ⟨A, ok, h1, ⟨by simp, ?_, ?_⟩, by norm_num⟩
  · intro i j v h
    simp at h
    obtain ⟨rfl, rfl, rfl⟩ := h
    exact ⟨[2], by simp [h2], by simp⟩
  · intro i j v h _
    obtain ⟨hi, hj, e⟩ := (entryIs_iff (n := 1) (by simp [h2]) (by simp [h2])).1 h
    obtain rfl : i = 0 := by omega
    obtain rfl : j = 0 := by omega
    rw [← e, h2]
    simp [entryOf]

/-- The picture of a sparse form takes the entries with their signs: with the entry −1 it does not show what the picture of the same dense form
shows. -/
theorem C94_sparse_false : ∃ (A : HVarf Unit) (coo : List (ℕ × ℕ × ℝ)), VarfOk A ∧ A.is_sparse = true ∧ Stores coo A.matrix ∧
    ∀ lines, ∃ P, varf_plot coo A lines = .ok P ∧ ¬ Shows P.points A.matrix := by
  obtain ⟨A, ok, h1, h2⟩ := point_form (Φ := Unit) true (-1)
  refine ⟨A, [(0, 0, -1)], ok, h1, ⟨by simp, ?_, ?_⟩, fun lines => ?_⟩
  · intro i j v h
    simp at h
    obtain ⟨rfl, rfl, rfl⟩ := h
    exact ⟨[-1], by simp [h2], by simp⟩
  · intro i j v h _
    obtain ⟨hi, hj, e⟩ := (entryIs_iff (n := 1) (by simp [h2]) (by simp [h2])).1 h
    obtain rfl : i = 0 := by omega
    obtain rfl : j = 0 := by omega
    rw [← e, h2]
    simp [entryOf]
  · obtain ⟨l, e⟩ := varf_plot_runs ok [(0, 0, -1)] lines
    refine ⟨_, e, fun hs => ?_⟩
    have := (hs.2 0 0 1).2 ⟨-1, ⟨[-1], by simp [h2], by simp⟩, by norm_num, by norm_num⟩
    simp only [h1, if_true, List.mem_singleton, Prod.mk.injEq, true_and] at this
    norm_num at this

/-! ## Lines -/

theorem setSize_card (s : IndexSet) (dim d : ℕ) : setSize s dim d = card s dim d := rfl

/-- **C94.** For the triangle, the cube and the rectangle, the lines are drawn at the numbers of multi-indices of the degrees below that of the form. -/
theorem C94_lines {A : HVarf Φ} (hA : VarfOk A) (hs : A.index_set = .triangle ∨ A.index_set = .cube ∨ A.index_set = .rectangle)
    (coo : List (ℕ × ℕ × ℝ)) : ∃ P, varf_plot coo A true = .ok P ∧
      P.lines = (List.range A.degree).map fun d => setSize A.index_set A.position.dim d := by
  obtain ⟨L, hL, -⟩ := hA.list
  have h1 := Nat.one_le_iff_ne_zero.2 (PosOk.dim_pos hA.pos hA.dirs)
  have e : degreeLines (lineFunction A.index_set) 0 0 L = .ok ((List.range A.degree).map fun d => card A.index_set A.position.dim d) := by
    rcases hs with h | h | h
    · exact degreeLines_graded (Or.inl h) h1 hL
    · exact degreeLines_graded (Or.inr h) h1 hL
    · rw [h] at hL ⊢
      exact degreeLines_rectangle h1 hL
  simp only [varf_plot, if_true, hL.list, Out.ok_bind, e]
  exact ⟨_, rfl, rfl⟩

/-- Counting the sizes up to `k`. -/
theorem linesBefore_sizes {s : IndexSet} (hs : s ≠ .cross_nc) {dim D a : ℕ} (h1 : 1 ≤ dim) {L : List IVec} (hL : IterOk s dim D L) {k : ℕ} {m : IVec}
    (hm : L[k]? = some m) {n : ℕ} (hn : a + n = D) {d : ℕ} (hd : a ≤ d) :
    InSet s dim d m ↔ (((List.range' a n).map fun d => setSize s dim d).filter fun x => x ≤ k).length ≤ d - a := by
  obtain ⟨hk, rfl⟩ := List.getElem?_eq_some_iff.1 hm
  have hiff : ∀ e ≤ D, InSet s dim e L[k] ↔ k < card s dim e := fun e he => hL.index_lt hs h1 he hk
  rw [List.filter_map, List.length_map]
  have hcount : ∀ n a, a + n ≤ D → ∀ v, (∀ e, a ≤ e → e < a + n → (card s dim e ≤ k ↔ e < v)) →
      ((List.range' a n).filter ((fun x => decide (x ≤ k)) ∘ fun d => setSize s dim d)).length = min n (v - a) := by
    intro n
    induction n with
    | zero => intro a _ v _; simp
    | succ n ih =>
      intro a ha v hv
      rw [List.range'_succ, List.filter_cons]
      have h0 := hv a le_rfl (by omega)
      have := ih (a + 1) (by omega) v fun e he1 he2 => hv e (by omega) (by omega)
      by_cases hlt : a < v
      · rw [if_pos (by simpa [setSize_card] using h0.2 hlt), List.length_cons, this]; omega
      · rw [if_neg (by simpa [setSize_card] using fun h => hlt (h0.1 h)), this]; omega
  by_cases hdD : D ≤ d
  · refine iff_of_true (inSet_mono hdD ((hL.mem _).1 (List.getElem_mem _))) ?_
    refine (List.length_filter_le _ _).trans ?_
    simp; omega
  · -- the least degree whose set contains the multi-index
    classical
    have hex : ∃ e, InSet s dim e L[k] := ⟨D, (hL.mem _).1 (List.getElem_mem _)⟩
    have hv : ∀ e, e ≤ D → (card s dim e ≤ k ↔ e < Nat.find hex) := by
      intro e he
      have := hiff e he
      constructor
      · intro hc
        by_contra hcon
        have := this.1 (inSet_mono (by omega) (Nat.find_spec hex))
        omega
      · intro hlt
        by_contra hcon
        exact Nat.find_min hex hlt (this.2 (by omega))
    rw [hcount n a (by omega) (Nat.find hex) fun e _ he => hv e (by omega)]
    have h3 : InSet s dim d L[k] ↔ Nat.find hex ≤ d := ⟨fun h => Nat.find_min' hex h, fun h => inSet_mono h (Nat.find_spec hex)⟩
    have h4 : Nat.find hex ≤ D := Nat.find_min' hex ((hL.mem _).1 (List.getElem_mem _))
    rw [h3]
    omega

/-- **C94.** So the number of lines before a row is the least degree whose index set contains the multi-index of the row. -/
theorem C94_lines_degree {A : HVarf Φ} (hA : VarfOk A) (hs : A.index_set = .triangle ∨ A.index_set = .cube ∨ A.index_set = .rectangle)
    (coo : List (ℕ × ℕ × ℝ)) : ∃ P L, varf_plot coo A true = .ok P ∧ A.index_set.s_list A.position.dim A.degree = .ok L ∧
      ∀ k m, L[k]? = some m → ∀ d, InSet A.index_set A.position.dim d m ↔ linesBefore P.lines k ≤ d := by
  obtain ⟨P, e, hl⟩ := C94_lines hA hs coo
  obtain ⟨L, hL, -⟩ := hA.list
  have h1 := Nat.one_le_iff_ne_zero.2 (PosOk.dim_pos hA.pos hA.dirs)
  refine ⟨P, L, e, hL.list, fun k m hm d => ?_⟩
  have := linesBefore_sizes (by rcases hs with h | h | h <;> simp [h]) h1 hL hm (a := 0) (n := A.degree) (by omega) (d := d) (by omega)
  rw [this, hl, linesBefore, List.range_eq_range', Nat.sub_zero]

/-- **C94.** For the cross there is one more line, after the first row; otherwise the same is true for the degrees from one on. -/
theorem C94_lines_cross {A : HVarf Φ} (hA : VarfOk A) (hs : A.index_set = .cross) (hd : 1 ≤ A.degree) (coo : List (ℕ × ℕ × ℝ)) :
    ∃ P L, varf_plot coo A true = .ok P ∧ A.index_set.s_list A.position.dim A.degree = .ok L ∧
      P.lines = 1 :: ((List.range' 1 (A.degree - 1)).map fun d => setSize .cross A.position.dim d) ∧
      ∀ k m, L[k]? = some m → ∀ d, 1 ≤ d → (InSet .cross A.position.dim d m ↔ linesBefore P.lines k ≤ d) := by
  obtain ⟨L, hL, -⟩ := hA.list
  have h1 := Nat.one_le_iff_ne_zero.2 (PosOk.dim_pos hA.pos hA.dirs)
  rw [hs] at hL
  have e := degreeLines_cross h1 hd hL
  simp only [varf_plot, if_true, hs, hL.list, Out.ok_bind, e]
  refine ⟨_, L, rfl, rfl, rfl, fun k m hm d hd1 => ?_⟩
  have := linesBefore_sizes (by simp) h1 hL hm (a := 1) (n := A.degree - 1) (by omega) (d := d) hd1
  rw [linesBefore, List.filter_cons]
  by_cases hk : 1 ≤ k
  · rw [if_pos (by simpa using hk), List.length_cons, this]
    simp only [setSize_card]
    omega
  · rw [if_neg (by simpa using hk), this]
    obtain rfl : k = 0 := by omega
    have h0 : (((List.range' 1 (A.degree - 1)).map fun d => setSize .cross A.position.dim d).filter fun x => x ≤ 0).length = 0 := by
      rw [List.length_eq_zero_iff, List.filter_eq_nil_iff]
      intro x hx
      obtain ⟨e, -, rfl⟩ := List.mem_map.1 hx
      have : 0 < card .cross A.position.dim e := by
        obtain ⟨L', h'⟩ := iterOk_exists (s := .cross) (dim := A.position.dim) (degree := e) ⟨h1, by simp⟩
        rw [← h'.length]
        exact h'.length_pos
      simp [setSize_card]
      omega
    rw [h0]
    simp only [setSize_card] at h0
    rw [h0]
    omega

theorem runs_cross_nc : Runs (fun m => IndexSet.cross_nc.s_increment m 2) (List.replicate 2 0)
    [[0, 0], [0, 1], [1, 0], [0, 2], [1, 1], [2, 0], [1, 2], [2, 1]] := by
  have step : ∀ m m' : IVec, m ≠ [2, 1] → m.length = 2 → CrossNc.search 2 2 m = .ok m' → IndexSet.cross_nc.s_increment m 2 = .ok (false, m') := by
    intro m m' h1 h2 h3
    obtain ⟨a, b, rfl⟩ := List.length_eq_two.1 h2
    have hn : ¬ (a = 2 ∧ [b].all (· = 1) = true) := by
      rintro ⟨rfl, hb⟩
      simp at hb
      exact h1 (by rw [hb])
    show CrossNc.s_increment [a, b] 2 = _
    rw [CrossNc.s_increment]
    show (if a = 2 ∧ [b].all (· = 1) = true then Out.ok (true, [a, b]) else CrossNc.search 2 2 [a, b] >>= fun m' => Out.ok (false, m')) = _
    rw [if_neg hn, h3, Out.ok_bind]
  have h : CrossNc.search 2 2 [0, 3] = .ok [1, 2] := by rw [CrossNc.search]; rfl
  refine .next (step _ _ (by decide) rfl (by rw [CrossNc.search]; rfl)) ?_
  refine .next (step _ _ (by decide) rfl (by rw [CrossNc.search]; rfl)) ?_
  refine .next (step _ _ (by decide) rfl (by rw [CrossNc.search]; rfl)) ?_
  refine .next (step _ _ (by decide) rfl (by rw [CrossNc.search]; rfl)) ?_
  refine .next (step _ _ (by decide) rfl (by rw [CrossNc.search]; rfl)) ?_
  refine .next (step _ _ (by decide) rfl (by rw [CrossNc.search]; exact h)) ?_
  refine .next (step _ _ (by decide) rfl (by rw [CrossNc.search]; rfl)) (.last rfl)

/-- Zero forms exist for every index set. -/
theorem zero_form [Inhabited Φ] (b : Bool) (s : IndexSet) {degree : ℕ} (hd : degree ≤ 250) {L : List IVec} (hL : IterOk s 2 degree L) :
    ∃ A : HVarf Φ, VarfOk A ∧ A.is_sparse = b ∧ A.index_set = s ∧ A.position.dim = 2 ∧ IterOk s 2 A.degree L := by
  obtain ⟨A, -, ok, h1, h2, h3, -, h5, h6, -⟩ := mkVarf_ok (Φ := Φ) (b := b) (M := List.replicate L.length (List.replicate L.length 0))
    (p := ⟨2, [0, 1], [0, 0], [[1, 0], [0, 1]], ["hermite", "hermite"]⟩) (factor := default)
    (s := s) (d := degree) ⟨rfl, rfl, rfl, by simp, rfl, by simp⟩ (by simp) (usable_small _ (by simp) (by simp) hd) hL (by simp) (by simp)
  exact ⟨A, ok, h1, h5, by rw [h3], h6⟩

/-- The hypotheses of `C94_lines` and `C94_lines_degree` hold for forms of degree 3 in two directions, with lines at 1, 3, 6 for the triangle. -/
example : ∃ (A : HVarf Unit) (P : MatrixPicture), VarfOk A ∧ A.index_set = .triangle ∧ varf_plot [] A true = .ok P ∧ P.lines.length = A.degree ∧
    A.degree = 3 := by
  obtain ⟨L, hL⟩ := iterOk_exists (s := .triangle) (dim := 2) (degree := 3) ⟨by simp, by simp⟩
  obtain ⟨A, ok, -, h2, h3, h4⟩ := zero_form (Φ := Unit) false .triangle (by omega) hL
  obtain ⟨P, e, hl⟩ := C94_lines ok (Or.inl h2) []
  refine ⟨A, P, ok, h2, e, by simp [hl], ?_⟩
  have := h4.length.symm.trans hL.length
  rcases Nat.lt_trichotomy A.degree 3 with h | h | h
  · have := card_strict (s := .triangle) (dim := 2) (by simp) h (by simp); omega
  · exact h
  · have := card_strict (s := .triangle) (dim := 2) (by simp) h (by simp); omega

/-- Those of `C94_lines_cross` hold too. -/
example : ∃ A : HVarf Unit, VarfOk A ∧ A.index_set = .cross ∧ 1 ≤ A.degree := by
  obtain ⟨L, hL⟩ := iterOk_exists (s := .cross) (dim := 2) (degree := 2) ⟨by simp, by simp⟩
  obtain ⟨A, ok, -, h2, h3, h4⟩ := zero_form (Φ := Unit) false .cross (by omega) hL
  refine ⟨A, ok, h2, ?_⟩
  have := h4.length.symm.trans hL.length
  by_contra hcon
  have h0 : A.degree = 0 := by omega
  rw [h0, card_cross_zero (Or.inl rfl)] at this
  have := card_strict (s := .cross) (dim := 2) (d := 1) (d' := 2) (by simp) (by simp) (by simp)
  omega

/-- For the other listing of the cross the lines do not separate the degrees: at degree 2 in two directions, there are two lines before (1, 1),
although it belongs to the set of degree 1. -/
theorem C94_lines_false : ∃ (A : HVarf Unit) (P : MatrixPicture) (L : List IVec), VarfOk A ∧ A.index_set = .cross_nc ∧
    varf_plot [] A true = .ok P ∧ A.index_set.s_list A.position.dim A.degree = .ok L ∧
    ∃ k m d, L[k]? = some m ∧ 1 ≤ d ∧ InSet A.index_set A.position.dim d m ∧ ¬ linesBefore P.lines k ≤ d := by
  have hu := usable_small .cross_nc (dim := 2) (degree := 2) (by simp) (by simp) (by simp)
  obtain ⟨L, hL⟩ := iterOk_exists hu.toSized.fits'
  obtain rfl := hL.runs.unique runs_cross_nc
  obtain ⟨A, ok, -, h2, h3, h4⟩ := zero_form (Φ := Unit) false .cross_nc (by omega) hL
  have e : varf_plot [] A true = .ok ⟨if A.is_sparse then [] else densePoints A.matrix A.matrix.length (A.matrix.getD 0 []).length,
      A.matrix.length, (A.matrix.getD 0 []).length, [1, 3]⟩ := by
    simp only [varf_plot, if_true, h2, h3, h4.list, Out.ok_bind]
    rfl
  refine ⟨A, _, _, ok, h2, e, by rw [h2, h3]; exact h4.list, 4, [1, 1], 1, rfl, le_rfl, ?_, by simp [linesBefore]⟩
  rw [h2, h3]
  exact ⟨rfl, by simp⟩

/-! ## Series -/

theorem column_eq {L : List IVec} {k : ℕ} (h : ∀ m ∈ L, k < m.length) : column L k = .ok (L.map fun m => m.getD k 0) :=
  Hermipy.mapM_ok fun m hm => pyget_some (by rw [List.getD_eq_getElem _ _ (h m hm), List.getElem?_eq_getElem (h m hm)])

/-- **C94.** In one direction, there is one bar for each multi-index, at the multi-index, with the coefficient as height. -/
theorem C94_series_line {f : HSeries Φ} (hf : SeriesOk f) (hd : f.position.dim = 1) (given : Bool) :
    ∃ l, series_plot given f = .ok (.bars l) ∧ (l.map fun b => b.1).Nodup ∧ ∀ a v, (a, v) ∈ l ↔ Coef f [a] v := by
  obtain ⟨L, hL, hlen⟩ := hf.list
  have h1 : ∀ m ∈ L, m.length = 1 := fun m hm => hd ▸ inSet_length ((hL.mem m).1 hm)
  have h2 : ∀ m ∈ L, ∀ a, m.getD 0 0 = a ↔ m = [a] := by
    intro m hm a
    obtain ⟨b, rfl⟩ := List.length_eq_one_iff.1 (h1 m hm)
    simp
  refine ⟨(L.map fun m => m.getD 0 0).zip f.coeffs, ?_, ?_, fun a v => ?_⟩
  · rw [series_plot, if_neg (show ¬ f.position.dim = 0 by omega), hL.list, Out.ok_bind]
    beta_reduce
    rw [if_pos hd, column_eq fun m hm => by rw [h1 m hm]; omega, Out.ok_bind, if_neg (by simp [hlen])]
  · rw [List.map_fst_zip (by simp [hlen])]
    refine List.Nodup.map_on ?_ hL.nodup
    intro x hx y hy h
    have e1 := (h2 x hx _).1 rfl
    have e2 := (h2 y hy _).1 rfl
    rw [e1, e2, h]
  · rw [coef_iff hL.list, List.mem_iff_getElem?]
    refine exists_congr fun k => ?_
    rw [List.getElem?_zip_eq_some, List.getElem?_map]
    refine and_congr_left fun _ => ?_
    cases hk : L[k]? with
    | none => simp
    | some m =>
      simp only [Option.map_some, Option.some.injEq]
      exact h2 m (List.mem_of_getElem? hk) a

/-- **C94.** In two directions, there is one point for each multi-index, at the multi-index, with the absolute value of the coefficient as colour. -/
theorem C94_series_plane {f : HSeries Φ} (hf : SeriesOk f) (hd : f.position.dim = 2) (given : Bool) :
    ∃ l, series_plot given f = .ok (.points l) ∧ (l.map fun b => (b.1, b.2.1)).Nodup ∧
      ∀ a b v, (a, b, v) ∈ l ↔ ∃ c, Coef f [a, b] c ∧ v = |c| := by
  obtain ⟨L, hL, hlen⟩ := hf.list
  have h1 : ∀ m ∈ L, m.length = 2 := fun m hm => hd ▸ inSet_length ((hL.mem m).1 hm)
  have h2 : ∀ m ∈ L, ∀ a b, (m.getD 0 0 = a ∧ m.getD 1 0 = b) ↔ m = [a, b] := by
    intro m hm a b
    obtain ⟨x, y, rfl⟩ := List.length_eq_two.1 (h1 m hm)
    simp
  refine ⟨(L.map fun m => m.getD 0 0).zip ((L.map fun m => m.getD 1 0).zip (f.coeffs.map fun c => |c|)), ?_, ?_, fun a b v => ?_⟩
  · rw [series_plot, if_neg (show ¬ f.position.dim = 0 by omega), hL.list, Out.ok_bind]
    beta_reduce
    rw [if_neg (show ¬ f.position.dim = 1 by omega), if_pos hd, column_eq fun m hm => by rw [h1 m hm]; omega, column_eq fun m hm => by rw [h1 m hm]; omega, Out.ok_bind, Out.ok_bind,
      if_neg (by simp [hlen])]
  · have e : ((L.map fun m => m.getD 0 0).zip ((L.map fun m => m.getD 1 0).zip (f.coeffs.map fun c => |c|))).map (fun b => (b.1, b.2.1)) =
        L.map fun m => (m.getD 0 0, m.getD 1 0) := by
      refine List.ext_getElem? fun k => ?_
      by_cases hk : k < L.length
      · have hk' : k < f.coeffs.length := by omega
        simp [hk, hk']
      · rw [List.getElem?_eq_none (by simp; omega), List.getElem?_eq_none (by simp; omega)]
    rw [e]
    refine List.Nodup.map_on ?_ hL.nodup
    intro x hx y hy h
    have e1 := (h2 x hx _ _).1 ⟨rfl, rfl⟩
    have e2 := (h2 y hy _ _).1 ⟨rfl, rfl⟩
    simp only [Prod.mk.injEq] at h
    rw [e1, e2, h.1, h.2]
  · have hc : (∃ c, Coef f [a, b] c ∧ v = |c|) ↔ ∃ (k : ℕ) (c : ℝ), L[k]? = some [a, b] ∧ f.coeffs[k]? = some c ∧ v = |c| := by
      simp only [coef_iff hL.list]
      constructor
      · rintro ⟨c, ⟨k, h, h'⟩, e⟩
        exact ⟨k, c, h, h', e⟩
      · rintro ⟨k, c, h, h', e⟩
        exact ⟨c, ⟨k, h, h'⟩, e⟩
    rw [hc, List.mem_iff_getElem?]
    refine exists_congr fun k => ?_
    rw [List.getElem?_zip_eq_some, List.getElem?_zip_eq_some, List.getElem?_map, List.getElem?_map, List.getElem?_map]
    cases hk : L[k]? with
    | none => simp
    | some m =>
      simp only [Option.map_some, Option.some.injEq]
      rw [← and_assoc, h2 m (List.mem_of_getElem? hk) a b]
      cases hk' : f.coeffs[k]? with
      | none => simp
      | some c =>
        simp only [Option.map_some, Option.some.injEq]
        constructor
        · rintro ⟨h, h'⟩
          exact ⟨c, h, rfl, h'.symm⟩
        · rintro ⟨c', h, h', e⟩
          subst h'
          exact ⟨h, e.symm⟩

/-- With three directions or more, `Series.plot` raises if the axes are given, and otherwise shows an empty picture. -/
theorem C94_series_false {f : HSeries Φ} (hf : SeriesOk f) (hd : 3 ≤ f.position.dim) :
    series_plot true f = .throws ∧ series_plot false f = .ok .nothing := by
  obtain ⟨L, hL, -⟩ := hf.list
  constructor <;>
  simp [series_plot, show ¬ f.position.dim = 0 by omega, show ¬ f.position.dim = 1 by omega, show ¬ f.position.dim = 2 by omega, hL.list]

/-- There are series in any number of directions up to four to which C94 applies. -/
example {n : ℕ} (h1 : 1 ≤ n) (h4 : n ≤ 4) : ∃ f : HSeries Unit, SeriesOk f ∧ f.position.dim = n ∧ f.coeffs ≠ [] := by
  have hu := usable_small .cross h1 h4 (show 3 ≤ 250 by omega)
  obtain ⟨L, hL⟩ := iterOk_exists hu.toSized.fits'
  have hne : (List.range n) ≠ [] := by rw [← List.length_pos_iff]; simp; omega
  obtain ⟨f, -, ok, h2, h3, -⟩ := mkSeries_ok (Φ := Unit) (coeffs := List.replicate L.length 7)
    (p := ⟨n, List.range n, List.replicate n 0, List.replicate n (List.replicate n 0), List.replicate n "hermite"⟩) (factor := ()) (s := .cross) (d := 3)
    ⟨by simp, by simp, by simp, by simp, by simp, List.nodup_range⟩ hne hu hL (by simp)
  refine ⟨f, ok, by rw [h3], ?_⟩
  have := hL.length_pos
  rw [h2, ← List.length_pos_iff]
  simpa using this

/-! ## Coordinates of the nodes -/

theorem not_prefix_node (d i : ℕ) : ¬ varText d <+: nodeName i := by
  intro h
  have h := (List.cons_prefix_cons.1 h).2
  cases e : (toString d).toList with
  | nil => exact digits_ne_nil d e
  | cons c l =>
    rw [e] at h
    have hc : c = '_' := (List.cons_prefix_cons.1 h).1
    have := digits_word d c (by rw [e]; simp)
    rw [hc] at this
    exact absurd this (by decide)

/-- **C94, partial.** `mapped_nodes` asks for the variables `x_0`, `x_1` and so on, none of which is a variable of the library: the C code is
the name itself whatever the directions are. -/
theorem C94_nodes_text (dirs : List ℕ) (i : ℕ) : ccodeOf dirs (nodeName i) = nodeName i := by
  have hw : ∀ c ∈ nodeName i, isWord c = true := by
    intro c hc
    simp only [nodeName, List.cons_append, List.nil_append, List.mem_cons] at hc
    rcases hc with rfl | rfl | hc
    · decide
    · decide
    · exact isWord_digit (digits_word i c hc)
  have h := ccode_from dirs 0 [.word (nodeName i)] ⟨by simp [nodeName], hw, by simp, trivial⟩ (by
    intro d _ cs hcs hp
    simp only [List.mem_singleton, Tok.word.injEq] at hcs
    subst hcs
    exact absurd hp (not_prefix_node d i))
  have ht : tokText [.word (nodeName i)] = nodeName i := by simp [tokText]
  rw [ht] at h
  rw [ccodeOf, h, cTextFrom]
  have : dirs.find? (fun d => varText d = nodeName i) = none := by
    rw [List.find?_eq_none]
    intro d _ he
    have he : varText d = nodeName i := by simpa using he
    exact not_prefix_node d i (by rw [he])
  rw [this]
  simp [cTextFrom]

/-- So `mapped_nodes` is undefined in any number of directions, for a compiler that rejects the unknown name `x_0`. (In no direction, it raises.) -/
theorem C94_nodes_false (hash : String → ℕ) (compile : String → Option (List ℝ → Out ℝ)) (files : SoFiles (List ℝ → Out ℝ))
    (hc : compile "x_0" = none) (hf : files (hash "x_0") = none) (p : Position) (nodes factor : List (List ℝ)) :
    mapped_nodes hash compile files p nodes factor = if p.dim = 0 then .throws else .ub := by
  cases hd : p.dim with
  | zero => simp [mapped_nodes, hd, mappedLoop]
  | succ n =>
    have e : String.ofList (nodeName 0) = "x_0" := by decide
    simp [mapped_nodes, hd, List.range_succ_eq_map, mappedLoop, C94_nodes_text, e, discretize_from_string, intern_function, hc, hf]

/-- The compilation of `x_0` fails while that of `v[0]` does not. -/
example : ∃ (compile : String → Option (List ℝ → Out ℝ)), compile "x_0" = none ∧ compile "v[0]" = some fun v => pyget v 0 :=
  ⟨fun s => if s = "v[0]" then some fun v => pyget v 0 else none, by simp, by simp⟩

end Hermipy.Props
