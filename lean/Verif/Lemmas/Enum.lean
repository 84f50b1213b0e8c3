import Verif.Lemmas.Hash
import Verif.Lemmas.BoxInst
import Verif.Lemmas.CrossNc

/-! # The five listings, packaged -/

namespace Hermipy

/-- The order in which the elements of an index set are listed. -/
def setLt : IndexSet → Nat → IVec → IVec → Prop
  | .triangle, _ => triLt
  | .cube, dim => boxLt (List.replicate dim 1)
  | .rectangle, dim => boxLt (Rectangle.factors dim)
  | .cross, _ => crossLt
  | .cross_nc, _ => triLt

/-- Side conditions under which the constructors are defined. -/
def Fits (s : IndexSet) (dim degree : Nat) : Prop := 1 ≤ dim ∧ (s = .cross_nc → NoWrap dim degree)

theorem Rectangle.factors_length (dim : Nat) : (Rectangle.factors dim).length = dim := by simp [Rectangle.factors]

theorem inSet_length {s : IndexSet} {dim degree : Nat} {m : IVec} (h : Spec.InSet s dim degree m) : m.length = dim := by
  cases s <;> exact h.1

theorem setLt_strict (s : IndexSet) (dim : Nat) (P : IVec → Prop) (hP : ∀ x, P x → x.length = dim) :
    StrictOn P (setLt s dim) := by
  cases s
  · exact triLt_strict dim P hP
  · exact boxLt_strict _ P (by simpa using hP)
  · exact crossLt_strict dim P hP
  · exact triLt_strict dim P hP
  · exact boxLt_strict _ P (by simpa [Rectangle.factors_length] using hP)

theorem set_isSucc {s : IndexSet} {dim degree : Nat} (h : Fits s dim degree) :
    IsSucc (Spec.InSet s dim degree) (setLt s dim) (fun m => s.s_increment m degree) := by
  obtain ⟨hd, hw⟩ := h
  cases s
  · exact Triangle.isSucc dim degree hd
  · exact Cube.isSucc dim degree hd
  · exact Cross.isSucc dim degree hd
  · exact CrossNc.isSucc dim degree hd (hw rfl)
  · exact Rectangle.isSucc dim degree hd

theorem finite_inSet (s : IndexSet) (dim degree : Nat) : {x | Spec.InSet s dim degree x}.Finite := by
  cases s
  · exact finite_triangle dim degree
  · exact finite_cube dim degree
  · exact finite_cross dim _
  · exact finite_cross dim _
  · exact finite_rectangle dim degree

theorem inSet_zero (s : IndexSet) (dim degree : Nat) : Spec.InSet s dim degree (List.replicate dim 0) := by
  cases s <;> simp [Spec.InSet, Spec.InTriangle, Spec.InCube, Spec.InCross, Spec.InRectangle]

theorem not_boxLt_zero {fs x : IVec} (hl : x.length = fs.length) (hne : x ≠ []) :
    ¬ boxLt fs x (List.replicate fs.length 0) := by
  have hpos : 0 < fs.length := by rw [← hl, List.length_pos_iff]; exact hne
  have h0 := top_good (fs := fs) (m := List.replicate fs.length 0) (by simp) (by simp; intro h; simp [h] at hpos)
  have hx := top_good hl hne
  have hz1 : (top fs (List.replicate fs.length 0)).1 = 0 := by
    have h2 := h0.1
    generalize (top fs (List.replicate fs.length 0)).1 = M at *
    generalize (top fs (List.replicate fs.length 0)).2 = j at *
    obtain ⟨u, c, s, fu, f, fs', h3, h4, l1, l2, rfl⟩ := good_get h2 (by omega) (by omega)
    have : c ∈ List.replicate fs.length 0 := by rw [h3]; simp
    rw [List.mem_replicate] at this
    rw [this.2]; simp
  have hz2 : (top fs (List.replicate fs.length 0)).2 = fs.length - 1 := by
    by_contra hcon
    have h2 := h0.2
    have h3 := h0.1
    rw [hz1] at h3
    simp only [List.length_replicate] at h2
    exact good_zero h3 (by omega) (by simp; omega)
  unfold boxLt
  rw [hz1, hz2]
  rintro (h | ⟨h, h' | ⟨h', h2⟩⟩)
  · omega
  · have h3 := hx.1
    rw [h] at h3
    exact good_zero h3 (by omega) (by omega)
  · exact not_colexLt_zero h2

theorem zero_least {s : IndexSet} {dim degree : Nat} (hd : 1 ≤ dim) {x : IVec} (hx : Spec.InSet s dim degree x) :
    x = List.replicate dim 0 ∨ setLt s dim (List.replicate dim 0) x := by
  have ho := setLt_strict s dim (Spec.InSet s dim degree) (fun x hx => inSet_length hx)
  have hlen := inSet_length hx
  have hnot : ¬ setLt s dim x (List.replicate dim 0) := by
    have htri : ¬ triLt x (List.replicate dim 0) := by
      rintro (h | ⟨h, h'⟩)
      · simp at h
      · rw [eq_zeros_of_sum (x := x) (by simpa using h), hlen] at h'
        exact colexLt_irrefl _ h'
    have hne : x ≠ [] := by rw [← List.length_pos_iff]; omega
    cases s
    · exact htri
    · simpa [setLt] using not_boxLt_zero (fs := List.replicate dim 1) (x := x) (by simpa using hlen) hne
    · rintro (h | ⟨h, h' | ⟨h', h2⟩⟩)
      · have := prod_pos_of (w := ones x) (fun _ => ones_pos)
        rw [ones_zeros] at h; simp at h; omega
      · rw [ones_zeros] at h h'
        have := eq_ones_of_prod (w := ones x) (fun _ => ones_pos) (by simpa using h)
        rw [this] at h'
        simp [hlen, colexLt_irrefl] at h'
      · exact not_colexLt_zero h2
    · exact htri
    · have := not_boxLt_zero (fs := Rectangle.factors dim) (x := x) (by simpa [Rectangle.factors_length] using hlen) hne
      rw [Rectangle.factors_length] at this
      exact this
  rcases ho.total x _ hx (inSet_zero s dim degree) with h | h | h
  · exact absurd h hnot
  · exact Or.inl h
  · exact Or.inr h

/-- Existence of the listing with all that is needed about it. -/
theorem enum {s : IndexSet} {dim degree : Nat} (h : Fits s dim degree) :
    ∃ L, Runs (fun m => s.s_increment m degree) (List.replicate dim 0) L ∧ L.Pairwise (setLt s dim) ∧
      ∀ m, m ∈ L ↔ Spec.InSet s dim degree m := by
  obtain ⟨L, hr, hp, hm⟩ := runs_of_succ (setLt_strict s dim (Spec.InSet s dim degree) (fun x hx => inSet_length hx))
    (set_isSucc h) (finite_inSet s dim degree) _ (inSet_zero s dim degree)
  refine ⟨L, hr, hp, fun m => ?_⟩
  rw [hm]
  exact ⟨fun h => h.1, fun hx => ⟨hx, zero_least h.1 hx⟩⟩

/-- Everything about a constructed iterator. -/
structure IterOk (s : IndexSet) (dim degree : Nat) (L : List IVec) : Prop where
  runs : Runs (fun m => s.s_increment m degree) (List.replicate dim 0) L
  sorted : L.Pairwise (setLt s dim)
  mem : ∀ m, m ∈ L ↔ Spec.InSet s dim degree m
  nodup : L.Nodup
  iter : s.iter dim degree = .ok (freshIter dim L)
  list : s.s_list dim degree = .ok L

theorem iterOk_exists {s : IndexSet} {dim degree : Nat} (h : Fits s dim degree) : ∃ L, IterOk s dim degree L := by
  obtain ⟨L, hr, hp, hm⟩ := enum h
  have hit : s.iter dim degree = .ok (freshIter dim L) := mkIter_of_runs hr
  refine ⟨L, hr, hp, hm, ?_, hit, ?_⟩
  · exact pairwise_nodup (setLt_strict s dim (Spec.InSet s dim degree) (fun x hx => inSet_length hx)) hp
      (fun x hx => (hm x).1 hx)
  · rw [IndexSet.s_list, hit]
    exact listLoop_fresh hr.head

/-- The listing of a set (as a pure value, for the set being constructible). -/
theorem IterOk.unique {s : IndexSet} {dim degree : Nat} {L L' : List IVec} (h : IterOk s dim degree L)
    (h' : IterOk s dim degree L') : L = L' := h.runs.unique h'.runs

theorem IterOk.of_iter {s : IndexSet} {dim degree : Nat} {it : Iter} (hf : Fits s dim degree)
    (h : s.iter dim degree = .ok it) : it = freshIter dim it.list ∧ IterOk s dim degree it.list := by
  obtain ⟨L, hL⟩ := iterOk_exists hf
  have := hL.iter
  rw [h] at this
  simp at this
  subst this
  exact ⟨rfl, hL⟩

theorem IterOk.of_list {s : IndexSet} {dim degree : Nat} {L : List IVec} (hf : Fits s dim degree)
    (h : s.s_list dim degree = .ok L) : IterOk s dim degree L := by
  obtain ⟨L', hL⟩ := iterOk_exists hf
  have := hL.list
  rw [h] at this
  simp at this
  subst this
  exact hL

theorem IterOk.index {s : IndexSet} {dim degree : Nat} {L : List IVec} (h : IterOk s dim degree L) (m : IVec) (k : Nat) :
    (freshIter dim L).index m = .ok k ↔ L[k]? = some m := freshIter_index h.nodup m k

theorem IterOk.has {s : IndexSet} {dim degree : Nat} {L : List IVec} (h : IterOk s dim degree L) (m : IVec) :
    (freshIter dim L).has m = true ↔ Spec.InSet s dim degree m := by
  rw [freshIter_has h.nodup, h.mem]

/-! ## Prefix property -/

theorem inSet_mono {s : IndexSet} {dim d d' : Nat} (hdd : d ≤ d') {m : IVec} (h : Spec.InSet s dim d m) :
    Spec.InSet s dim d' m := by
  cases s
  · exact ⟨h.1, le_trans h.2 hdd⟩
  · exact ⟨h.1, fun x hx => le_trans (h.2 x hx) hdd⟩
  · exact ⟨h.1, le_trans h.2 (by omega)⟩
  · exact ⟨h.1, le_trans h.2 (by omega)⟩
  · refine ⟨h.1, fun i hi => le_trans (h.2 i hi) ?_⟩
    split
    · exact hdd
    · exact Nat.div_le_div_right hdd

theorem initial {s : IndexSet} (hs : s ≠ .cross_nc) {dim d d' : Nat} (hd : 1 ≤ dim) {x y : IVec}
    (hx : Spec.InSet s dim d x) (hy : Spec.InSet s dim d' y) (hlt : setLt s dim y x) : Spec.InSet s dim d y := by
  have hbox : ∀ (fs : IVec), fs.length = dim → AllLe d fs x → boxLt fs y x → AllLe d fs y := by
    intro fs hfl hax hl
    have hyl := inSet_length hy
    have hxl := inSet_length hx
    have gx := top_good (fs := fs) (m := x) (by omega) (by rw [← List.length_pos_iff]; omega)
    have gy := top_good (fs := fs) (m := y) (by omega) (by rw [← List.length_pos_iff]; omega)
    rw [allLe_iff gx.1 gx.2] at hax
    rw [allLe_iff gy.1 gy.2]
    rcases hl with h | ⟨h, -⟩ <;> omega
  cases s
  · refine ⟨hy.1, ?_⟩
    have := hx.2
    rcases hlt with h | ⟨h, -⟩ <;> omega
  · have := hbox (List.replicate dim 1) (by simp) (allLe_ones.2 hx) hlt
    exact allLe_ones.1 this
  · refine ⟨hy.1, ?_⟩
    have := hx.2
    rw [← ones_eq] at this ⊢
    rcases hlt with h | ⟨h, -⟩ <;> omega
  · exact absurd rfl hs
  · have := hbox (Rectangle.factors dim) (Rectangle.factors_length dim) ((allLe_factors hd).2 hx) hlt
    exact (allLe_factors hd).1 this

theorem IterOk.prefix {s : IndexSet} (hs : s ≠ .cross_nc) {dim d d' : Nat} (hd : 1 ≤ dim) (hdd : d ≤ d')
    {L L' : List IVec} (h : IterOk s dim d L) (h' : IterOk s dim d' L') : L <+: L' :=
  prefix_of_sorted (setLt_strict s dim (Spec.InSet s dim d') (fun x hx => inSet_length hx)) h.sorted h'.sorted
    (fun x hx => (h'.mem x).1 hx)
    (fun x hx => (h'.mem x).2 (inSet_mono hdd ((h.mem x).1 hx)))
    (fun x hx y hy hlt => (h.mem y).2 (initial hs hd ((h.mem x).1 hx) ((h'.mem y).1 hy) hlt))

/-- A simple sufficient condition for the products of `cross_nc` to fit. -/
theorem noWrap_of_pow {dim degree : Nat} (hd : 1 ≤ dim) (h : (max 1 degree + dim - 1) ^ dim < u32) : NoWrap dim degree := by
  intro m hl hs
  refine lt_of_le_of_lt ?_ h
  have key : ∀ (m : List Nat) (D : Nat), 1 ≤ D → (∀ x ∈ m, x ≤ D) → (m.map (max 1)).prod ≤ D ^ m.length := by
    intro m
    induction m with
    | nil => simp
    | cons a m ih =>
      intro D hD hm
      have h1 := ih D hD (fun x hx => hm x (by simp [hx]))
      have h2 := hm a (by simp)
      simp only [List.map_cons, List.prod_cons, List.length_cons, Nat.pow_succ]
      rw [Nat.mul_comm]
      exact Nat.mul_le_mul h1 (by omega)
  rw [← hl]
  rw [hl]
  have := key m (max 1 degree + dim - 1) (by omega) (fun x hx => le_trans (le_sum_of_mem hx) hs)
  rwa [hl] at this

end Hermipy
