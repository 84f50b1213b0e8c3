import Verif.Lemmas.ProjectTensor

/-! # `tensorize_vec_id`, `tensorize_mat_id` -/

namespace Hermipy

open Spec

variable {α : Type}

theorem dirs_single (s : IndexSet) {dim i : Nat} (hi : i < dim) : Dirs s dim [i] :=
  dirs_of_increasing s (by simp) (by simp) (by simpa using hi)

theorem axesDirs_eq (dim : Nat) : axesDirs dim = (List.range dim).map fun i => [i] := rfl

theorem sum_map_range_one (dim : Nat) : (List.map (fun _ => 1) (List.range dim)).sum = dim := by simp

/-- The factors of `tensorize_vec_id`. -/
def idBlock [Zero α] [One α] (L1 : List IVec) (v : List α) (dir i : Nat) : Block α :=
  ⟨[i], L1, if i = dir then v else 1 :: List.replicate (L1.length - 1) 0⟩

theorem replicate_set_eq {β : Type} {dim dir : Nat} (x y : β) :
    (List.replicate dim x).set dir y = (List.range dim).map fun i => if i = dir then y else x := by
  apply List.ext_getElem
  · simp
  · intro i h1 h2
    simp only [List.getElem_map, List.getElem_range]
    by_cases h : i = dir
    · subst h
      rw [List.getElem_set_self, if_pos rfl]
    · rw [List.getElem_set_ne (by omega), if_neg h]
      simp

theorem tensorize_vec_id_eq [MulOneClass α] [Zero α] {s : IndexSet} {L1 : List IVec} (h1 : 1 ≤ L1.length) {v : List α}
    (hv : v.length = L1.length) {dim dir : Nat} (hd : dir < dim) :
    tensorize_vec_id s v dim dir =
      tensorize_vecs_dirs s (((List.range dim).map (idBlock L1 v dir)).map (·.vec))
        (((List.range dim).map (idBlock L1 v dir)).map (·.dirs)) := by
  have e1 : (List.replicate v.length (0 : α)).set 0 1 = 1 :: List.replicate (L1.length - 1) 0 := by
    rw [hv]
    obtain ⟨n, hn⟩ : ∃ n, L1.length = n + 1 := ⟨L1.length - 1, by omega⟩
    rw [hn, List.replicate_succ]
    rfl
  rw [tensorize_vec_id, wr_of_lt (by simp; omega)]
  simp only [Out.ok_bind]
  rw [wr_of_lt (by simpa using hd)]
  simp only [Out.ok_bind]
  rw [tensorize_vecs_axes, e1, replicate_set_eq, axesDirs_eq]
  simp only [List.length_map, List.length_range, List.map_map]
  rfl

theorem idBlock_coef [MonoidWithZero α] {s : IndexSet} {degree : Nat} {L1 : List IVec} (h : IterOk s 1 degree L1)
    (v : List α) (dir i : Nat) (m : IVec) :
    (idBlock L1 v dir i).coef m = if i = dir then coef L1 v [m.getD i 0] else if m.getD i 0 = 0 then 1 else 0 := by
  rw [Block.coef, idBlock]
  simp only [restrict, List.map_cons, List.map_nil]
  by_cases hi : i = dir
  · rw [if_pos hi, if_pos hi]
  · rw [if_neg hi, if_neg hi, coef]
    by_cases h0 : m.getD i 0 = 0
    · rw [if_pos h0, h0]
      have := h.idxOf_zero.1
      simp only [List.replicate_one] at this
      rw [this]
      rfl
    · rw [if_neg h0]
      cases hk : L1.idxOf [m.getD i 0] with
      | zero =>
        exfalso
        obtain ⟨t, ht⟩ := h.runs.head
        rw [ht] at hk
        have : List.replicate 1 0 = [m.getD i 0] := by
          by_contra hc
          rw [List.idxOf_cons_ne _ hc] at hk
          omega
        simp at this
        simp only [List.getD_eq_getElem?_getD] at h0
        omega
      | succ k =>
        rw [List.getD_cons_succ]
        by_cases hk' : k < L1.length - 1
        · simp [hk']
        · rw [List.getD_eq_getElem?_getD, List.getElem?_eq_none (by simp; omega)]
          rfl

theorem idBlock_prod [CommMonoidWithZero α] {s : IndexSet} {degree : Nat} {L1 : List IVec} (h : IterOk s 1 degree L1)
    (v : List α) {dim dir : Nat} (hd : dir < dim) (m : IVec) :
    (((List.range dim).map (idBlock L1 v dir)).map fun b => b.coef m).prod =
      if ∀ j < dim, j ≠ dir → m.getD j 0 = 0 then coef L1 v [m.getD dir 0] else 0 := by
  rw [List.map_map, ← List.prod_toFinset _ List.nodup_range]
  have e : (List.range dim).toFinset = Finset.range dim := by ext; simp
  rw [e]
  simp only [Function.comp, idBlock_coef h]
  rw [← Finset.mul_prod_erase _ _ (Finset.mem_range.2 hd), if_pos rfl]
  by_cases hc : ∀ j < dim, j ≠ dir → m.getD j 0 = 0
  · rw [if_pos hc, Finset.prod_eq_one, mul_one]
    intro j hj
    rw [Finset.mem_erase, Finset.mem_range] at hj
    rw [if_neg hj.1, if_pos (hc j hj.2 hj.1)]
  · rw [if_neg hc]
    push Not at hc
    obtain ⟨j, h1, h2, h3⟩ := hc
    rw [Finset.prod_eq_zero (i := j) (Finset.mem_erase.2 ⟨h2, Finset.mem_range.2 h1⟩), mul_zero]
    rw [if_neg h2, if_neg h3]

theorem idBlock_ok [Zero α] [One α] {s : IndexSet} {dim degree : Nat} {L1 : List IVec} (h : s.s_list 1 degree = .ok L1)
    (h1 : 1 ≤ L1.length) {v : List α} (hv : v.length = L1.length) {dir : Nat} :
    ∀ b ∈ (List.range dim).map (idBlock L1 v dir), b.Ok s degree ∧ Dirs s dim b.dirs ∧ b.dirs.length = 1 := by
  intro b hb
  obtain ⟨i, hi, rfl⟩ := List.mem_map.1 hb
  refine ⟨⟨h, ?_⟩, dirs_single s (by simpa using hi), rfl⟩
  simp only [idBlock]
  by_cases hc : i = dir
  · rw [if_pos hc, hv]
  · rw [if_neg hc]; simp; omega

theorem tensorize_vec_id_ok [CommMonoidWithZero α] {s : IndexSet} {dim degree : Nat} (hu1 : Usable s 1 degree)
    (hz : Sized s dim degree) {L1 L : List IVec} (h1 : s.s_list 1 degree = .ok L1) (hL : IterOk s dim degree L)
    {v : List α} (hv : v.length = L1.length) {dir : Nat} (hd : dir < dim) :
    ∃ r, tensorize_vec_id s v dim dir = .ok r ∧ r.length = L.length ∧
      ∀ (i : Nat) (m : IVec), L[i]? = some m →
        r[i]? = some (if ∀ j < dim, j ≠ dir → m.getD j 0 = 0 then coef L1 v [m.getD dir 0] else 0) := by
  have hok := IterOk.of_list hu1.toSized.fits' h1
  have hpos := List.length_pos_iff.2 hok.runs.ne_nil
  have hbs := idBlock_ok (dim := dim) (dir := dir) h1 hpos hv
  obtain ⟨b0, bs, hc⟩ : ∃ b0 bs, (List.range dim).map (idBlock L1 v dir) = b0 :: bs := by
    cases h : (List.range dim).map (idBlock L1 v dir) with
    | nil => simp at h; omega
    | cons a l => exact ⟨a, l, rfl⟩
  have hsum : (((List.range dim).map (idBlock L1 v dir)).map (·.dirs.length)).sum = dim := by
    rw [List.map_map]
    exact sum_map_range_one dim
  obtain ⟨r, e, hl, h⟩ := tensorize_vecs_ok (b0 := b0) (bs := bs)
    (by rw [(hbs b0 (by rw [hc]; simp)).2.2]; exact hu1) hz (by rw [← hc]; exact hsum)
    (fun b hb => ⟨(hbs b (by rw [hc]; exact hb)).1, (hbs b (by rw [hc]; exact hb)).2.1⟩) hL
  rw [← hc] at e h
  refine ⟨r, by rw [tensorize_vec_id_eq hpos hv hd]; exact e, hl, fun i m hm => ?_⟩
  rw [h i m hm, idBlock_prod hok v hd]

/-! ## Matrices -/

theorem partition_axes {dim : Nat} : Partition dim ((List.range dim).map fun i => [i]) := by
  refine ⟨fun d hd => ?_, ?_⟩
  · obtain ⟨i, -, rfl⟩ := List.mem_map.1 hd
    simp
  · rw [← List.flatMap_def]
    simp

open Classical in
theorem tensorize_mat_id_ok {S T : Type} [CommMonoidWithZero α] [MatOps S α] [Meaning S α] [LawfulMat S α]
    [MatOps T α] [Meaning T α] [LawfulMat T α] [Convert S T] [LawfulConvert S T α] [Convert T (SpMat α)]
    [LawfulConvert T (SpMat α) α] [Convert (SpMat α) T] [LawfulConvert (SpMat α) T α] {s : IndexSet} {dim degree : Nat}
    (hz : Sized s dim degree) (hu : ∀ k, 1 ≤ k → k < dim → Usable s k degree) {L1 L : List IVec}
    (h1 : s.s_list 1 degree = .ok L1) (hL : IterOk s dim degree L) {A : S} {f : Nat → Nat → α}
    (hA : IsMat A L1.length L1.length f) {dir : Nat} (hd : dir < dim) :
    ∃ R : T, tensorize_mat_id (α := α) s A dim dir = .ok R ∧ IsMat R L.length L.length (fun i j =>
      if ∀ x < dim, x ≠ dir → (L.getD i []).getD x 0 = (L.getD j []).getD x 0 then
        entry L1 f [(L.getD i []).getD dir 0] [(L.getD j []).getD dir 0] else 0) := by
  have hok : IterOk s 1 degree L1 := IterOk.of_list (hz.sub le_rfl (by omega)).fits' h1
  have hpos := List.length_pos_iff.2 hok.runs.ne_nil
  have hLpos := List.length_pos_iff.2 hL.runs.ne_nil
  obtain ⟨I, eI, hI⟩ := eye_ok (M := T) (α := α) L1.length
  obtain ⟨A', eA, hA'⟩ := LawfulConvert.convert (T := T) hpos hA
  obtain ⟨blk, hblk⟩ : ∃ blk : Nat → T × MBlock α, blk = fun i =>
    (if i = dir then A' else I, ⟨[i], L1, if i = dir then f else fun a b => if a = b then 1 else 0⟩) := ⟨_, rfl⟩
  have hd1 : ((List.range dim).map blk).map (·.2.dirs) = (List.range dim).map fun i => [i] := by
    rw [List.map_map, hblk]; rfl
  have hd2 : ((List.range dim).map blk).map (·.1) = (List.range dim).map fun i => if i = dir then A' else I := by
    rw [List.map_map, hblk]; rfl
  obtain ⟨R, eR, hR⟩ := tensorize_mats_ok (T := T) (bs := (List.range dim).map blk) hz hu
    (by rw [hd1]; exact partition_axes)
    (by
      intro b hb
      obtain ⟨i, -, rfl⟩ := List.mem_map.1 hb
      rw [hblk]
      refine ⟨h1, ?_⟩
      by_cases hc : i = dir
      · simp only [if_pos hc]; exact hA'
      · simp only [if_neg hc]; exact hI) hL
  rw [hd1, hd2] at eR
  refine ⟨R, ?_, LawfulMat.congr hR fun i j hi hj => ?_⟩
  · rw [tensorize_mat_id, LawfulMat.size1 hA, eI]
    simp only [Out.ok_bind, eA]
    rw [wr_of_lt (by simpa using hd)]
    simp only [Out.ok_bind]
    rw [tensorize_mats_axes, replicate_set_eq, axesDirs_eq]
    simpa using eR
  · rw [List.map_map, ← List.prod_toFinset _ List.nodup_range]
    have e : (List.range dim).toFinset = Finset.range dim := by ext; simp
    rw [e]
    have hin : ∀ i, i < L.length → ∀ x, x < dim → [(L.getD i []).getD x 0] ∈ L1 := by
      intro i hi x hx
      have := inSet_restrict (dirs_single s hx) ((hL.mem (L.getD i [])).1 (by simp [hi]))
      exact (hok.mem _).2 this
    have hfac : ∀ x, x < dim → x ≠ dir → (blk x).2.entry (L.getD i []) (L.getD j []) =
        if (L.getD i []).getD x 0 = (L.getD j []).getD x 0 then 1 else 0 := by
      intro x hx hxd
      rw [hblk]
      simp only [MBlock.entry, restrict, List.map_cons, List.map_nil, if_neg hxd]
      rw [entry, if_pos ⟨hin i hi x hx, hin j hj x hx⟩]
      by_cases hc : (L.getD i []).getD x 0 = (L.getD j []).getD x 0
      · rw [hc]
        simp
      · rw [if_neg hc, if_neg]
        intro h
        have h1 := getElem?_idxOf' (hin i hi x hx)
        have h2 := getElem?_idxOf' (hin j hj x hx)
        rw [h, h2] at h1
        simp only [Option.some.injEq, List.cons.injEq, and_true] at h1
        exact hc h1.symm
    rw [← Finset.mul_prod_erase _ _ (Finset.mem_range.2 hd)]
    have hdirE : ((fun b : T × MBlock α => b.2.entry (L.getD i []) (L.getD j [])) ∘ blk) dir =
        entry L1 f [(L.getD i []).getD dir 0] [(L.getD j []).getD dir 0] := by
      rw [hblk]
      simp only [Function.comp, MBlock.entry, restrict, List.map_cons, List.map_nil, if_true]
    rw [hdirE]
    by_cases hc : ∀ x < dim, x ≠ dir → (L.getD i []).getD x 0 = (L.getD j []).getD x 0
    · rw [if_pos hc, Finset.prod_eq_one, mul_one]
      intro x hx
      rw [Finset.mem_erase, Finset.mem_range] at hx
      simp only [Function.comp]
      rw [hfac x hx.2 hx.1, if_pos (hc x hx.2 hx.1)]
    · rw [if_neg hc]
      push Not at hc
      obtain ⟨x, k1, k2, k3⟩ := hc
      rw [Finset.prod_eq_zero (i := x) (Finset.mem_erase.2 ⟨k2, Finset.mem_range.2 k1⟩), mul_zero]
      simp only [Function.comp]
      rw [hfac x k1 k2, if_neg k3]

end Hermipy
