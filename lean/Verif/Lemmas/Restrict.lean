import Verif.Spec.Coef
import Verif.Lemmas.Enum
import Verif.Lemmas.Degree
import Mathlib.Algebra.Order.BigOperators.Group.Finset
import Mathlib.Algebra.Order.BigOperators.Ring.Finset

/-! # Restrictions and embeddings of multi-indices -/

namespace Hermipy

open Spec

theorem extract_eq {m dirs : IVec} (h : ∀ d ∈ dirs, d < m.length) : extract m dirs = .ok (restrict dirs m) := by
  induction dirs with
  | nil => rfl
  | cons d ds ih =>
    have h1 : d < m.length := h d (by simp)
    rw [extract, rd_of_lt h1, ih (fun x hx => h x (by simp [hx]))]
    simp [restrict, h1]

theorem restrict_length (dirs m : IVec) : (restrict dirs m).length = dirs.length := by simp [restrict]

theorem embed_length (dim : Nat) (dirs sub : IVec) : (embed dim dirs sub).length = dim := by simp [embed]

theorem embed_getD {dim : Nat} {dirs sub : IVec} {j : Nat} (hj : j < dim) :
    (embed dim dirs sub).getD j 0 = at' dirs sub j := by
  simp [embed, hj]

theorem at'_of_getElem {dirs sub : IVec} (hn : dirs.Nodup) {i : Nat} (hi : i < dirs.length) (hl : sub.length = dirs.length) :
    at' dirs sub dirs[i] = sub[i] := by
  rw [at', hn.idxOf_getElem i hi]
  simp [hl, hi]

theorem at'_of_notMem {dirs sub : IVec} {j : Nat} (hj : j ∉ dirs) (hl : sub.length ≤ dirs.length) : at' dirs sub j = 0 := by
  rw [at', List.idxOf_eq_length hj]
  simp [hl]

theorem restrict_embed {dim : Nat} {dirs sub : IVec} (hn : dirs.Nodup) (hlt : ∀ d ∈ dirs, d < dim)
    (hl : sub.length = dirs.length) : restrict dirs (embed dim dirs sub) = sub := by
  apply List.ext_getElem
  · simp [restrict_length, hl]
  · intro i h1 h2
    rw [restrict_length] at h1
    simp only [restrict, List.getElem_map]
    rw [embed_getD (hlt _ (List.getElem_mem h1)), at'_of_getElem hn h1 hl]

theorem isAlignedFrom_iff (dirs : IVec) : ∀ (m : IVec) (j : Nat),
    isAlignedFrom dirs j m = true ↔ ∀ i, m.getD i 0 ≠ 0 → j + i ∈ dirs
  | [], j => by simp [isAlignedFrom]
  | x :: xs, j => by
    rw [isAlignedFrom]
    by_cases h : x ≠ 0 ∧ j ∉ dirs
    · rw [if_pos h]
      simp only [Bool.false_eq_true, false_iff, not_forall]
      exact ⟨0, by simpa using h.1, by simpa using h.2⟩
    · rw [if_neg h, isAlignedFrom_iff dirs xs (j + 1)]
      constructor
      · intro h2 i hi
        cases i with
        | zero =>
          simp at hi
          by_contra hc
          exact h ⟨hi, by simpa using hc⟩
        | succ i =>
          have := h2 i (by simpa using hi)
          rwa [show j + (i + 1) = j + 1 + i by omega]
      · intro h2 i hi
        have := h2 (i + 1) (by simpa using hi)
        rwa [show j + 1 + i = j + (i + 1) by omega]

theorem isAligned_iff {m dirs : IVec} : isAligned m dirs = true ↔ ∀ i, m.getD i 0 ≠ 0 → i ∈ dirs := by
  rw [isAligned, isAlignedFrom_iff]; simp

theorem aligned_iff_embed {dim : Nat} {m dirs : IVec} (hm : m.length = dim) :
    isAligned m dirs = true ↔ m = embed dim dirs (restrict dirs m) := by
  rw [isAligned_iff]
  constructor
  · intro h
    apply List.ext_getElem
    · simp [embed_length, hm]
    · intro i h1 h2
      have h3 : m[i] = m.getD i 0 := by simp [h1]
      have h4 : (embed dim dirs (restrict dirs m))[i] = (embed dim dirs (restrict dirs m)).getD i 0 := by simp [h2]
      rw [h3, h4, embed_getD (by omega)]
      by_cases hi : i ∈ dirs
      · obtain ⟨p, hp, hpe⟩ := List.getElem_of_mem hi
        have hlt := List.idxOf_lt_length_of_mem hi
        rw [at', restrict]
        simp only [List.getD_eq_getElem?_getD, List.getElem?_map]
        rw [List.getElem?_eq_getElem hlt]
        simp [List.getElem_idxOf]
      · rw [at'_of_notMem hi (by simp [restrict_length])]
        by_contra hc
        exact hi (h i hc)
  · intro h i hi
    by_contra hc
    by_cases hid : i < dim
    · rw [h, embed_getD hid, at'_of_notMem hc (by simp [restrict_length])] at hi
      exact hi rfl
    · simp [show m.length ≤ i by omega] at hi

/-! ## Membership of restrictions -/

theorem sum_eq_range (m : List Nat) : m.sum = ∑ i ∈ Finset.range m.length, m.getD i 0 := by
  induction m with
  | nil => simp
  | cons a m ih => rw [List.sum_cons, List.length_cons, Finset.sum_range_succ', ih]; simp [Nat.add_comm]

theorem prod_eq_range (m : List Nat) : (m.map (max 1)).prod = ∏ i ∈ Finset.range m.length, max 1 (m.getD i 0) := by
  induction m with
  | nil => simp
  | cons a m ih => rw [List.map_cons, List.prod_cons, List.length_cons, Finset.prod_range_succ', ih]; simp [Nat.mul_comm]

theorem restrict_sum_le {dirs m : IVec} (hn : dirs.Nodup) (hlt : ∀ d ∈ dirs, d < m.length) : (restrict dirs m).sum ≤ m.sum := by
  rw [sum_eq_range m, restrict, ← List.sum_toFinset _ hn]
  exact Finset.sum_le_sum_of_subset (fun d hd => by simpa using hlt d (by simpa using hd))

theorem restrict_prod_le {dirs m : IVec} (hn : dirs.Nodup) (hlt : ∀ d ∈ dirs, d < m.length) :
    ((restrict dirs m).map (max 1)).prod ≤ (m.map (max 1)).prod := by
  rw [prod_eq_range m, restrict, List.map_map, ← List.prod_toFinset _ hn]
  exact Finset.prod_le_prod_of_subset_of_one_le' (fun d hd => by simpa using hlt d (by simpa using hd))
    (fun _ _ _ => by simp)

theorem inSet_restrict {s : IndexSet} {dim degree : Nat} {dirs m : IVec} (hd : Dirs s dim dirs)
    (hm : InSet s dim degree m) : InSet s dirs.length degree (restrict dirs m) := by
  have hlen := inSet_length hm
  have hlt : ∀ d ∈ dirs, d < m.length := fun d h => by rw [hlen]; exact hd.lt d h
  cases s
  · exact ⟨restrict_length _ _, le_trans (restrict_sum_le hd.nodup hlt) hm.2⟩
  · refine ⟨restrict_length _ _, fun x hx => ?_⟩
    obtain ⟨d, hd', rfl⟩ := List.mem_map.1 hx
    apply hm.2
    simp [hlt d hd']
  · exact ⟨restrict_length _ _, le_trans (restrict_prod_le hd.nodup hlt) hm.2⟩
  · exact ⟨restrict_length _ _, le_trans (restrict_prod_le hd.nodup hlt) hm.2⟩
  · refine ⟨restrict_length _ _, fun i hi => ?_⟩
    rw [restrict_length] at hi
    have h1 := hlt _ (List.getElem_mem hi)
    have h2 := hm.2 _ h1
    have h3 : (restrict dirs m)[i]'(by rw [restrict_length]; exact hi) = m[dirs[i]] := by
      simp [restrict, h1]
    rw [h3]
    refine le_trans h2 ?_
    split
    · rename_i h0
      rw [if_pos (hd.first rfl i hi h0)]
    · split <;> omega

/-! ## Padding with zeros -/

theorem inSet_pad {s : IndexSet} {k j degree : Nat} {m : IVec} (hm : InSet s k degree m) :
    InSet s (k + j) degree (m ++ List.replicate j 0) := by
  have hlen := inSet_length hm
  have hl : (m ++ List.replicate j 0).length = k + j := by simp [hlen]
  cases s
  · exact ⟨hl, by simpa using hm.2⟩
  · refine ⟨hl, fun x hx => ?_⟩
    rw [List.mem_append] at hx
    rcases hx with hx | hx
    · exact hm.2 x hx
    · rw [List.mem_replicate] at hx; omega
  · exact ⟨hl, by simpa using hm.2⟩
  · exact ⟨hl, by simpa using hm.2⟩
  · refine ⟨hl, fun i hi => ?_⟩
    rw [List.getElem_append]
    split
    · exact hm.2 i _
    · simp

theorem card_pad {s : IndexSet} {k j degree : Nat} : card s k degree ≤ card s (k + j) degree := by
  refine Set.ncard_le_ncard_of_injOn (fun m => m ++ List.replicate j 0) (fun m hm => inSet_pad hm) ?_
    (finite_inSet s (k + j) degree)
  intro a _ b _ h
  exact List.append_cancel_right h

theorem noWrap_dim {k dim degree : Nat} (hk : 1 ≤ k) (h : k ≤ dim) (hw : NoWrap dim degree) : NoWrap k degree := by
  intro m hl hs
  have := hw (m ++ List.replicate (dim - k) 1) (by simp [hl]; omega) (by simp; omega)
  simpa using this

theorem Fits.sub {s : IndexSet} {k dim degree : Nat} (hk : 1 ≤ k) (h : k ≤ dim) (hf : Fits s dim degree) : Fits s k degree :=
  ⟨hk, fun e => noWrap_dim hk h (hf.2 e)⟩

/-! ## Equal sets have equal listings -/

theorem sorted_ext {P : IVec → Prop} {lt : IVec → IVec → Prop} (ho : StrictOn P lt) {L L' : List IVec} (h : L.Pairwise lt)
    (h' : L'.Pairwise lt) (hP : ∀ x ∈ L, P x) (hm : ∀ x, x ∈ L ↔ x ∈ L') : L = L' := by
  have h1 := prefix_of_sorted ho h h' (fun x hx => hP x ((hm x).2 hx)) (fun x hx => (hm x).1 hx)
    (fun x _ y hy _ => (hm y).2 hy)
  have h2 := prefix_of_sorted ho h' h (fun x hx => hP x hx) (fun x hx => (hm x).2 hx) (fun x _ y hy _ => (hm y).1 hy)
  exact h1.eq_of_length_le h2.length_le

theorem IterOk.congr {s : IndexSet} {dim d d' : Nat} {L L' : List IVec} (h : IterOk s dim d L) (h' : IterOk s dim d' L')
    (hs : ∀ m, InSet s dim d m ↔ InSet s dim d' m) : L = L' :=
  sorted_ext (setLt_strict s dim (InSet s dim d) (fun x hx => inSet_length hx)) h.sorted h'.sorted
    (fun x hx => (h.mem x).1 hx) (fun x => by rw [h.mem, h'.mem, hs])

/-! ## Coefficients -/

theorem idxOf_of_getElem? {L : List IVec} (hn : L.Nodup) {i : Nat} {m : IVec} (h : L[i]? = some m) : L.idxOf m = i := by
  obtain ⟨hi, rfl⟩ := List.getElem?_eq_some_iff.1 h
  exact hn.idxOf_getElem i hi

theorem coef_of_getElem? {α : Type} [Zero α] {L : List IVec} (hn : L.Nodup) {v : List α} {i : Nat} {m : IVec}
    (h : L[i]? = some m) : coef L v m = v.getD i 0 := by
  rw [coef, idxOf_of_getElem? hn h]

theorem coef_of_notMem {α : Type} [Zero α] {L : List IVec} {v : List α} (hl : v.length ≤ L.length) {m : IVec}
    (h : m ∉ L) : coef L v m = 0 := by
  rw [coef, List.idxOf_eq_length h]
  simp [hl]

theorem getElem?_idxOf' {L : List IVec} {m : IVec} (h : m ∈ L) : L[L.idxOf m]? = some m := by
  rw [List.getElem?_eq_getElem (List.idxOf_lt_length_of_mem h)]
  simp [List.getElem_idxOf]

theorem IterOk.index_of_mem {s : IndexSet} {dim degree : Nat} {L : List IVec} (h : IterOk s dim degree L) {m : IVec}
    (hm : InSet s dim degree m) : (freshIter dim L).index m = .ok (L.idxOf m) :=
  (h.index m _).2 (getElem?_idxOf' ((h.mem m).2 hm))

end Hermipy
